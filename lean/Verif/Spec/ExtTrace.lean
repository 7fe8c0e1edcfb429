/-
Specification of what a program with a memory of several words per cell can be made to do when the prover chooses the values of the reads: a run
of the program in which all words that come out of the memory are arbitrary, and its list of accesses.
-/
import Verif.Spec.ExtNet
import Verif.Spec.RamTrace

namespace EmpZk

/-- The call uses the memory. -/
def XOp.isMem : XOp → Bool
  | .bool _ => false
  | _ => true

/-- Number of accesses of a program. -/
def xaccesses (us : List XOp) : Nat := us.countP XOp.isMem

/-- The same call, except that a private input may have another value. -/
def XOp.same : XOp → XOp → Prop
  | .bool o, .bool o' => BOp.same o o'
  | o, o' => o = o'

/-- Addresses have exactly the width of the memory, values have the right number of words, of at most 64 bits. -/
def XOp.Widths (c : RxCfg) : XOp → Prop
  | .bool _ => True
  | .read ix => ix.length = c.isz
  | .write ix vs => ix.length = c.isz ∧ vs.length = (c.vsz + 63) / 64 ∧ ∀ w ∈ vs, w.length ≤ 64

/-- One call from `u` to `u'` in which what the memory returns are any words. -/
def XTraceStep (c : RxCfg) (u : XPlain) (o : XOp) (u' : XPlain) : Prop :=
  match o with
  | .bool o => ∃ b, plainStep u.bp o = some b ∧ u' = { u with bp := b }
  | .read ix => ∃ ib v, pick u.bp.wires ix = some ib ∧ v.length = (c.vsz + 63) / 64 ∧ (∀ w ∈ v, w < 2 ^ 64) ∧
      u' = u.push c ⟨bitsNum ib, false, v⟩ (v.flatMap (bitsOf 64)) [false]
  | .write ix vs => ∃ ib vbs, pick u.bp.wires ix = some ib ∧ vs.mapM (pick u.bp.wires) = some vbs ∧
      u' = u.push c ⟨bitsNum ib, true, vbs.map bitsNum⟩ [] [true]

/-- A whole run. -/
inductive XTrace (c : RxCfg) : XPlain → List XOp → XPlain → Prop
  | nil (u : XPlain) : XTrace c u [] u
  | cons {u u1 u2 : XPlain} {o : XOp} {os : List XOp} (h : XTraceStep c u o u1) (hs : XTrace c u1 os u2) : XTrace c u (o :: os) u2

/-- The accesses of a log with their numbers. -/
def xrowsOfLog (l : List (Acc (List Nat))) : List ExtEnt := l.mapIdx (fun i a => (⟨a.idx, i, a.op, a.val⟩ : ExtEnt))

/-- The first `m` blocks of `k` elements of a list. -/
def blocksOf {α : Type} (k m : Nat) (l : List α) : List (List α) := (List.range m).map (fun i => (l.drop (i * k)).take k)

end EmpZk
