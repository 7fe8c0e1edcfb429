/-
Specification of what a program with a memory can be made to do when the prover chooses the values of the reads: a run of the program in which
every value that comes out of the memory is arbitrary, and its list of accesses.
-/
import Verif.Spec.RamNet

namespace EmpZk

/-- The comparison circuits take no input of the prover. -/
structure CmpLib.NoIn (lib : CmpLib) : Prop where
  eq : ∀ n us vs, ∀ o ∈ lib.eq n us vs, ∀ b, o ≠ .input b
  lt : ∀ n us vs, ∀ o ∈ lib.lt n us vs, ∀ b, o ≠ .input b

/-- The call uses the memory. -/
def UOp.isMem : UOp → Bool
  | .bool _ => false
  | _ => true

/-- Number of accesses of a program. -/
def accesses (us : List UOp) : Nat := us.countP UOp.isMem

/-- The same call, except that a private input may have another value. -/
def UOp.same : UOp → UOp → Prop
  | .bool o, .bool o' => BOp.same o o'
  | o, o' => o = o'

/-- Addresses and values have exactly the widths of the memory. -/
def UOp.Widths (c : RamCfg) : UOp → Prop
  | .bool _ => True
  | .read ix => ix.length = c.isz
  | .write ix vs => ix.length = c.isz ∧ vs.length = c.vsz
  | .access _ ix vs => ix.length = c.isz ∧ vs.length = c.vsz

/-- Not a call of `access`. -/
def UOp.Plain : UOp → Prop
  | .access _ _ _ => False
  | _ => True

/-- One call from `u` to `u'` in which what the memory returns is any value of its width. A write stores its argument; an access with the flag
set stores what it returns. -/
def UTraceStep (c : RamCfg) (u : UPlain) (o : UOp) (u' : UPlain) : Prop :=
  match o with
  | .bool o => ∃ b, plainStep u.bp o = some b ∧ u' = { u with bp := b }
  | .read ix => ∃ ib v, pick u.bp.wires ix = some ib ∧ v < 2 ^ c.vsz ∧ u' = u.push c ⟨bitsNum ib, false, v⟩ (bitsOf c.vsz v) [false]
  | .write ix vs => ∃ ib vb, pick u.bp.wires ix = some ib ∧ pick u.bp.wires vs = some vb ∧ u' = u.push c ⟨bitsNum ib, true, bitsNum vb⟩ [] [true]
  | .access op ix vs => ∃ ib ob vb v, pick u.bp.wires ix = some ib ∧ u.bp.wires[op]? = some ob ∧ pick u.bp.wires vs = some vb ∧ v < 2 ^ c.vsz ∧
      u' = u.push c ⟨bitsNum ib, ob, v⟩ (bitsOf c.vsz v) []

/-- A whole run. -/
inductive UTrace (c : RamCfg) : UPlain → List UOp → UPlain → Prop
  | nil (u : UPlain) : UTrace c u [] u
  | cons {u u1 u2 : UPlain} {o : UOp} {os : List UOp} (h : UTraceStep c u o u1) (hs : UTrace c u1 os u2) : UTrace c u (o :: os) u2

/-- The accesses of a log with their numbers. -/
def rowsOfLog (l : List (Acc Nat)) : List RamEnt := l.mapIdx (fun i a => (⟨a.idx, i, a.op, a.val⟩ : RamEnt))

end EmpZk
