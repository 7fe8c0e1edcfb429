/-
Specification of what a program with a read-only memory can be made to do when the prover chooses the values of the reads: a run of the program
in which every value that comes out of the memory is arbitrary, with its reads and the bits its checks reveal.
-/
import Verif.Spec.RoNet
import Verif.Spec.RamTrace
import Verif.Lemmas.RoRam
import Verif.Lemmas.F2kChain

namespace EmpZk

/-- The same call, except that a private input may have another value. -/
def VOp.same : VOp → VOp → Prop
  | .bool o, .bool o' => BOp.same o o'
  | o, o' => o = o'

/-- Addresses have exactly the width of the memory. -/
def VOp.Widths (c : RoCfg) : VOp → Prop
  | .read ix => ix.length = c.isz
  | _ => True

/-- A run so far: plain values of the boolean part, the reads that were checked, the reads since the last check, and the places among the outputs of
the bits that checks revealed. -/
structure VTr where
  bp : Plain
  done : List RoEnt
  since : List RoEnt
  marks : List Nat

/-- A read. -/
def VTr.push (c : RoCfg) (u : VTr) (e : RoEnt) : VTr :=
  { u with bp := { u.bp with wires := u.bp.wires ++ bitsOf c.vsz e.val }, since := u.since ++ [e] }

/-- A check that reveals `rb`. -/
def VTr.check (u : VTr) (rb : List Bool) : VTr :=
  ⟨{ u.bp with outs := u.bp.outs ++ rb }, u.done ++ u.since, [], u.marks ++ List.range' u.bp.outs.length rb.length⟩

/-- One call from `u` to `u'` for `n` elements: a read returns any value of its width; a check of the reads `l` reveals bits allowed by `K l`. -/
def VTraceStep (c : RoCfg) (n : Nat) (K : List RoEnt → List Bool → Prop) (u : VTr) (o : VOp) (u' : VTr) : Prop :=
  match o with
  | .bool o => ∃ b, plainStep u.bp o = some b ∧ u' = { u with bp := b }
  | .read ix => ∃ ib v, pick u.bp.wires ix = some ib ∧ v < 2 ^ c.vsz ∧
      ((u.since.length + 1 ≠ 8 * n ∧ u' = u.push c ⟨bitsNum ib, v⟩) ∨
        (u.since.length + 1 = 8 * n ∧ ∃ rb, K (u.since ++ [⟨bitsNum ib, v⟩]) rb ∧ u' = (u.push c ⟨bitsNum ib, v⟩).check rb))
  | .check => 3 ≤ n + u.since.length ∧ ∃ rb, K u.since rb ∧ u' = u.check rb

/-- A whole run. -/
inductive VTrace (c : RoCfg) (n : Nat) (K : List RoEnt → List Bool → Prop) : VTr → List VOp → VTr → Prop
  | nil (u : VTr) : VTrace c n K u [] u
  | cons {u u1 u2 : VTr} {o : VOp} {os : List VOp} (h : VTraceStep c n K u o u1) (hs : VTrace c n K u1 os u2) : VTrace c n K u (o :: os) u2

/-- A check of `n` elements and the reads `l` reveals one bit fewer than it has rows. -/
def anyBits (n : Nat) (l : List RoEnt) (rb : List Bool) : Prop := rb.length + 1 = n + l.length

/-- The bits revealed for some sorted rows: whether each row and the next one are in order. -/
def roBits (c : RoCfg) : List RoEnt → List Bool
  | p :: e :: l => roCond2 c p e :: roBits c (e :: l)
  | _ => []

/-- Rows of the widths of the wires: the index has one bit more than the address. -/
def RoEnt.Wide (c : RoCfg) (e : RoEnt) : Prop := e.idx < 2 ^ (c.isz + 1) ∧ e.val < 2 ^ c.vsz

/-- The bits revealed for sorted rows the prover chooses so that the packed words are those of the contents and of the reads, up to order. -/
def rowBitsOf (c : RoCfg) (mem : List Nat) (l : List RoEnt) (rb : List Bool) : Prop :=
  ∃ rows : List RoEnt, (∀ e ∈ rows, e.Wide c) ∧ (rows.map (roPacked c)).Perm ((roRows 0 mem ++ l).map (roPacked c)) ∧ rb = roBits c rows

/-- The state of the parties at the check made in a call, if there is one (for the numbers of their wires, committed blocks and challenges). -/
def roSite (c : RoCfg) (g : RoNet) : VOp → Option RoNet
  | .bool _ => none
  | .read ix => do
      let (_, g1) ← vPush c g ix
      if g1.st.step = g1.st.mem.length * 8 then some g1 else none
  | .check => some g

/-- The states at all checks of the calls. -/
def roSites (lib : CmpLib) (c : RoCfg) : RoNet → List VOp → List RoNet
  | _, [] => []
  | g, o :: os =>
    (roSite c g o).toList ++
      match vGen lib c g o with
      | some (_, g1) => roSites lib c g1 os
      | none => []

/-- The checks of a whole program. -/
def roChecks (lib : CmpLib) (c : RoCfg) (bits : List Bool) (data : List (List Nat)) (us : List VOp) : List RoNet :=
  match vInit c 0 ⟨bits, List.range bits.length, 0, 0, ⟨[], [], [], 0⟩, []⟩ data with
  | some (_, g) => roSites lib c g us
  | none => []

/-- The extra index bit of a sorted row of the check is set. -/
def ExtraBit (c : RoCfg) (ws : List Bool) (g : RoNet) : Prop :=
  ∃ k < g.st.list.length, ws[g.bits.length + k * roW c + (roW c - 1)]? = some true

/-- The challenge of the check is a root of the difference of two different products. -/
def BadPoint {F : Type} [Field F] (fw rs : List F) (g : RoNet) : Prop :=
  ∃ r L, rs[g.nr]? = some r ∧ pick fw g.macs = some L ∧
    prodAt r ((fw.drop g.nf).take g.st.list.length) = prodAt r L ∧ ¬ ((fw.drop g.nf).take g.st.list.length).Perm L

/-- Every read inside the contents returned the element at its address. -/
def ReadsRight (mem : List Nat) (l : List RoEnt) : Prop := ∀ e ∈ l, ∀ v, mem[e.idx]? = some v → e.val = v

end EmpZk
