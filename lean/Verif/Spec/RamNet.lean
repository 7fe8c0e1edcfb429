/-
Specification of a program with a memory in a boolean session: what it computes on plain values, the memory being the list of accesses so far;
and what is assumed of the comparison circuits.
-/
import Verif.Model.RamNet
import Verif.Spec.MixNet
import Verif.Spec.Memory

namespace EmpZk

/-- What is assumed of the comparison circuits: one wire per gate, the last one is the result. `<` is the top bit of the difference. -/
structure CmpLib.Good (lib : CmpLib) : Prop where
  eq : ∀ (b : Plain) (us vs : List Nat) (xs ys : List Bool), us.length = vs.length → pick b.wires us = some xs → pick b.wires vs = some ys →
    ∃ t, (lib.eq b.wires.length us vs).foldlM plainStep b = some { b with wires := b.wires ++ t } ∧
      t.length = (lib.eq b.wires.length us vs).length ∧ t.getLast? = some (decide (xs = ys))
  lt : ∀ (b : Plain) (us vs : List Nat) (xs ys : List Bool), us.length = vs.length → 0 < us.length → pick b.wires us = some xs →
    pick b.wires vs = some ys →
    ∃ t, (lib.lt b.wires.length us vs).foldlM plainStep b = some { b with wires := b.wires ++ t } ∧
      t.length = (lib.lt b.wires.length us vs).length ∧ t.getLast? = some (ltW us.length (bitsNum xs) (bitsNum ys))

/-- Plain values of a program with a memory: those of the boolean part, and the accesses so far. -/
structure UPlain where
  bp : Plain
  log : List (Acc Nat)

/-- The access `e` on plain values; new wires: `new`, the number of accesses so far (public), and `fl`. -/
def UPlain.push (c : RamCfg) (u : UPlain) (e : Acc Nat) (new fl : List Bool) : UPlain :=
  ⟨{ u.bp with wires := u.bp.wires ++ (new ++ (bitsOf c.ssz u.log.length ++ fl)) }, u.log ++ [e]⟩

/-- One call on plain values: a read gives the bits of the latest value written to the address (zero if there is none). `none`: an operand
does not exist, an address or a value does not fit the widths of the memory. -/
def uplainStep (c : RamCfg) (u : UPlain) : UOp → Option UPlain
  | .bool o => (plainStep u.bp o).map (fun b => { u with bp := b })
  | .read ix => do
      let ib ← pick u.bp.wires ix
      let a := bitsNum ib
      let v := (lastWrite u.log a).getD 0
      if c.isz ≤ ix.length ∧ a < 2 ^ c.isz then some (u.push c ⟨a, false, v⟩ (bitsOf c.vsz v) [false]) else none
  | .write ix vs => do
      let ib ← pick u.bp.wires ix
      let vb ← pick u.bp.wires vs
      if c.isz ≤ ix.length ∧ bitsNum ib < 2 ^ c.isz ∧ c.vsz ≤ vs.length ∧ bitsNum vb < 2 ^ c.vsz then
        some (u.push c ⟨bitsNum ib, true, bitsNum vb⟩ [] [true])
      else none
  | .access op ix vs => do
      let ib ← pick u.bp.wires ix
      let ob ← u.bp.wires[op]?
      let vb ← pick u.bp.wires vs
      let a := bitsNum ib
      let v := if ob then bitsNum vb else (lastWrite u.log a).getD 0
      if c.isz ≤ ix.length ∧ a < 2 ^ c.isz ∧ bitsNum vb < 2 ^ c.vsz then some (u.push c ⟨a, ob, v⟩ (bitsOf c.vsz v) []) else none

/-- A program on plain values. -/
def uplainOps (c : RamCfg) (u : UPlain) (us : List UOp) : Option UPlain := us.foldlM (uplainStep c) u

end EmpZk
