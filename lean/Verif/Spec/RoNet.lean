/-
Specification of a program with a read-only memory in a boolean session: what it computes on plain values.
-/
import Verif.Model.RoNet
import Verif.Spec.RamNet

namespace EmpZk

/-- Plain values of a program with a read-only memory: those of the boolean part (the bits a check opens are among the outputs), and the
number of reads since the last check. -/
structure VPlain where
  bp : Plain
  since : Nat

/-- A check of `n` rows opens `n - 1` bits, all true. -/
def VPlain.checked (u : VPlain) (n : Nat) : VPlain := ⟨{ u.bp with outs := u.bp.outs ++ List.replicate (n - 1) true }, 0⟩

/-- One call on plain values, for the contents `mem`: a read gives the bits of the element at the address; after eight reads per element there
is a check. `none`: an operand does not exist, the address is outside, or a check of fewer than three rows. -/
def vplainStep (c : RoCfg) (mem : List Nat) (u : VPlain) : VOp → Option VPlain
  | .bool o => (plainStep u.bp o).map (fun b => { u with bp := b })
  | .read ix => do
      let ib ← pick u.bp.wires ix
      let v ← mem[bitsNum ib]?
      let u1 : VPlain := ⟨{ u.bp with wires := u.bp.wires ++ bitsOf c.vsz v }, u.since + 1⟩
      if ix.length < c.isz then none
      else if u1.since = 8 * mem.length then some (u1.checked (mem.length + u1.since)) else some u1
  | .check => if 3 ≤ mem.length + u.since then some (u.checked (mem.length + u.since)) else none

/-- A program on plain values. -/
def vplainOps (c : RoCfg) (mem : List Nat) (u : VPlain) (us : List VOp) : Option VPlain := us.foldlM (vplainStep c mem) u

end EmpZk
