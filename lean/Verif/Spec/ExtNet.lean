/-
Specification of a program with a memory of several words per cell in a boolean session: what it computes on plain values, the memory being
the list of accesses so far.
-/
import Verif.Model.ExtNet
import Verif.Spec.RamNet

namespace EmpZk

/-- Plain values of a program with such a memory: those of the boolean part, and the accesses so far. -/
structure XPlain where
  bp : Plain
  log : List (Acc (List Nat))

/-- The access `e` on plain values; new wires: `new`, the number of accesses so far (public), and `fl`. -/
def XPlain.push (c : RxCfg) (u : XPlain) (e : Acc (List Nat)) (new fl : List Bool) : XPlain :=
  ⟨{ u.bp with wires := u.bp.wires ++ (new ++ (bitsOf c.ssz u.log.length ++ fl)) }, u.log ++ [e]⟩

/-- One call on plain values: a read gives the 64 bits of each word of the latest value written to the address. `none`: an operand does not
exist, nothing was written to the address, an address or a value does not fit. -/
def xplainStep (c : RxCfg) (u : XPlain) : XOp → Option XPlain
  | .bool o => (plainStep u.bp o).map (fun b => { u with bp := b })
  | .read ix => do
      let ib ← pick u.bp.wires ix
      let a := bitsNum ib
      let v ← lastWrite u.log a
      if ix.length ≤ 32 ∧ a < 2 ^ c.isz then some (u.push c ⟨a, false, v⟩ (v.flatMap (bitsOf 64)) [false]) else none
  | .write ix vs => do
      let ib ← pick u.bp.wires ix
      let vbs ← vs.mapM (pick u.bp.wires)
      if ix.length ≤ 32 ∧ bitsNum ib < 2 ^ c.isz ∧ vs.length = (c.vsz + 63) / 64 ∧ ∀ w ∈ vs, w.length ≤ 64 then
        some (u.push c ⟨bitsNum ib, true, vbs.map bitsNum⟩ [] [true])
      else none

/-- A program on plain values. -/
def xplainOps (c : RxCfg) (u : XPlain) (us : List XOp) : Option XPlain := us.foldlM (xplainStep c) u

end EmpZk
