/-
Specification for C95: what a sender of trees can get away with.
-/
import Verif.Spec.Ggm
import Verif.Spec.ArithCommit
import Verif.Model.Mpfss
import Verif.Model.F2kVole

namespace EmpZk
open Finset

/-! ### over F_{2^128} -/

/-- The key a leaf belongs to: the receiver's leaf `w k` of a tree with noise value `x` at position `pos` is the MAC of that value
there and of zero elsewhere. If the leaves are to be valid correlations, these are the sender's keys. -/
noncomputable def keyOfLeaf (delta : GF128) (pos : Nat) (x : GF128) (w : Nat → GF128) (k : Nat) : GF128 :=
  w k + if k = pos then x * delta else 0

/-- Some mask (value `r`, authenticated under the key `y`) makes the receiver with choices `b`, noise values `x` and leaves `w` send
`xs` and accept the answer for the block `v`. -/
def AcceptsF (levels treeN : Nat) (delta y : GF128) (digest : Nat → GF128) (b : Nat → Nat → Bool) (x : Nat → GF128)
    (w : Nat → Nat → GF128) (xs v : GF128) : Prop :=
  ∃ r, f2kCheckRecv digest levels treeN b (fun i => if i = treeN then r else x i) (y + r * delta)
    ((List.range treeN).map fun i => (List.range (2 ^ levels)).map (w i)) = some (xs, v)

/-- Error of the leaves next to each other: `e0` and `e1` at the two leaves of the pair that contains `pos`. -/
def pairErr (e0 e1 : GF128) (pos k : Nat) : GF128 := if k / 2 = pos / 2 then (if k % 2 = 0 then e0 else e1) else 0

/-- The OT messages of a sender that deviates: those of its tree (`p` for level `j`), with `s` added to the first message of the last
level and one to the second. -/
def spoil (s : GF128) (levels j : Nat) (p : U128 × U128) : U128 × U128 := if j + 1 = levels then (p.1 ^^^ s.bits, p.2 ^^^ 1) else p

/-! ### over F_p -/

/-- The same over F_p. -/
def keyOfLeafP (d : Fp) (pos : Nat) (x : Fp) (w : Nat → Fp) (k : Nat) : Fp := w k - if k = pos then x * d else 0

/-- Some mask `z`, authenticated under the key `y`, makes the receiver with choices `b`, correlations `mac` and leaves `w` send `xs` and
accept the answer for the word `v`. -/
def AcceptsP (levels treeN : Nat) (d : Fp) (y : U128) (digest : Nat → W) (b : Nat → Nat → Bool) (mac : Nat → U128)
    (w : Nat → Nat → Fp) (xs v : W) : Prop :=
  ∃ z out, Auth (toW d) z y ∧ mpfssCheckRecv digest levels treeN b (fun i => if i = treeN then z else mac i)
    ((List.range treeN).map fun i => (List.range (2 ^ levels)).map fun k => (toW (w i k)).setWidth 128) = some (xs, v, out)

end EmpZk
