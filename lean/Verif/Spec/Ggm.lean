/-
Specification of a GGM tree: node `k` of level `h` is obtained from the root by following the `h` low bits of `k`, most
significant bit first.
-/
import Verif.Model.Word
import Mathlib.Data.Nat.Digits.Defs

namespace EmpZk

/-- Node `k` of level `h`. -/
def ggmNode (G0 G1 : U128 → U128) (seed : U128) : Nat → Nat → U128
  | 0, _ => seed
  | h + 1, k => if k % 2 = 0 then G0 (ggmNode G0 G1 seed h (k / 2)) else G1 (ggmNode G0 G1 seed h (k / 2))

/-- The number whose binary digits, most significant first, are the complements of the first `n` choice bits. -/
def puncturedAt (b : Nat → Bool) (n : Nat) : Nat :=
  Nat.ofDigits 2 (((List.range n).map (fun i => if b i then 0 else 1)).reverse)

end EmpZk
