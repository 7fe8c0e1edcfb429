/-
Helper lemmas for the batched carry-less multiplication.
-/
import Verif.Model.GfMul
import Verif.Lemmas.GF128
import Verif.Lemmas.Word

namespace EmpZk
open Polynomial

theorem clmulepi64_toNat (a b : U128) (s t : Bool) :
    toPoly (clmulepi64 a b s t).toNat =
      toPoly (if s then high64 a else low64 a).toNat * toPoly (if t then high64 b else low64 b).toNat := by
  unfold clmulepi64
  simp only
  rw [BitVec.toNat_ofNat, Nat.mod_eq_of_lt (clmulN_lt _ _ 64 64 (BitVec.isLt _)),
    toPoly_clmulN _ _ 64 (BitVec.isLt _)]

theorem toPoly_split (x n : Nat) : toPoly x = toPoly (x % 2^n) + toPoly (x / 2^n) * X ^ n := by
  rw [← toPoly_shift, ← toPoly_xor]
  congr 1
  apply Nat.eq_of_testBit_eq
  intro i
  rw [Nat.testBit_xor, Nat.testBit_mod_two_pow, Nat.testBit_shiftLeft, Nat.testBit_div_two_pow]
  by_cases h : i < n
  · simp [h, show ¬ n ≤ i by omega]
  · simp [h, show n ≤ i by omega, show n + (i - n) = i by omega]

theorem toPoly_u128 (x : U128) :
    toPoly x.toNat = toPoly (low64 x).toNat + toPoly (high64 x).toNat * X ^ 64 := by
  rw [low64_toNat, high64_toNat]; exact toPoly_split _ _

theorem toPoly_append (lo : U128) (hi : Nat) :
    toPoly (lo.toNat + 2^128 * hi) = toPoly lo.toNat + toPoly hi * X ^ 128 := by
  have h := lo.isLt
  rw [toPoly_split (lo.toNat + 2^128 * hi) 128]
  have e1 : (lo.toNat + 2^128 * hi) % 2^128 = lo.toNat := by omega
  have e2 : (lo.toNat + 2^128 * hi) / 2^128 = hi := by omega
  rw [e1, e2]

theorem storeLanes_in (t : Nat → U128 × U128) (res : Nat) (m : BlockMem) (n i : Nat) (h : i < n) :
    storeLanes t res m n (res + i) = reduce (t i).1 (t i).2 := by
  induction n with
  | zero => omega
  | succ n ih =>
    unfold storeLanes
    by_cases hi : i = n
    · subst hi; simp
    · rw [if_neg (by omega)]; exact ih (by omega)

theorem storeLanes_out (t : Nat → U128 × U128) (res : Nat) (m : BlockMem) (n x : Nat)
    (h : x < res ∨ res + n ≤ x) : storeLanes t res m n x = m x := by
  induction n with
  | zero => rfl
  | succ n ih =>
    unfold storeLanes
    rw [if_neg (by omega)]; exact ih (by omega)

end EmpZk
