/-
Bit strings as polynomials over F_2; carry-less product and reduction.
-/
import Verif.Model.Clmul
import Mathlib.Algebra.Polynomial.Basic
import Mathlib.Algebra.Polynomial.Coeff
import Mathlib.Algebra.Field.ZMod
import Mathlib.Algebra.CharP.Two
import Mathlib.Algebra.Polynomial.Eval.Coeff
import Mathlib.Tactic.Ring
import Mathlib.Tactic.LinearCombination

namespace EmpZk
open Polynomial

theorem gfPoly_testBit_128 : gfPoly.testBit 128 = true := by decide +kernel
theorem gfPoly_lt : gfPoly < 2^129 := by decide +kernel



/-- The polynomial over F_2 whose coefficients are the bits of `n`. -/
noncomputable def toPoly (n : Nat) : (ZMod 2)[X] :=
  ∑ i ∈ Finset.range (n + 1), if n.testBit i then X ^ i else 0

theorem testBit_ge_self {n i : Nat} (h : n + 1 ≤ i) : n.testBit i = false :=
  Nat.testBit_lt_two_pow (lt_of_lt_of_le (Nat.lt_two_pow_self) (Nat.pow_le_pow_right (by omega) (by omega)))

theorem toPoly_coeff (n i : Nat) : (toPoly n).coeff i = if n.testBit i then 1 else 0 := by
  unfold toPoly
  rw [finsetSum_coeff]
  by_cases h : i < n + 1
  · rw [Finset.sum_eq_single i]
    · split <;> simp
    · intro b _ hb
      split
      · simp [coeff_X_pow, Ne.symm hb]
      · simp
    · intro hh; simp at hh; omega
  · rw [Finset.sum_eq_zero]
    · rw [testBit_ge_self (by omega)]; simp
    · intro b hb
      simp at hb
      split
      · simp [coeff_X_pow]; omega
      · simp

theorem toPoly_inj {a b : Nat} (h : toPoly a = toPoly b) : a = b := by
  apply Nat.eq_of_testBit_eq
  intro i
  have := congrArg (fun p => coeff p i) h
  simp only [toPoly_coeff] at this
  by_cases ha : a.testBit i <;> by_cases hb : b.testBit i <;> simp_all

theorem toPoly_xor (a b : Nat) : toPoly (a ^^^ b) = toPoly a + toPoly b := by
  ext i
  rw [coeff_add, toPoly_coeff, toPoly_coeff, toPoly_coeff, Nat.testBit_xor]
  by_cases ha : a.testBit i <;> by_cases hb : b.testBit i <;> simp [ha, hb]
  decide

@[simp] theorem toPoly_zero : toPoly 0 = 0 := by
  ext i; rw [toPoly_coeff]; simp

@[simp] theorem toPoly_one : toPoly 1 = 1 := by
  ext i
  rw [toPoly_coeff, coeff_one]
  simp only [Nat.testBit_one_eq_true_iff_self_eq_zero]

theorem toPoly_shift (a n : Nat) : toPoly (a <<< n) = toPoly a * X ^ n := by
  ext i
  rw [toPoly_coeff, coeff_mul_X_pow', Nat.testBit_shiftLeft]
  by_cases h : n ≤ i
  · simp [h, toPoly_coeff]
  · simp [h]

theorem toPoly_two_pow (n : Nat) : toPoly (2^n) = X ^ n := by
  have : 2^n = 1 <<< n := by rw [Nat.shiftLeft_eq]; simp
  rw [this, toPoly_shift, toPoly_one, one_mul]

theorem toPoly_mod_succ (b n : Nat) :
    toPoly (b % 2^(n+1)) = toPoly (b % 2^n) + if b.testBit n then X ^ n else 0 := by
  ext i
  rw [coeff_add, toPoly_coeff, toPoly_coeff, Nat.testBit_mod_two_pow, Nat.testBit_mod_two_pow]
  rcases Nat.lt_trichotomy i n with h | h | h
  · have h1 : i < n + 1 := by omega
    simp only [h, h1, decide_true, Bool.true_and]
    split <;> split <;> simp [coeff_X_pow] <;> omega
  · subst h
    by_cases hb : b.testBit i <;> simp [hb]
  · have h1 : ¬ i < n + 1 := by omega
    have h2 : ¬ i < n := by omega
    simp only [h1, h2, decide_false, Bool.false_and]
    by_cases hb : b.testBit n
    · simp [hb, coeff_X_pow, show ¬ i = n by omega]
    · simp [hb]

theorem toPoly_clmulN_mod (a b n : Nat) :
    toPoly (clmulN a b n) = toPoly a * toPoly (b % 2^n) := by
  induction n with
  | zero => simp [clmulN, Nat.mod_one]
  | succ n ih =>
    rw [clmulN, toPoly_xor, ih, toPoly_mod_succ, mul_add]
    congr 1
    split
    · rw [toPoly_shift]
    · simp

theorem toPoly_clmulN (a b n : Nat) (h : b < 2^n) :
    toPoly (clmulN a b n) = toPoly a * toPoly b := by
  rw [toPoly_clmulN_mod, Nat.mod_eq_of_lt h]

theorem clmulN_lt (a b m n : Nat) (ha : a < 2^m) : clmulN a b n < 2^(m + n) := by
  induction n with
  | zero => simp [clmulN]
  | succ n ih =>
    rw [clmulN]
    apply Nat.xor_lt_two_pow
    · exact lt_of_lt_of_le ih (Nat.pow_le_pow_right (by omega) (by omega))
    · split
      · rw [Nat.shiftLeft_eq]
        calc a * 2^n < 2^m * 2^n := Nat.mul_lt_mul_of_pos_right ha (by positivity)
          _ = 2^(m+n) := by rw [pow_add]
          _ ≤ 2^(m + (n+1)) := Nat.pow_le_pow_right (by omega) (by omega)
      · positivity

theorem two_zmod2_poly (p : (ZMod 2)[X]) : p + p = 0 := CharTwo.add_self_eq_zero p

theorem dvd_sub_step {R : Type} [CommRing R] (f a x t : R) (h : f ∣ a - (x + f * t)) :
    f ∣ a - x := by
  have : a - x = (a - (x + f * t)) + f * t := by ring
  rw [this]
  exact dvd_add h (dvd_mul_right _ _)

attribute [irreducible] toPoly

/-- Reduction changes the polynomial by a multiple of the reduction polynomial. -/
theorem toPoly_gfRedBy (f x n : Nat) : toPoly f ∣ toPoly (gfRedBy f x n) - toPoly x := by
  induction n generalizing x with
  | zero => simp [gfRedBy]
  | succ n ih =>
    rw [gfRedBy]
    split
    · have h := ih (x ^^^ f <<< n)
      rw [toPoly_xor, toPoly_shift] at h
      exact dvd_sub_step _ _ _ _ h
    · exact ih x

theorem lt_of_testBit_top {x m : Nat} (h : x < 2^(m+1)) (hb : x.testBit m = false) : x < 2^m := by
  apply Nat.lt_pow_two_of_testBit
  intro i hi
  rcases Nat.eq_or_lt_of_le hi with h' | h'
  · rw [← h']; exact hb
  · exact Nat.testBit_lt_two_pow (lt_of_lt_of_le h (Nat.pow_le_pow_right (by omega) h'))

theorem gfRedBy_lt (f x n : Nat) (hf : f < 2^129) (hf' : f.testBit 128 = true)
    (h : x < 2^(128 + n)) : gfRedBy f x n < 2^128 := by
  induction n generalizing x with
  | zero => exact h
  | succ n ih =>
    rw [gfRedBy]
    apply ih
    split
    · rename_i hb
      apply lt_of_testBit_top
      · apply Nat.xor_lt_two_pow
        · exact h
        · rw [Nat.shiftLeft_eq]
          calc f * 2^n < 2^129 * 2^n :=
                Nat.mul_lt_mul_of_pos_right hf (by positivity)
            _ = 2^(128+n+1) := by rw [← pow_add]; congr 1; omega
      · rw [Nat.testBit_xor, hb, Nat.testBit_shiftLeft]
        have : 128 + n - n = 128 := by omega
        simp [this, hf']
    · rename_i hb
      exact lt_of_testBit_top h (by simpa using hb)

/-- The carry-less product of two `m+1`-bit strings has at most `2m+1` bits. -/
theorem clmulN_lt' (a b m : Nat) (ha : a < 2^(m+1)) : clmulN a b (m+1) < 2^(m+1+m) := by
  apply lt_of_testBit_top
  · exact clmulN_lt a b (m+1) (m+1) ha
  · have h := clmulN_lt a b (m+1) m ha
    rw [clmulN, Nat.testBit_xor, Nat.testBit_lt_two_pow h]
    split
    · rw [Nat.testBit_shiftLeft]
      have : m + 1 + m - m = m + 1 := by omega
      simp [this, Nat.testBit_lt_two_pow ha]
    · simp

theorem gfmulN_lt (a b : Nat) (ha : a < 2^128) : gfmulN a b < 2^128 :=
  gfRedBy_lt gfPoly _ 127 gfPoly_lt gfPoly_testBit_128 (clmulN_lt' a b 127 ha)

theorem toPoly_gfmulN (a b : Nat) (hb : b < 2^128) :
    toPoly gfPoly ∣ toPoly (gfmulN a b) - toPoly a * toPoly b := by
  rw [← toPoly_clmulN a b 128 hb]
  exact toPoly_gfRedBy gfPoly (clmulN a b 128) 127

end EmpZk
