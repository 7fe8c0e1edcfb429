/-
Property theorems C74, C75: conversions between floats and field elements (extensions/floats.h).

`ovl`, `ovr` are the results of shifts by at least the width, which are left open: the theorems hold for all of them.
-/
import Verif.Lemmas.Floats
import Mathlib.Data.Int.ModEq

namespace EmpZk

/-! ### C74: floats to field elements -/

/-- C74 (positive numbers). A positive normal float becomes the field element of `⌊f * 2^s⌋`, provided the scaled number is below
`2^60` (`exponent field - 150 + s ≤ 36`) and the 8-bit exponent does not wrap around (lower bound). The full statement, for both signs, is false: `C74_false`. -/
theorem C74_positive_partial (ovl ovr : BitVec 61 → BitVec 8 → BitVec 61) (f : BitVec 32) (s : Int) (hpos : fNeg f = false)
    (h1 : -127 ≤ (fExp f : ℤ) - 150 + s) (h2 : (fExp f : ℤ) - 150 + s ≤ 36) :
    (floatToInt62 ovl ovr f s).toNat < 2^61 - 1 ∧ fieldInt (floatToInt62 ovl ovr f s).toNat = ⌊fVal f * (2 : ℚ) ^ s⌋ := by
  have h := floatToInt62_toNat ovl ovr f s h1 h2
  have hlt := floatMag_lt f s h2
  rw [hpos] at h
  simp only [Bool.false_eq_true, if_false] at h
  rw [h, fieldInt, if_pos hlt, fVal, hpos]
  refine ⟨by omega, ?_⟩
  have : (0 : ℚ) ≤ fMag f * (2 : ℚ) ^ s := by unfold fMag; positivity
  simp only [Bool.false_eq_true, if_false]
  exact Int.natCast_floor_eq_floor this

/-- `2.75` with 16 fractional bits. -/
example (ovl ovr : BitVec 61 → BitVec 8 → BitVec 61) : fieldInt (floatToInt62 ovl ovr 0x40300000#32 16).toNat = 180224 := by
  have h := (C74_positive_partial ovl ovr 0x40300000#32 16 (by decide) (by decide) (by decide)).2
  rw [h]
  norm_num [fVal, fMag, fNeg, fExp, fFrac]

/-- C74 is false for negative numbers, all of them: for a negative float whose scaled magnitude is `m` after rounding towards zero,
`1 ≤ m`, the result is congruent to `1 - m` modulo `2^61 - 1`, not to `-m` (line 22 negates modulo `2^61`). -/
theorem C74_negative_off_by_one (ovl ovr : BitVec 61 → BitVec 8 → BitVec 61) (f : BitVec 32) (s : Int) (hneg : fNeg f = true)
    (h1 : -127 ≤ (fExp f : ℤ) - 150 + s) (h2 : (fExp f : ℤ) - 150 + s ≤ 36) (m : ℕ) (hm : ⌊-fVal f * (2 : ℚ) ^ s⌋₊ = m)
    (hm1 : 1 ≤ m) : ((floatToInt62 ovl ovr f s).toNat : ℤ) ≡ 1 - m [ZMOD 2^61 - 1] ∧
      ¬ ((floatToInt62 ovl ovr f s).toNat : ℤ) ≡ -m [ZMOD 2^61 - 1] := by
  have h := floatToInt62_toNat ovl ovr f s h1 h2
  have hlt := floatMag_lt f s h2
  rw [fVal, hneg, if_pos rfl, neg_neg] at hm
  rw [hneg, if_pos rfl, hm] at h
  rw [hm] at hlt
  have h3 : (floatToInt62 ovl ovr f s).toNat = 2^61 - m := by rw [h]; exact Nat.mod_eq_of_lt (by omega)
  rw [h3]
  constructor
  · rw [Int.modEq_iff_dvd]
    refine ⟨-1, ?_⟩
    omega
  · rw [Int.modEq_iff_dvd]
    rintro ⟨k, hk⟩
    omega

/-- C74: concretely, `-1.0` without fractional bits becomes the word `2^61 - 1`, that is zero, and not even a reduced word. -/
theorem C74_false : ∃ f s, fVal f = -1 ∧ s = 0 ∧ ∀ ovl ovr, (floatToInt62 ovl ovr f s).toNat = 2^61 - 1 := by
  refine ⟨0xBF800000#32, 0, ?_, rfl, fun ovl ovr => ?_⟩
  · have h1 : fNeg 0xBF800000#32 = true := by decide
    have h2 : fExp 0xBF800000#32 = 127 := by decide
    have h3 : fFrac 0xBF800000#32 = 0 := by decide
    rw [fVal, h1, fMag, h2, h3]
    norm_num
  · have h1 : floatExp 0xBF800000#32 0 = 0xE9#8 := by decide
    have h2 : floatFraction 0xBF800000#32 = 0x800000#61 := by decide
    unfold floatToInt62
    simp only [h1, h2]
    rfl

/-- `-2.5` with one fractional bit: `m = 5`, the result stands for `-4`. -/
example (ovl ovr : BitVec 61 → BitVec 8 → BitVec 61) :
    ((floatToInt62 ovl ovr 0xC0200000#32 1).toNat : ℤ) ≡ 1 - 5 [ZMOD 2^61 - 1] :=
  (C74_negative_off_by_one ovl ovr 0xC0200000#32 1 (by decide) (by decide) (by decide) 5 (by
    have h1 : fNeg 0xC0200000#32 = true := by decide
    have h2 : fExp 0xC0200000#32 = 128 := by decide
    have h3 : fFrac 0xC0200000#32 = 2^21 := by decide
    rw [fVal, h1, fMag, h2, h3]
    norm_num) (by decide)).1

/-! ### C75: field elements to floats -/

/-- C75 (non-zero elements). A non-zero reduced field element, standing for the integer `v`, becomes a float of the same sign whose
magnitude is `|v| / 2^s` rounded towards zero to 24 binary digits: never above it, and less than a factor `1 + 2^-23` below. The
condition says that this magnitude is in the range of normal floats. Zero is missing: `C75_zero_false`. -/
theorem C75_value_partial (ovl ovr : BitVec 61 → BitVec 8 → BitVec 61) (x : BitVec 62) (s : Int) (hx : x.toNat < 2^61 - 1)
    (h0 : x.toNat ≠ 0) (h1 : (2 : ℚ) ^ (-126 : ℤ) ≤ |(fieldInt x.toNat : ℚ)| * 2 ^ (-s))
    (h2 : |(fieldInt x.toNat : ℚ)| * 2 ^ (-s) < (2 : ℚ) ^ (128 : ℤ)) :
    let f := int62ToFloat ovl ovr x s
    1 ≤ fExp f ∧ fExp f ≤ 254 ∧ (fVal f < 0 ↔ fieldInt x.toNat < 0) ∧
    |fVal f| ≤ |(fieldInt x.toNat : ℚ)| * 2 ^ (-s) ∧ |(fieldInt x.toNat : ℚ)| * 2 ^ (-s) < |fVal f| * (1 + 2 ^ (-23 : ℤ)) := by
  intro f
  have hne : (fieldInt x.toNat).natAbs ≠ 0 := by
    have := fieldInt_bound _ hx
    unfold fieldInt
    split <;> omega
  have habs : |(fieldInt x.toNat : ℚ)| = ((fieldInt x.toNat).natAbs : ℚ) := by
    rw [← Int.cast_abs, Int.abs_eq_natAbs, Int.cast_natCast]
  rw [habs] at h1 h2 ⊢
  have hspec := int62ToFloat_spec ovl ovr x s hx h0
  have hval := top24_value (fieldInt x.toNat).natAbs
  have hbd := top24_bounds _ hne
  have hpl := Nat.pow_log_le_self 2 hne
  have hpu := Nat.lt_pow_succ_log_self (b := 2) (by decide) (fieldInt x.toNat).natAbs
  generalize (fieldInt x.toNat).natAbs = a at *
  have hs0 : (0 : ℚ) < 2 ^ (-s) := by positivity
  -- the exponent is in range
  have e1 : 1 ≤ (Nat.log 2 a : ℤ) + 127 - s := by
    have : (2 : ℚ) ^ (-126 : ℤ) < 2 ^ ((Nat.log 2 a : ℤ) + 1 - s) := by
      refine lt_of_le_of_lt h1 ?_
      have hc : (a : ℚ) < 2 ^ ((Nat.log 2 a : ℤ) + 1) := by
        have : (a : ℚ) < ((2 ^ (Nat.log 2 a).succ : ℕ) : ℚ) := by exact_mod_cast hpu
        rw [show ((Nat.log 2 a : ℤ) + 1) = (((Nat.log 2 a).succ : ℕ) : ℤ) by push_cast; rfl, zpow_natCast]
        exact_mod_cast this
      rw [sub_eq_add_neg, zpow_add₀ (by norm_num)]
      exact mul_lt_mul_of_pos_right hc hs0
    have := (zpow_lt_zpow_iff_right₀ (by norm_num : (1 : ℚ) < 2)).1 this
    omega
  have e2 : (Nat.log 2 a : ℤ) + 127 - s ≤ 254 := by
    have : (2 : ℚ) ^ ((Nat.log 2 a : ℤ) - s) < 2 ^ (128 : ℤ) := by
      refine lt_of_le_of_lt ?_ h2
      have hc : (2 : ℚ) ^ (Nat.log 2 a : ℤ) ≤ a := by
        rw [zpow_natCast]
        exact_mod_cast hpl
      rw [sub_eq_add_neg, zpow_add₀ (by norm_num)]
      exact mul_le_mul_of_nonneg_right hc hs0.le
    have := (zpow_lt_zpow_iff_right₀ (by norm_num : (1 : ℚ) < 2)).1 this
    omega
  obtain ⟨g1, g2, g3⟩ := hspec (by omega) (by omega)
  have hmag : fMag f = (top24 a : ℚ) * 2 ^ ((Nat.log 2 a : ℤ) - 23) * 2 ^ (-s) := by
    rw [fMag, mul_assoc, ← zpow_add₀ (by norm_num : (2 : ℚ) ≠ 0)]
    simp only [f]
    rw [g3, g2]
    congr 2
    ring
  have hpos : 0 < fMag f := by
    have : (0 : ℚ) < (top24 a : ℚ) := by exact_mod_cast (by omega : 0 < top24 a)
    rw [hmag]; positivity
  have hfabs : |fVal f| = fMag f := by
    rw [fVal]
    split
    · rw [abs_neg, abs_of_pos hpos]
    · rw [abs_of_pos hpos]
  refine ⟨by simp only [f]; omega, by simp only [f]; omega, ?_, ?_, ?_⟩
  · rw [fVal, show fNeg f = _ from g1]
    by_cases hv : fieldInt x.toNat < 0
    · simp [hv, hpos]
    · simp [hv, hpos.le]
  · rw [hfabs, hmag]
    exact mul_le_mul_of_nonneg_right hval.1 hs0.le
  · rw [hfabs, hmag]
    have h24 : (1 : ℚ) ≤ (top24 a : ℚ) * 2 ^ (-23 : ℤ) := by
      have : (2 ^ 23 : ℚ) ≤ (top24 a : ℚ) := by exact_mod_cast hbd.1
      rw [zpow_neg, ← div_eq_mul_inv, le_div_iff₀ (by positivity), one_mul]
      exact_mod_cast this
    have hE : (0 : ℚ) < 2 ^ ((Nat.log 2 a : ℤ) - 23) := by positivity
    calc (a : ℚ) * 2 ^ (-s) < (top24 a + 1 : ℚ) * 2 ^ ((Nat.log 2 a : ℤ) - 23) * 2 ^ (-s) := mul_lt_mul_of_pos_right hval.2 hs0
      _ ≤ (top24 a + top24 a * 2 ^ (-23 : ℤ) : ℚ) * 2 ^ ((Nat.log 2 a : ℤ) - 23) * 2 ^ (-s) := by
          refine mul_le_mul_of_nonneg_right (mul_le_mul_of_nonneg_right ?_ hE.le) hs0.le
          linarith
      _ = _ := by ring

/-- The element `p - 5` with one fractional bit: `-2.5`, up to rounding. -/
example (ovl ovr : BitVec 61 → BitVec 8 → BitVec 61) :
    fVal (int62ToFloat ovl ovr (BitVec.ofNat 62 (2^61 - 6)) 1) < 0 ∧ |fVal (int62ToFloat ovl ovr (BitVec.ofNat 62 (2^61 - 6)) 1)| ≤ 5/2 := by
  have hn : (BitVec.ofNat 62 (2^61 - 6)).toNat = 2^61 - 6 := by decide
  have hf : fieldInt (2^61 - 6) = -5 := by decide
  have h := C75_value_partial ovl ovr (BitVec.ofNat 62 (2^61 - 6)) 1 (by decide) (by decide)
    (by rw [hn, hf]; norm_num) (by rw [hn, hf]; norm_num)
  rw [hn, hf] at h
  refine ⟨h.2.2.1.2 (by decide), h.2.2.2.1.trans ?_⟩
  norm_num

/-- C75 (exactness). Integers of magnitude below `2^24` are converted without rounding. -/
theorem C75_exact_small (ovl ovr : BitVec 61 → BitVec 8 → BitVec 61) (x : BitVec 62) (s : Int) (hx : x.toNat < 2^61 - 1)
    (h0 : x.toNat ≠ 0) (hsm : (fieldInt x.toNat).natAbs < 2^24) (h1 : -104 ≤ -s) (h2 : -s ≤ 104) :
    fVal (int62ToFloat ovl ovr x s) = (fieldInt x.toNat : ℚ) * 2 ^ (-s) := by
  have hne : (fieldInt x.toNat).natAbs ≠ 0 := by
    have := fieldInt_bound _ hx
    unfold fieldInt
    split <;> omega
  have habs : ((fieldInt x.toNat).natAbs : ℚ) = |(fieldInt x.toNat : ℚ)| := by
    rw [← Int.cast_abs, Int.abs_eq_natAbs, Int.cast_natCast]
  have hspec := int62ToFloat_spec ovl ovr x s hx h0
  generalize hA : (fieldInt x.toNat).natAbs = a at *
  have hL : Nat.log 2 a < 24 := Nat.log_lt_of_lt_pow hne hsm
  obtain ⟨g1, g2, g3⟩ := hspec (by omega) (by omega)
  have htop : (top24 a : ℚ) * 2 ^ ((Nat.log 2 a : ℤ) - 23) = a := by
    unfold top24
    by_cases h : 23 ≤ Nat.log 2 a
    · have h23 : Nat.log 2 a = 23 := by omega
      rw [if_pos h, h23]
      norm_num
    · rw [if_neg h]
      push_cast
      rw [mul_assoc, ← zpow_natCast, ← zpow_add₀ (by norm_num : (2 : ℚ) ≠ 0),
        show ((23 - Nat.log 2 a : ℕ) : ℤ) + ((Nat.log 2 a : ℤ) - 23) = 0 by omega, zpow_zero, mul_one]
  have hmag : fMag (int62ToFloat ovl ovr x s) = |(fieldInt x.toNat : ℚ)| * 2 ^ (-s) := by
    rw [fMag, g3, g2, ← habs, ← htop, mul_assoc, ← zpow_add₀ (by norm_num : (2 : ℚ) ≠ 0)]
    congr 2
    ring
  rw [fVal, g1, hmag]
  by_cases hv : fieldInt x.toNat < 0
  · have : (fieldInt x.toNat : ℚ) < 0 := by exact_mod_cast hv
    simp only [hv, decide_true, if_true, abs_of_neg this]
    ring
  · have : (0 : ℚ) ≤ fieldInt x.toNat := by exact_mod_cast (by omega : 0 ≤ fieldInt x.toNat)
    simp only [hv, decide_false, Bool.false_eq_true, if_false, abs_of_nonneg this]

/-- `-5` with one fractional bit is exactly `-2.5`. -/
example (ovl ovr : BitVec 61 → BitVec 8 → BitVec 61) : fVal (int62ToFloat ovl ovr (BitVec.ofNat 62 (2^61 - 6)) 1) = -5/2 := by
  have hn : (BitVec.ofNat 62 (2^61 - 6)).toNat = 2^61 - 6 := by decide
  have hf : fieldInt (2^61 - 6) = -5 := by decide
  rw [C75_exact_small ovl ovr _ 1 (by decide) (by decide) (by rw [hn, hf]; decide) (by decide) (by decide), hn, hf]
  norm_num

/-- C75 (round trip of positive integers). A positive float that is an integer `m < 2^60` after scaling
is recovered exactly, bit by bit. (Not so for negative ones: `C75_roundtrip_false`.) -/
theorem C75_roundtrip_partial (ovl ovr : BitVec 61 → BitVec 8 → BitVec 61) (f : BitVec 32) (s : Int) (hpos : fNeg f = false)
    (m : ℕ) (hm : fVal f * (2 : ℚ) ^ s = m) (hlt : m < 2^60) : int62ToFloat ovl ovr (floatToInt62 ovl ovr f s) s = f := by
  have hM1 : 2^23 ≤ 2^23 + fFrac f := by omega
  have hM2 : 2^23 + fFrac f < 2^24 := by have := fFrac_lt f; omega
  have hmag : fMag f * (2 : ℚ) ^ s = ((2^23 + fFrac f : ℕ) : ℚ) * (2 : ℚ) ^ ((fExp f : ℤ) - 150 + s) := by
    rw [fMag, mul_assoc, ← zpow_add₀ (by norm_num : (2 : ℚ) ≠ 0)]
  have hmv : fMag f * (2 : ℚ) ^ s = m := by rw [← hm, fVal, hpos]; simp
  have hE := fExp_lt f
  -- the logarithm and the leading digits of m
  have key : (Nat.log 2 m : ℤ) = 23 + ((fExp f : ℤ) - 150 + s) ∧ top24 m = 2^23 + fFrac f ∧ m ≠ 0 ∧
      -127 ≤ (fExp f : ℤ) - 150 + s ∧ (fExp f : ℤ) - 150 + s ≤ 36 := by
    rw [hmag] at hmv
    generalize (fExp f : ℤ) - 150 + s = t at *
    generalize 2^23 + fFrac f = M at *
    by_cases ht : 0 ≤ t
    · obtain ⟨n, rfl⟩ := Int.eq_ofNat_of_zero_le ht
      have hmn : m = M * 2^n := by
        have : (m : ℚ) = ((M * 2^n : ℕ) : ℚ) := by rw [← hmv]; push_cast; rw [zpow_natCast]
        exact_mod_cast this
      have hn : n ≤ 36 := by
        by_contra hc
        have : 2^37 ≤ 2^n := Nat.pow_le_pow_right (by decide) (by omega)
        have : 2^23 * 2^37 ≤ M * 2^n := Nat.mul_le_mul hM1 this
        omega
      have hlog : Nat.log 2 m = 23 + n := by
        refine Nat.log_eq_of_pow_le_of_lt_pow ?_ ?_
        · rw [hmn, pow_add]; exact Nat.mul_le_mul_right _ hM1
        · rw [hmn, show 23 + n + 1 = 24 + n by omega, pow_add]; exact Nat.mul_lt_mul_of_pos_right hM2 (by positivity)
      have hp : 0 < 2^n := by positivity
      refine ⟨by omega, ?_, ?_, by omega, by omega⟩
      · rw [top24, hlog, if_pos (by omega), show 23 + n - 23 = n by omega, hmn, Nat.mul_div_cancel _ hp]
      · rw [hmn]; exact Nat.mul_ne_zero (by omega) (by omega)
    · obtain ⟨n, hn'⟩ := Int.eq_ofNat_of_zero_le (show 0 ≤ -t by omega)
      have htn : t = -(n : ℤ) := by omega
      subst htn
      have hmn : m * 2^n = M := by
        have : (((m * 2^n : ℕ)) : ℚ) = M := by
          push_cast
          rw [← hmv, mul_assoc, ← zpow_natCast, ← zpow_add₀ (by norm_num : (2 : ℚ) ≠ 0), neg_add_cancel, zpow_zero, mul_one]
        exact_mod_cast this
      have hm0 : m ≠ 0 := by rintro rfl; omega
      have hn : n ≤ 23 := by
        by_contra hc
        have : 2^24 ≤ 2^n := Nat.pow_le_pow_right (by decide) (by omega)
        have : 1 * 2^24 ≤ m * 2^n := Nat.mul_le_mul (by omega) this
        omega
      have hp : 0 < 2^n := by positivity
      have hlog : Nat.log 2 m = 23 - n := by
        refine Nat.log_eq_of_pow_le_of_lt_pow ?_ ?_
        · refine Nat.le_of_mul_le_mul_right ?_ hp
          rw [← pow_add, show 23 - n + n = 23 by omega, hmn]; exact hM1
        · refine Nat.lt_of_mul_lt_mul_right (a := 2^n) ?_
          rw [← pow_add, show 23 - n + 1 + n = 24 by omega, hmn]; exact hM2
      refine ⟨by omega, ?_, hm0, by omega, by omega⟩
      rw [top24, hlog, if_neg (by omega), show 23 - (23 - n) = n by omega, hmn]
  obtain ⟨k1, k2, k3, k4, k5⟩ := key
  have hw := floatToInt62_toNat ovl ovr f s k4 k5
  rw [hpos, hmv, Nat.floor_natCast] at hw
  simp only [Bool.false_eq_true, if_false] at hw
  have hfi : fieldInt m = m := by rw [fieldInt, if_pos hlt]
  have hab : (fieldInt m).natAbs = m := by rw [hfi, Int.natAbs_natCast]
  have hsp := int62ToFloat_spec ovl ovr (floatToInt62 ovl ovr f s) s (by omega) (by omega)
  rw [hw, hab] at hsp
  obtain ⟨g1, g2, g3⟩ := hsp (by omega) (by omega)
  rw [hfi] at g1
  rw [k2] at g3
  generalize int62ToFloat ovl ovr (floatToInt62 ovl ovr f s) s = g at *
  have e1 : fExp g = fExp f := by omega
  have e2 : fFrac g = fFrac f := by omega
  have e3 : fNeg g = fNeg f := by rw [g1, hpos]; simp
  apply BitVec.eq_of_toNat_eq
  unfold fExp at e1
  unfold fFrac at e2
  unfold fNeg at e3
  have hg := g.isLt
  have hf := f.isLt
  have e3' : 2^31 ≤ g.toNat ↔ 2^31 ≤ f.toNat := by simpa using e3
  omega

/-- `2.75` with 16 fractional bits. -/
example (ovl ovr : BitVec 61 → BitVec 8 → BitVec 61) :
    int62ToFloat ovl ovr (floatToInt62 ovl ovr 0x40300000#32 16) 16 = 0x40300000#32 :=
  C75_roundtrip_partial ovl ovr _ 16 (by decide) 180224 (by
    have h1 : fNeg 0x40300000#32 = false := by decide
    have h2 : fExp 0x40300000#32 = 128 := by decide
    have h3 : fFrac 0x40300000#32 = 0x300000 := by decide
    rw [fVal, h1, fMag, h2, h3]
    norm_num) (by decide)

/-- C75 is false for zero: the element 0 becomes the float `2^(-1-s)`, for every scale `s` in the normal range. -/
theorem C75_zero_false (ovl ovr : BitVec 61 → BitVec 8 → BitVec 61) (s : Int) (h1 : -128 ≤ s) (h2 : s ≤ 125) :
    fVal (int62ToFloat ovl ovr 0#62 s) = (2 : ℚ) ^ (-1 - s) := by
  have hsg : int62Signed 0#62 = 0#61 := by decide
  have hlz : leadingZeros 0#61 = 61 := rfl
  have hf : int62ToFloat ovl ovr 0#62 s = BitVec.ofBool false ++ (255#8 + BitVec.ofInt 8 (127 - s)) ++ (0#61).extractLsb' 0 23 := by
    unfold int62ToFloat
    simp only [hsg]
    have : (0#61).getLsbD 60 = false := by decide
    simp only [this, Bool.false_eq_true, if_false, hlz]
    have h3 : (60#8 - BitVec.ofNat 8 61) = 255#8 := by decide
    simp only [h3]
    have h4 : (23#8).sle 255#8 = false := by decide
    simp only [h4, Bool.false_eq_true, if_false]
    have h5 : shlI ovl 0#61 (23#8 - 255#8) = 0#61 := by
      unfold shlI
      have : (23#8 - 255#8).toNat = 24 := by decide
      rw [this, if_pos (by decide)]
      decide
    rw [h5]
  obtain ⟨f1, f2, f3⟩ := int62ToFloat_fields false (255#8 + BitVec.ofInt 8 (127 - s)) 0#61
  rw [hf, fVal, f1, fMag, f2, f3]
  have he : ((255#8 + BitVec.ofInt 8 (127 - s)).toNat : ℤ) = 126 - s := by
    rw [BitVec.toNat_add, BitVec.toNat_ofNat, BitVec.toNat_ofInt]
    omega
  rw [he]
  simp only [Bool.false_eq_true, if_false]
  rw [show ((2 ^ 23 + (0#61).toNat % 2 ^ 23 : ℕ) : ℚ) = (2 : ℚ) ^ (23 : ℤ) by norm_num, ← zpow_add₀ (by norm_num : (2 : ℚ) ≠ 0)]
  congr 1
  ring

/-- C75: both defects together. Converting `-1.0` to a field element and back gives `+0.5`. -/
theorem C75_roundtrip_false : ∃ f : BitVec 32, fVal f = -1 ∧ ∀ ovl ovr,
    fVal (int62ToFloat ovl ovr (floatToInt62 ovl ovr f 0) 0) = 1/2 := by
  refine ⟨0xBF800000#32, ?_, fun ovl ovr => ?_⟩
  · have h1 : fNeg 0xBF800000#32 = true := by decide
    have h2 : fExp 0xBF800000#32 = 127 := by decide
    have h3 : fFrac 0xBF800000#32 = 0 := by decide
    rw [fVal, h1, fMag, h2, h3]
    norm_num
  · have hx : floatToInt62 ovl ovr 0xBF800000#32 0 = BitVec.ofNat 62 (2^61 - 1) := by
      have h1 : floatExp 0xBF800000#32 0 = 0xE9#8 := by decide
      have h2 : floatFraction 0xBF800000#32 = 0x800000#61 := by decide
      unfold floatToInt62
      simp only [h1, h2]
      rfl
    have hz : int62ToFloat ovl ovr (BitVec.ofNat 62 (2^61 - 1)) 0 = int62ToFloat ovl ovr 0#62 0 := by
      have : int62Signed (BitVec.ofNat 62 (2^61 - 1)) = int62Signed 0#62 := by decide
      unfold int62ToFloat
      rw [this]
    rw [hx, hz, C75_zero_false ovl ovr 0 (by decide) (by decide)]
    norm_num

end EmpZk
