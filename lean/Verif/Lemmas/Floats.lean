/-
Helper lemmas for `Verif.Props.Floats`.
-/
import Verif.Model.Floats
import Verif.Spec.Floats
import Mathlib.Algebra.Order.Floor.Semifield
import Mathlib.Tactic.Ring
import Mathlib.Tactic.Linarith
import Mathlib.Tactic.NormNum
import Mathlib.Tactic.FieldSimp
import Mathlib.Tactic.Positivity

namespace EmpZk

theorem floatFraction_toNat (f : BitVec 32) : (floatFraction f).toNat = 2^23 + fFrac f := by
  have hm : f.toNat % 2^23 < 2^23 := Nat.mod_lt _ (by decide)
  simp only [floatFraction, BitVec.toNat_setWidth, BitVec.toNat_append, BitVec.extractLsb'_toNat, Nat.shiftRight_zero, fFrac,
    BitVec.toNat_ofNat]
  rw [← Nat.shiftLeft_add_eq_or_of_lt hm]
  simp only [Nat.shiftLeft_eq]
  omega

theorem fFrac_lt (f : BitVec 32) : fFrac f < 2^23 := Nat.mod_lt _ (by decide)

theorem fExp_lt (f : BitVec 32) : fExp f < 256 := Nat.mod_lt _ (by decide)

theorem sign_bit (f : BitVec 32) : f.getLsbD 31 = fNeg f := by
  have : f.getLsbD 31 = f.msb := by simp [BitVec.msb_eq_getLsbD_last]
  rw [this, BitVec.msb_eq_decide, fNeg]

theorem floatExp_toInt (f : BitVec 32) (s : Int) (h1 : -128 ≤ (fExp f : ℤ) - 150 + s) (h2 : (fExp f : ℤ) - 150 + s ≤ 127) :
    (floatExp f s).toInt = (fExp f : ℤ) - 150 + s := by
  have hE : (f.extractLsb' 23 8).toNat = fExp f := by
    simp [BitVec.extractLsb'_toNat, fExp, Nat.shiftRight_eq_div_pow]
  rw [floatExp, BitVec.toInt_sub, BitVec.toInt_eq_toNat_bmod, hE, BitVec.toInt_ofInt]
  rw [Int.bmod_def, Int.bmod_def, Int.bmod_def]
  have := fExp_lt f
  split <;> split <;> split <;> omega

theorem floatExp_bit (f : BitVec 32) (s : Int) (h1 : -128 ≤ (fExp f : ℤ) - 150 + s) (h2 : (fExp f : ℤ) - 150 + s ≤ 127) :
    (floatExp f s).getLsbD 7 = decide ((fExp f : ℤ) - 150 + s < 0) := by
  have : (floatExp f s).getLsbD 7 = (floatExp f s).msb := by simp [BitVec.msb_eq_getLsbD_last]
  rw [this, BitVec.msb_eq_toInt, floatExp_toInt f s h1 h2]

theorem toNat_of_toInt_nonneg {w : Nat} (x : BitVec w) (h : 0 ≤ x.toInt) : (x.toNat : ℤ) = x.toInt := by
  rw [BitVec.toInt_eq_toNat_cond] at h ⊢
  have := x.isLt
  split
  · rfl
  · rename_i hc
    rw [if_neg hc] at h
    omega

theorem negExp_toInt (f : BitVec 32) (s : Int) (h1 : -127 ≤ (fExp f : ℤ) - 150 + s) (h2 : (fExp f : ℤ) - 150 + s ≤ 127) :
    (-floatExp f s).toInt = -((fExp f : ℤ) - 150 + s) := by
  rw [BitVec.toInt_neg, floatExp_toInt f s (by omega) h2, Int.bmod_def]
  split <;> omega

/-- The magnitude before the sign is applied. -/
theorem floatMag_toNat (ovl ovr : BitVec 61 → BitVec 8 → BitVec 61) (f : BitVec 32) (s : Int)
    (h1 : -127 ≤ (fExp f : ℤ) - 150 + s) (h2 : (fExp f : ℤ) - 150 + s ≤ 36) :
    (if (61#8).sle (-floatExp f s) then 0#61 else
      if (floatExp f s).getLsbD 7 = false then shlI ovl (floatFraction f) (floatExp f s)
      else shrI ovr (floatFraction f) (-floatExp f s)).toNat = ⌊fMag f * (2 : ℚ) ^ s⌋₊ := by
  have hm := fFrac_lt f
  have hF := floatFraction_toNat f
  have hmag : fMag f * (2 : ℚ) ^ s = ((2^23 + fFrac f : ℕ) : ℚ) * (2 : ℚ) ^ ((fExp f : ℤ) - 150 + s) := by
    rw [fMag, mul_assoc, ← zpow_add₀ (by norm_num : (2 : ℚ) ≠ 0)]
  rw [hmag, floatExp_bit f s (by omega) (by omega), BitVec.sle_eq_decide, negExp_toInt f s h1 (by omega)]
  have he := floatExp_toInt f s (by omega) (by omega)
  have hn := negExp_toInt f s h1 (by omega)
  generalize (fExp f : ℤ) - 150 + s = t at *
  have h61 : (61#8).toInt = 61 := by decide
  rw [h61]
  by_cases ht : 0 ≤ t
  · obtain ⟨n, rfl⟩ := Int.eq_ofNat_of_zero_le ht
    rw [if_neg (by simp; omega), if_pos (by simp), shlI]
    have hnat : (floatExp f s).toNat = n := by
      have := toNat_of_toInt_nonneg (floatExp f s) (by omega)
      omega
    rw [if_pos (by omega), BitVec.toNat_shiftLeft, hnat, hF, Nat.shiftLeft_eq]
    have hlt : (2^23 + fFrac f) * 2^n < 2^61 := by
      have : 2^n ≤ 2^36 := Nat.pow_le_pow_right (by decide) (by omega)
      calc (2^23 + fFrac f) * 2^n ≤ (2^23 + fFrac f) * 2^36 := Nat.mul_le_mul_left _ this
        _ < 2^61 := by omega
    rw [Nat.mod_eq_of_lt hlt]
    have : ((2^23 + fFrac f : ℕ) : ℚ) * (2 : ℚ) ^ (n : ℤ) = (((2^23 + fFrac f) * 2^n : ℕ) : ℚ) := by
      push_cast
      rw [zpow_natCast]
    rw [this, Nat.floor_natCast]
  · obtain ⟨n, hn'⟩ := Int.eq_ofNat_of_zero_le (show 0 ≤ -t by omega)
    have htn : t = -(n : ℤ) := by omega
    subst htn
    have hfl : ⌊((2^23 + fFrac f : ℕ) : ℚ) * (2 : ℚ) ^ (-(n : ℤ))⌋₊ = (2^23 + fFrac f) / 2^n := by
      rw [zpow_neg, zpow_natCast, ← div_eq_mul_inv]
      have := Nat.floor_div_eq_div (K := ℚ) (2^23 + fFrac f) (2^n)
      rw [← this]
      push_cast
      rfl
    rw [hfl]
    by_cases h3 : 61 ≤ n
    · rw [if_pos (by simp; omega)]
      have : 2^61 ≤ 2^n := Nat.pow_le_pow_right (by decide) h3
      rw [Nat.div_eq_of_lt (by omega)]
      rfl
    · rw [if_neg (by simp; omega), if_neg (by simp; omega), shrI]
      have hnat : (-floatExp f s).toNat = n := by
        have := toNat_of_toInt_nonneg (-floatExp f s) (by omega)
        omega
      rw [if_pos (by omega), BitVec.toNat_ushiftRight, hnat, hF, Nat.shiftRight_eq_div_pow]

theorem floatMag_lt (f : BitVec 32) (s : Int) (h2 : (fExp f : ℤ) - 150 + s ≤ 36) : ⌊fMag f * (2 : ℚ) ^ s⌋₊ < 2^60 := by
  have hm := fFrac_lt f
  have hmag : fMag f * (2 : ℚ) ^ s = ((2^23 + fFrac f : ℕ) : ℚ) * (2 : ℚ) ^ ((fExp f : ℤ) - 150 + s) := by
    rw [fMag, mul_assoc, ← zpow_add₀ (by norm_num : (2 : ℚ) ≠ 0)]
  rw [Nat.floor_lt (by rw [hmag]; positivity), hmag]
  have hle : (2 : ℚ) ^ ((fExp f : ℤ) - 150 + s) ≤ 2 ^ (36 : ℤ) := zpow_le_zpow_right₀ (by norm_num) h2
  have hlt : ((2^23 + fFrac f : ℕ) : ℚ) < 2^24 := by
    have : 2^23 + fFrac f < 2^24 := by omega
    exact_mod_cast this
  calc ((2^23 + fFrac f : ℕ) : ℚ) * (2 : ℚ) ^ ((fExp f : ℤ) - 150 + s)
      ≤ ((2^23 + fFrac f : ℕ) : ℚ) * 2 ^ (36 : ℤ) := mul_le_mul_of_nonneg_left hle (by positivity)
    _ < 2^24 * 2 ^ (36 : ℤ) := mul_lt_mul_of_pos_right hlt (by positivity)
    _ = ((2^60 : ℕ) : ℚ) := by norm_num

/-- `floatToInt62` in numbers. -/
theorem floatToInt62_toNat (ovl ovr : BitVec 61 → BitVec 8 → BitVec 61) (f : BitVec 32) (s : Int)
    (h1 : -127 ≤ (fExp f : ℤ) - 150 + s) (h2 : (fExp f : ℤ) - 150 + s ≤ 36) :
    (floatToInt62 ovl ovr f s).toNat =
      if fNeg f then (2^61 - ⌊fMag f * (2 : ℚ) ^ s⌋₊) % 2^61 else ⌊fMag f * (2 : ℚ) ^ s⌋₊ := by
  have h := floatMag_toNat ovl ovr f s h1 h2
  have hlt := floatMag_lt f s h2
  simp only [floatToInt62, sign_bit]
  rw [BitVec.toNat_setWidth]
  split
  · rw [BitVec.toNat_neg, h]
    exact Nat.mod_eq_of_lt (by omega)
  · rw [h]
    exact Nat.mod_eq_of_lt (by omega)

/-! ### the other direction -/

theorem int62Signed_toInt (x : BitVec 62) (hx : x.toNat < 2^61 - 1) : (int62Signed x).toInt = fieldInt x.toNat := by
  have hslt : (BitVec.ofNat 62 (2^60 - 1)).slt x = decide (2^60 ≤ x.toNat) := by
    rw [BitVec.slt_eq_decide, BitVec.toInt_eq_toNat_of_lt (x := x) (by omega)]
    have : (BitVec.ofNat 62 (2^60 - 1)).toInt = 2^60 - 1 := by decide
    rw [this]
    congr 1
    apply propext
    omega
  rw [int62Signed, hslt, fieldInt]
  by_cases h : 2^60 ≤ x.toNat
  · rw [if_pos (by simpa using h), if_neg (by omega), BitVec.toInt_setWidth, BitVec.toNat_sub, BitVec.toNat_ofNat]
    rw [Int.bmod_def]
    split <;> omega
  · rw [if_neg (by simpa using h), if_pos (by omega), BitVec.toInt_setWidth, Int.bmod_def]
    split <;> omega

theorem fieldInt_bound (x : Nat) (hx : x < 2^61 - 1) : -(2^60 - 1) ≤ fieldInt x ∧ fieldInt x ≤ 2^60 - 1 := by
  unfold fieldInt
  split <;> omega

theorem int62_sign (x : BitVec 62) (hx : x.toNat < 2^61 - 1) : (int62Signed x).getLsbD 60 = decide (fieldInt x.toNat < 0) := by
  have : (int62Signed x).getLsbD 60 = (int62Signed x).msb := by simp [BitVec.msb_eq_getLsbD_last]
  rw [this, BitVec.msb_eq_toInt, int62Signed_toInt x hx]

theorem int62_abs (x : BitVec 62) (hx : x.toNat < 2^61 - 1) :
    (if (int62Signed x).getLsbD 60 then -int62Signed x else int62Signed x).toNat = (fieldInt x.toNat).natAbs := by
  rw [int62_sign x hx]
  have hb := fieldInt_bound _ hx
  have ht := int62Signed_toInt x hx
  generalize fieldInt x.toNat = v at *
  have hc := BitVec.toInt_eq_toNat_cond (int62Signed x)
  have hl := (int62Signed x).isLt
  rw [ht] at hc
  by_cases h : v < 0
  · rw [if_pos (by simpa using h), BitVec.toNat_neg]
    split at hc <;> omega
  · rw [if_neg (by simpa using h)]
    split at hc <;> omega

theorem int62ToFloat_fields (b : Bool) (e : BitVec 8) (q : BitVec 61) :
    let f : BitVec 32 := BitVec.ofBool b ++ e ++ q.extractLsb' 0 23
    fNeg f = b ∧ fExp f = e.toNat ∧ fFrac f = q.toNat % 2^23 := by
  intro f
  have hf : f.toNat = b.toNat * 2^31 + e.toNat * 2^23 + q.toNat % 2^23 := by
    have hm : q.toNat % 2^23 < 2^23 := Nat.mod_lt _ (by decide)
    simp only [f, BitVec.toNat_append, BitVec.extractLsb'_toNat, Nat.shiftRight_zero, BitVec.toNat_ofBool]
    rw [← Nat.shiftLeft_add_eq_or_of_lt hm, ← Nat.shiftLeft_add_eq_or_of_lt e.isLt]
    simp only [Nat.shiftLeft_eq]
    omega
  have he := e.isLt
  have hm : q.toNat % 2^23 < 2^23 := Nat.mod_lt _ (by decide)
  refine ⟨?_, ?_, ?_⟩
  · rw [fNeg, hf]
    cases b <;> simp <;> omega
  · rw [fExp, hf]
    cases b <;> simp <;> omega
  · rw [fFrac, hf]
    cases b <;> simp <;> omega

/-- The 24 leading binary digits of `a`. -/
def top24 (a : Nat) : Nat := if 23 ≤ Nat.log 2 a then a / 2 ^ (Nat.log 2 a - 23) else a * 2 ^ (23 - Nat.log 2 a)

theorem top24_bounds (a : Nat) (ha : a ≠ 0) : 2^23 ≤ top24 a ∧ top24 a < 2^24 := by
  have h1 := Nat.pow_log_le_self 2 ha
  have h2 := Nat.lt_pow_succ_log_self (b := 2) (by decide) a
  unfold top24
  split
  · rename_i h
    constructor
    · rw [Nat.le_div_iff_mul_le (by positivity), ← pow_add]
      rwa [show 23 + (Nat.log 2 a - 23) = Nat.log 2 a by omega]
    · rw [Nat.div_lt_iff_lt_mul (by positivity), ← pow_add]
      rwa [show 24 + (Nat.log 2 a - 23) = (Nat.log 2 a).succ by omega]
  · rename_i h
    constructor
    · calc 2^23 = 2 ^ (Nat.log 2 a) * 2 ^ (23 - Nat.log 2 a) := by rw [← pow_add]; congr 1; omega
        _ ≤ _ := Nat.mul_le_mul_right _ h1
    · calc a * 2 ^ (23 - Nat.log 2 a) < 2 ^ (Nat.log 2 a).succ * 2 ^ (23 - Nat.log 2 a) :=
          Nat.mul_lt_mul_of_pos_right h2 (by positivity)
        _ = 2^24 := by rw [← pow_add]; congr 1; omega

/-- Scaled back, the leading digits are `a` without the digits below them. -/
theorem top24_value (a : Nat) :
    (top24 a : ℚ) * 2 ^ ((Nat.log 2 a : ℤ) - 23) ≤ a ∧ (a : ℚ) < (top24 a + 1 : ℚ) * 2 ^ ((Nat.log 2 a : ℤ) - 23) := by
  unfold top24
  split
  · rename_i h
    have he : (2 : ℚ) ^ ((Nat.log 2 a : ℤ) - 23) = ((2 ^ (Nat.log 2 a - 23) : ℕ) : ℚ) := by
      push_cast
      rw [← zpow_natCast]
      congr 1
      omega
    rw [he]
    constructor
    · exact_mod_cast Nat.div_mul_le_self a _
    · have := Nat.lt_div_mul_add (a := a) (b := 2 ^ (Nat.log 2 a - 23)) (by positivity)
      have h3 : a < (a / 2 ^ (Nat.log 2 a - 23) + 1) * 2 ^ (Nat.log 2 a - 23) := by rw [Nat.add_mul]; omega
      exact_mod_cast h3
  · rename_i h
    have he : (2 : ℚ) ^ (23 - Nat.log 2 a) * 2 ^ ((Nat.log 2 a : ℤ) - 23) = 1 := by
      rw [← zpow_natCast, ← zpow_add₀ (by norm_num)]
      rw [show ((23 - Nat.log 2 a : ℕ) : ℤ) + ((Nat.log 2 a : ℤ) - 23) = 0 by omega, zpow_zero]
    have hp : (0 : ℚ) < 2 ^ ((Nat.log 2 a : ℤ) - 23) := by positivity
    push_cast
    constructor
    · rw [mul_assoc, he, mul_one]
    · rw [add_mul, mul_assoc, he, mul_one]
      linarith

/-- `int62ToFloat` in numbers. -/
theorem int62ToFloat_spec (ovl ovr : BitVec 61 → BitVec 8 → BitVec 61) (x : BitVec 62) (s : Int) (hx : x.toNat < 2^61 - 1)
    (h0 : x.toNat ≠ 0) (h1 : 0 ≤ (Nat.log 2 (fieldInt x.toNat).natAbs : ℤ) + 127 - s)
    (h2 : (Nat.log 2 (fieldInt x.toNat).natAbs : ℤ) + 127 - s ≤ 255) :
    fNeg (int62ToFloat ovl ovr x s) = decide (fieldInt x.toNat < 0) ∧
    (fExp (int62ToFloat ovl ovr x s) : ℤ) = (Nat.log 2 (fieldInt x.toNat).natAbs : ℤ) + 127 - s ∧
    2^23 + fFrac (int62ToFloat ovl ovr x s) = top24 (fieldInt x.toNat).natAbs := by
  have hb := fieldInt_bound _ hx
  have hne : (fieldInt x.toNat).natAbs ≠ 0 := by
    unfold fieldInt
    split <;> omega
  have ha := int62_abs x hx
  have hs := int62_sign x hx
  have hlt : (fieldInt x.toNat).natAbs < 2^60 := by omega
  generalize hA : (fieldInt x.toNat).natAbs = a at *
  have hL : Nat.log 2 a < 60 := Nat.log_lt_of_lt_pow hne hlt
  unfold int62ToFloat
  simp only
  generalize (if (int62Signed x).getLsbD 60 = true then -int62Signed x else int62Signed x) = u at *
  have hfi : (60#8 - BitVec.ofNat 8 (leadingZeros u)).toNat = Nat.log 2 a := by
    rw [leadingZeros, ha, if_neg hne, BitVec.toNat_sub, BitVec.toNat_ofNat, BitVec.toNat_ofNat]
    omega
  generalize (60#8 - BitVec.ofNat 8 (leadingZeros u)) = fi at *
  have hfiI : fi.toInt = Nat.log 2 a := by
    rw [BitVec.toInt_eq_toNat_of_lt (by omega), hfi]
  have hls : (23#8).sle fi = decide (23 ≤ Nat.log 2 a) := by
    rw [BitVec.sle_eq_decide, hfiI, show (23#8).toInt = 23 by decide]
    congr 1
    apply propext
    omega
  rw [hls]
  have hq : (if decide (23 ≤ Nat.log 2 a) = true then shrI ovr u (if decide (23 ≤ Nat.log 2 a) = true then fi - 23#8 else 23#8 - fi)
      else shlI ovl u (if decide (23 ≤ Nat.log 2 a) = true then fi - 23#8 else 23#8 - fi)).toNat = top24 a := by
    have htop := top24_bounds a hne
    unfold top24 at htop ⊢
    by_cases h : 23 ≤ Nat.log 2 a
    · have hsh : (fi - 23#8).toNat = Nat.log 2 a - 23 := by
        rw [BitVec.toNat_sub, hfi, BitVec.toNat_ofNat]; omega
      rw [if_pos h, if_pos (by simpa using h), if_pos (by simpa using h), shrI, if_pos (by omega), BitVec.toNat_ushiftRight, hsh, ha,
        Nat.shiftRight_eq_div_pow]
    · have hsh : (23#8 - fi).toNat = 23 - Nat.log 2 a := by
        rw [BitVec.toNat_sub, hfi, BitVec.toNat_ofNat]; omega
      rw [if_neg h] at htop
      rw [if_neg h, if_neg (by simpa using h), if_neg (by simpa using h), shlI, if_pos (by omega), BitVec.toNat_shiftLeft, hsh, ha,
        Nat.shiftLeft_eq, Nat.mod_eq_of_lt (by omega)]
  obtain ⟨f1, f2, f3⟩ := int62ToFloat_fields ((int62Signed x).getLsbD 60) (fi + BitVec.ofInt 8 (127 - s))
    (if decide (23 ≤ Nat.log 2 a) = true then shrI ovr u (if decide (23 ≤ Nat.log 2 a) = true then fi - 23#8 else 23#8 - fi)
      else shlI ovl u (if decide (23 ≤ Nat.log 2 a) = true then fi - 23#8 else 23#8 - fi))
  refine ⟨f1.trans hs, ?_, ?_⟩
  · rw [f2, BitVec.toNat_add, hfi, BitVec.toNat_ofInt]
    omega
  · rw [f3, hq]
    have := top24_bounds a hne
    omega

end EmpZk
