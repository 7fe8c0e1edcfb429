/-
Helper lemmas about the word arithmetic of `Verif.Model.Word`.
-/
import Verif.Model.Word
import Verif.Spec.Field
import Mathlib.Tactic.Ring
import Mathlib.Tactic.LinearCombination

namespace EmpZk

/-- Field element denoted by a word. -/
def fp (x : W) : Fp := (x.toNat : Fp)
/-- A word is canonical when it is the least non-negative representative. -/
def Canon (x : W) : Prop := x.toNat < pN

instance (x : W) : Decidable (Canon x) := inferInstanceAs (Decidable (_ < _))

@[simp] theorem PR_toNat : PR.toNat = pN := rfl
@[simp] theorem PR128_toNat : PR128.toNat = pN := rfl

theorem and_PR_toNat (x : W) : (x &&& PR).toNat = x.toNat % 2^61 := by
  rw [BitVec.toNat_and, PR_toNat, show pN = 2^61 - 1 from rfl, Nat.and_two_pow_sub_one_eq_mod]

theorem and_PR128_toNat (x : U128) : (x &&& PR128).toNat = x.toNat % 2^61 := by
  rw [BitVec.toNat_and, PR128_toNat, show pN = 2^61 - 1 from rfl, Nat.and_two_pow_sub_one_eq_mod]

theorem shr_toNat {n : Nat} (x : BitVec n) (k : Nat) : (x >>> k).toNat = x.toNat / 2^k := by
  rw [BitVec.toNat_ushiftRight, Nat.shiftRight_eq_div_pow]

/-- Conditional subtraction used everywhere: as a number. -/
theorem condSub_toNat (r : W) :
    (if PR ≤ r then r - PR else r).toNat = if pN ≤ r.toNat then r.toNat - pN else r.toNat := by
  have : PR ≤ r ↔ pN ≤ r.toNat := by rw [BitVec.le_def, PR_toNat]
  by_cases h : PR ≤ r
  · rw [if_pos h, if_pos (this.1 h)]
    have h' := this.1 h
    rw [BitVec.toNat_sub, PR_toNat]
    have := r.isLt
    simp only [pN] at *
    omega
  · rw [if_neg h, if_neg (fun c => h (this.2 c))]

theorem mul64_toNat (a b : W) :
    (mul64 a b).1.toNat = (a.toNat * b.toNat) % 2^64 ∧
    (mul64 a b).2.toNat = (a.toNat * b.toNat) / 2^64 := by
  have ha := a.isLt
  have hb := b.isLt
  have hab : a.toNat * b.toNat < 2^128 := by
    calc a.toNat * b.toNat < 2^64 * 2^64 := Nat.mul_lt_mul'' ha hb
      _ = 2^128 := by norm_num
  have hcc : (a.setWidth 128 * b.setWidth 128 : U128).toNat = a.toNat * b.toNat := by
    rw [BitVec.toNat_mul, BitVec.toNat_setWidth, BitVec.toNat_setWidth,
      Nat.mod_eq_of_lt (by omega : a.toNat < 2^128), Nat.mod_eq_of_lt (by omega : b.toNat < 2^128),
      Nat.mod_eq_of_lt hab]
  constructor
  · simp only [mul64, BitVec.toNat_setWidth, hcc]
  · simp only [mul64, BitVec.toNat_setWidth, shr_toNat, hcc]
    apply Nat.mod_eq_of_lt
    omega

/-- Reduction of `q * 2^61 + r` modulo `2^61 - 1`. -/
theorem mersenne_fold (n : Nat) : n % pN = (n % 2^61 + n / 2^61) % pN := by
  have h : n = pN * (n / 2^61) + (n % 2^61 + n / 2^61) := by simp only [pN]; omega
  conv_lhs => rw [h, Nat.mul_add_mod]

theorem condSub_mod {s : Nat} (h : s < 2 * pN) :
    (if pN ≤ s then s - pN else s) = s % pN := by
  split
  · rw [Nat.mod_eq_sub_mod (by assumption), Nat.mod_eq_of_lt (by omega)]
  · rw [Nat.mod_eq_of_lt (by omega)]

theorem mod64_toNat (x : W) : (mod64 x).toNat = x.toNat % pN := by
  unfold mod64
  simp only [condSub_toNat]
  have hx := x.isLt
  rw [BitVec.toNat_add, and_PR_toNat, shr_toNat, mersenne_fold, Nat.mod_eq_of_lt (by omega),
    condSub_mod (by simp only [pN]; omega)]

theorem addMod_toNat_gen (a b : W) (h : a.toNat + b.toNat < 2^64) :
    (addMod a b).toNat =
      if pN ≤ a.toNat + b.toNat then a.toNat + b.toNat - pN else a.toNat + b.toNat := by
  unfold addMod
  simp only [condSub_toNat]
  rw [BitVec.toNat_add, Nat.mod_eq_of_lt h]

theorem addMod_toNat (a b : W) (h : a.toNat + b.toNat < 2 * pN) :
    (addMod a b).toNat = (a.toNat + b.toNat) % pN := by
  rw [addMod_toNat_gen a b (by simp only [pN] at *; omega), condSub_mod h]

/-- The 61-bit split of a product as computed by `mult_mod`, before the final subtraction. -/
theorem multMod_split (a b : W) (h : a.toNat * b.toNat < 2^125) :
    (((mul64 a b).1 >>> 61) ^^^ ((mul64 a b).2 <<< 3)).toNat = a.toNat * b.toNat / 2^61 := by
  obtain ⟨h1, h2⟩ := mul64_toNat a b
  rw [BitVec.toNat_xor, shr_toNat, BitVec.toNat_shiftLeft, h1, h2, Nat.shiftLeft_eq]
  generalize a.toNat * b.toNat = P at *
  have e1 : P % 2^64 / 2^61 < 2^3 := by omega
  have e2 : P / 2^64 * 2^3 % 2^64 = P / 2^64 * 2^3 := by
    apply Nat.mod_eq_of_lt; omega
  rw [e2]
  have : P % 2 ^ 64 / 2 ^ 61 ^^^ P / 2 ^ 64 * 2 ^ 3 = P / 2 ^ 64 * 2 ^ 3 + P % 2 ^ 64 / 2 ^ 61 := by
    rw [Nat.xor_comm, Nat.mul_comm, Nat.two_pow_add_eq_or_of_lt e1]
    apply Nat.eq_of_testBit_eq
    intro i
    rw [Nat.testBit_xor, Nat.testBit_or, Nat.testBit_two_pow_mul]
    by_cases hi : i < 3
    · simp [show ¬ (3 ≤ i) by omega]
    · rw [Nat.testBit_lt_two_pow (x := P % 2^64 / 2^61) (i := i)]
      · simp
      · exact lt_of_lt_of_le e1 (Nat.pow_le_pow_right (by omega) (by omega))
  rw [this]
  omega

theorem multMod_toNat_gen (a b : W) (h : a.toNat * b.toNat < 2^125) :
    (multMod a b).toNat =
      (let s := (a.toNat * b.toNat % 2^61 + a.toNat * b.toNat / 2^61) % 2^64
       if pN ≤ s then s - pN else s) := by
  unfold multMod
  simp only [condSub_toNat]
  rw [BitVec.toNat_add, and_PR_toNat, multMod_split a b h, (mul64_toNat a b).1]
  generalize a.toNat * b.toNat = P at *
  have : P % 2^64 % 2^61 = P % 2^61 := by omega
  rw [this]

theorem multMod_toNat (a b : W) (h : a.toNat * b.toNat < pN * 2^61) :
    (multMod a b).toNat = (a.toNat * b.toNat) % pN := by
  rw [multMod_toNat_gen a b (by simp only [pN] at h; omega)]
  generalize a.toNat * b.toNat = P at *
  simp only
  have hq : P / 2^61 < pN := by
    rw [Nat.div_lt_iff_lt_mul (by norm_num)]; exact h
  have hr : P % 2^61 ≤ pN := by simp only [pN]; omega
  rw [mersenne_fold P, Nat.mod_eq_of_lt (by simp only [pN] at *; omega), condSub_mod (by omega)]

theorem mul_canon_lt {a b : W} (ha : Canon a) (hb : Canon b) : a.toNat * b.toNat < pN * 2^61 := by
  have : a.toNat * b.toNat < pN * pN := Nat.mul_lt_mul'' ha hb
  simp only [pN] at *
  omega

/-! ### field view -/

theorem fp_eq_of_toNat {x : W} {n : Nat} (h : x.toNat = n % pN) : fp x = (n : Fp) := by
  unfold fp; rw [h, ZMod.natCast_mod]

theorem canon_of_toNat_mod {x : W} {n : Nat} (h : x.toNat = n % pN) : Canon x := by
  unfold Canon; rw [h]; exact Nat.mod_lt _ (by norm_num)

theorem fp_mod64 (x : W) : fp (mod64 x) = fp x := fp_eq_of_toNat (mod64_toNat x)
theorem canon_mod64 (x : W) : Canon (mod64 x) := canon_of_toNat_mod (mod64_toNat x)

theorem fp_addMod {a b : W} (h : a.toNat + b.toNat < 2 * pN) : fp (addMod a b) = fp a + fp b := by
  rw [fp_eq_of_toNat (addMod_toNat a b h)]; push_cast; rfl
theorem canon_addMod' {a b : W} (h : a.toNat + b.toNat < 2 * pN) : Canon (addMod a b) :=
  canon_of_toNat_mod (addMod_toNat a b h)

theorem fp_addMod_canon {a b : W} (ha : Canon a) (hb : Canon b) : fp (addMod a b) = fp a + fp b :=
  fp_addMod (by unfold Canon at *; omega)
theorem canon_addMod {a b : W} (ha : Canon a) (hb : Canon b) : Canon (addMod a b) :=
  canon_addMod' (by unfold Canon at *; omega)

theorem fp_multMod {a b : W} (ha : Canon a) (hb : Canon b) : fp (multMod a b) = fp a * fp b := by
  rw [fp_eq_of_toNat (multMod_toNat a b (mul_canon_lt ha hb))]; push_cast; rfl
theorem canon_multMod {a b : W} (ha : Canon a) (hb : Canon b) : Canon (multMod a b) :=
  canon_of_toNat_mod (multMod_toNat a b (mul_canon_lt ha hb))

theorem pN_cast_zero : ((pN : Nat) : Fp) = 0 := ZMod.natCast_self pN

theorem PR_sub_toNat {x : W} (h : x.toNat ≤ pN) : (PR - x).toNat = pN - x.toNat := by
  rw [BitVec.toNat_sub, PR_toNat]
  have := x.isLt
  simp only [pN] at *
  omega

theorem fp_PR_sub {x : W} (h : x.toNat ≤ pN) : fp (PR - x) = - fp x := by
  unfold fp
  rw [PR_sub_toNat h, Nat.cast_sub h, pN_cast_zero, zero_sub]

/-- Canonical words are determined by the field element they denote. -/
theorem fp_inj {x y : W} (hx : Canon x) (hy : Canon y) (h : fp x = fp y) : x = y := by
  apply BitVec.eq_of_toNat_eq
  unfold fp at h
  rw [ZMod.natCast_eq_natCast_iff'] at h
  rwa [Nat.mod_eq_of_lt hx, Nat.mod_eq_of_lt hy] at h

@[simp] theorem fp_zero : fp 0 = 0 := by simp [fp]
theorem canon_zero : Canon 0 := by simp [Canon]

/-- `a + (PR - b)` is subtraction, canonical even when `b = 0`. -/
theorem fp_addMod_sub {a b : W} (ha : Canon a) (hb : Canon b) :
    fp (addMod a (PR - b)) = fp a - fp b := by
  rw [fp_addMod, fp_PR_sub (le_of_lt hb)]
  · ring
  · rw [PR_sub_toNat (le_of_lt hb)]; unfold Canon at *; omega
theorem canon_addMod_sub {a b : W} (ha : Canon a) (hb : Canon b) :
    Canon (addMod a (PR - b)) := by
  apply canon_addMod'
  rw [PR_sub_toNat (le_of_lt hb)]; unfold Canon at *; omega
theorem addMod_comm (a b : W) : addMod a b = addMod b a := by
  unfold addMod; rw [BitVec.add_comm]

/-! ### lanes -/

theorem low64_makeBlock (h l : W) : low64 (makeBlock h l) = l := by
  unfold low64 makeBlock
  ext i hi
  simp [hi]

theorem high64_makeBlock (h l : W) : high64 (makeBlock h l) = h := by
  unfold high64 makeBlock
  ext i hi
  have e : 64 + i - 64 = i := by omega
  have h1 : 64 + i < 128 := by omega
  have h2 : i < 128 := by omega
  simp [e, h1, h2, BitVec.getLsbD_eq_getElem hi]

theorem makeBlock_eta (x : U128) : makeBlock (high64 x) (low64 x) = x := by
  unfold high64 makeBlock low64
  ext i hi
  by_cases h : i < 64
  · simp [h, BitVec.getLsbD_eq_getElem hi]
  · have e : 64 + (i - 64) = i := by omega
    have h2 : i - 64 < 64 := by omega
    simp [h, e, h2, BitVec.getLsbD_eq_getElem hi]

theorem block_ext {x y : U128} (h : high64 x = high64 y) (l : low64 x = low64 y) : x = y := by
  rw [← makeBlock_eta x, ← makeBlock_eta y, h, l]

theorem low64_and (a b : U128) : low64 (a &&& b) = low64 a &&& low64 b := by
  unfold low64; ext i hi; simp [hi]
theorem high64_and (a b : U128) : high64 (a &&& b) = high64 a &&& high64 b := by
  unfold high64; ext i hi; simp
theorem low64_xor (a b : U128) : low64 (a ^^^ b) = low64 a ^^^ low64 b := by
  unfold low64; ext i hi; simp [hi]
theorem high64_xor (a b : U128) : high64 (a ^^^ b) = high64 a ^^^ high64 b := by
  unfold high64; ext i hi; simp
theorem low64_not (a : U128) : low64 (~~~a) = ~~~ low64 a := by
  unfold low64; ext i hi; simp [hi]
theorem high64_not (a : U128) : high64 (~~~a) = ~~~ high64 a := by
  unfold high64; ext i hi; simp; intro _; omega

theorem low64_toNat (x : U128) : (low64 x).toNat = x.toNat % 2^64 := by
  simp [low64]
theorem high64_toNat (x : U128) : (high64 x).toNat = x.toNat / 2^64 := by
  unfold high64
  rw [BitVec.toNat_setWidth, shr_toNat]
  have := x.isLt
  apply Nat.mod_eq_of_lt; omega

theorem makeBlock_toNat (h l : W) : (makeBlock h l).toNat = h.toNat * 2^64 + l.toNat := by
  have e := high64_toNat (makeBlock h l)
  have f := low64_toNat (makeBlock h l)
  rw [high64_makeBlock] at e; rw [low64_makeBlock] at f
  omega

/-- scalar version of one lane of `vec_partial_mod`. -/
def laneSub (x : W) : W := x - (~~~(if x.slt PR then (-1 : W) else 0) &&& PR)

theorem low64_vecPartialMod (i : U128) : low64 (vecPartialMod i) = laneSub (low64 i) := by
  simp [vecPartialMod, vSub, vAndNot, vCmpGt, PRs, low64_makeBlock, high64_makeBlock,
    low64_and, low64_not, laneSub]
theorem high64_vecPartialMod (i : U128) : high64 (vecPartialMod i) = laneSub (high64 i) := by
  simp [vecPartialMod, vSub, vAndNot, vCmpGt, PRs, low64_makeBlock, high64_makeBlock,
    high64_and, high64_not, laneSub]

/-- The signed comparison agrees with the unsigned one on lanes below 2^63. -/
theorem laneSub_eq (x : W) (h : x.toNat < 2^63) :
    laneSub x = if PR ≤ x then x - PR else x := by
  have hs : x.slt PR ↔ x.toNat < pN := by
    rw [BitVec.slt_iff_toInt_lt, BitVec.toInt_eq_toNat_of_lt (by omega),
      BitVec.toInt_eq_toNat_of_lt (by decide), PR_toNat]
    omega
  have hl : PR ≤ x ↔ pN ≤ x.toNat := by rw [BitVec.le_def, PR_toNat]
  unfold laneSub
  by_cases hx : x.toNat < pN
  · rw [if_pos (hs.2 hx), if_neg (by rw [hl]; omega)]
    have : (~~~(-1 : W) &&& PR) = 0 := by decide
    rw [this]; exact BitVec.sub_zero x
  · rw [if_neg (by rw [hs]; omega), if_pos (by rw [hl]; omega)]
    have : (~~~(0 : W) &&& PR) = PR := by decide
    rw [this]

end EmpZk
