/-
Helper lemmas: two-lane vectors, 128-bit reduction, hash coefficients and inner products.
-/
import Verif.Lemmas.Word
import Mathlib.Algebra.BigOperators.Group.List.Basic
import Mathlib.Algebra.BigOperators.Group.Finset.Basic

namespace EmpZk

theorem laneSub_toNat (x : W) (h : x.toNat < 2^63) :
    (laneSub x).toNat = if pN ≤ x.toNat then x.toNat - pN else x.toNat := by
  rw [laneSub_eq x h, condSub_toNat]

/-- lane of the vector multiplication before naming it through `multMod`. -/
def laneMul (a b : W) : W :=
  laneSub (((mul64 a b).1 &&& PR) + (((mul64 a b).1 >>> 61) ^^^ ((mul64 a b).2 <<< 3)))

theorem laneMul_eq (a b : W) (h : a.toNat * b.toNat < 2^123) : laneMul a b = multMod a b := by
  unfold laneMul multMod
  rw [laneSub_eq]
  rw [BitVec.toNat_add, and_PR_toNat, multMod_split a b (by omega), (mul64_toNat a b).1]
  exact lt_of_le_of_lt (Nat.mod_le _ _) (by omega)

theorem low64_vAdd (a b : U128) : low64 (vAdd a b) = low64 a + low64 b := low64_makeBlock _ _
theorem high64_vAdd (a b : U128) : high64 (vAdd a b) = high64 a + high64 b := high64_makeBlock _ _
theorem low64_vSub (a b : U128) : low64 (vSub a b) = low64 a - low64 b := low64_makeBlock _ _
theorem high64_vSub (a b : U128) : high64 (vSub a b) = high64 a - high64 b := high64_makeBlock _ _
theorem low64_vSrl (a : U128) (n : Nat) : low64 (vSrl a n) = low64 a >>> n := low64_makeBlock _ _
theorem high64_vSrl (a : U128) (n : Nat) : high64 (vSrl a n) = high64 a >>> n := high64_makeBlock _ _
theorem low64_vSll (a : U128) (n : Nat) : low64 (vSll a n) = low64 a <<< n := low64_makeBlock _ _
theorem high64_vSll (a : U128) (n : Nat) : high64 (vSll a n) = high64 a <<< n := high64_makeBlock _ _
theorem low64_PRs : low64 PRs = PR := low64_makeBlock _ _
theorem high64_PRs : high64 PRs = PR := high64_makeBlock _ _

theorem low64_multModV (a : U128) (b : W) : low64 (multModV a b) = laneMul (low64 a) b := by
  simp only [multModV, low64_vecPartialMod, low64_vAdd, low64_and, low64_xor, low64_vSrl,
    low64_vSll, low64_makeBlock, low64_PRs, laneMul]
theorem high64_multModV (a : U128) (b : W) : high64 (multModV a b) = laneMul (high64 a) b := by
  simp only [multModV, high64_vecPartialMod, high64_vAdd, high64_and, high64_xor, high64_vSrl,
    high64_vSll, high64_makeBlock, high64_PRs, laneMul]

theorem multModBch2V_eq (a0 a1 : U128) (b0 b1 : W) :
    multModBch2V a0 a1 b0 b1 = (multModV a0 b0, multModV a1 b1) := rfl

theorem multModBch2_eq (a b : W × W) :
    multModBch2 a b = (laneMul a.1 b.1, laneMul a.2 b.2) := by
  simp only [multModBch2, low64_vecPartialMod, low64_vAdd, low64_and, low64_xor, low64_vSrl,
    low64_vSll, low64_makeBlock, low64_PRs, laneMul, high64_vecPartialMod, high64_vAdd, high64_and,
    high64_xor, high64_vSrl, high64_vSll, high64_makeBlock, high64_PRs]

theorem multModBch4_eq (a b : W × W × W × W) :
    multModBch4 a b =
      (laneMul a.1 b.1, laneMul a.2.1 b.2.1, laneMul a.2.2.1 b.2.2.1, laneMul a.2.2.2 b.2.2.2) := by
  simp only [multModBch4, low64_vecPartialMod, low64_vAdd, low64_and, low64_xor, low64_vSrl,
    low64_vSll, low64_makeBlock, low64_PRs, laneMul, high64_vecPartialMod, high64_vAdd, high64_and,
    high64_xor, high64_vSrl, high64_vSll, high64_makeBlock, high64_PRs]

theorem multModBch4Avx_eq (a : Fin 4 → U128) (b : Fin 4 → W) (i : Fin 4) :
    multModBch4Avx a b i = multModV (a i) (b i) := by
  apply block_ext
  · rw [high64_multModV]; simp only [multModBch4Avx, high64_makeBlock]; rfl
  · rw [low64_multModV]; simp only [multModBch4Avx, low64_makeBlock]; rfl

theorem low64_addModV (a b : U128) : low64 (addModV a b) = laneSub (low64 a + low64 b) := by
  simp only [addModV, low64_vecPartialMod, low64_vAdd]
theorem high64_addModV (a b : U128) : high64 (addModV a b) = laneSub (high64 a + high64 b) := by
  simp only [addModV, high64_vecPartialMod, high64_vAdd]

theorem laneAdd_eq (a b : W) (h : a.toNat + b.toNat < 2^63) : laneSub (a + b) = addMod a b := by
  rw [laneSub_eq]
  · rfl
  · rw [BitVec.toNat_add]; omega

theorem low64_vecMod (x : U128) : low64 (vecMod x) = mod64 (low64 x) := by
  simp only [vecMod, low64_vecPartialMod, low64_vAdd, low64_and, low64_vSrl, low64_PRs]
  rw [laneSub_eq]
  · rfl
  · have := (low64 x).isLt
    rw [BitVec.toNat_add, and_PR_toNat, shr_toNat]
    exact lt_of_le_of_lt (Nat.mod_le _ _) (by omega)
theorem high64_vecMod (x : U128) : high64 (vecMod x) = mod64 (high64 x) := by
  simp only [vecMod, high64_vecPartialMod, high64_vAdd, high64_and, high64_vSrl, high64_PRs]
  rw [laneSub_eq]
  · rfl
  · have := (high64 x).isLt
    rw [BitVec.toNat_add, and_PR_toNat, shr_toNat]
    exact lt_of_le_of_lt (Nat.mod_le _ _) (by omega)

theorem canon_mul_lt {a b : W} (ha : Canon a) (hb : Canon b) : a.toNat * b.toNat < 2^123 := by
  have := mul_canon_lt ha hb
  simp only [pN] at this; omega

/-! ### 128-bit reduction -/

theorem mod128_toNat_gen (k : U128) :
    (mod128 k PR128).toNat =
      (let s := k.toNat % 2^61 + k.toNat / 2^61
       if pN ≤ s then s - pN else s) := by
  have hk := k.isLt
  have hs : ((k &&& PR128) + (k >>> 61)).toNat = k.toNat % 2^61 + k.toNat / 2^61 := by
    rw [BitVec.toNat_add, and_PR128_toNat, shr_toNat]; omega
  unfold mod128
  simp only
  have hle : PR128 ≤ (k &&& PR128) + (k >>> 61) ↔ pN ≤ k.toNat % 2^61 + k.toNat / 2^61 := by
    rw [BitVec.le_def, hs, PR128_toNat]
  by_cases h : PR128 ≤ (k &&& PR128) + (k >>> 61)
  · rw [if_pos h, if_pos (hle.1 h), BitVec.toNat_sub, hs, PR128_toNat]
    have := hle.1 h
    simp only [pN] at *
    omega
  · rw [if_neg h, if_neg (fun c => h (hle.2 c)), hs]

theorem mod128_toNat (k : U128) (h : k.toNat < pN * 2^61) :
    (mod128 k PR128).toNat = k.toNat % pN := by
  rw [mod128_toNat_gen]
  have hq : k.toNat / 2^61 < pN := by
    rw [Nat.div_lt_iff_lt_mul (by norm_num)]; exact h
  have hr : k.toNat % 2^61 ≤ pN := by simp only [pN]; omega
  simp only
  rw [mersenne_fold k.toNat, condSub_mod (by omega)]

/-! ### coefficients and inner products -/

theorem coeffFrom_length (c s : W) (n : Nat) : (coeffFrom c s n).length = n := by
  induction n generalizing c with
  | zero => rfl
  | succ n ih => simp [coeffFrom, ih]

theorem coeffFrom_get (c s : W) (hc : Canon c) (hs : Canon s) (n i : Nat)
    (h : i < (coeffFrom c s n).length) :
    Canon (coeffFrom c s n)[i] ∧ fp (coeffFrom c s n)[i] = fp c * fp s ^ (i + 1) := by
  induction n generalizing c i with
  | zero => simp [coeffFrom] at h
  | succ n ih =>
    cases i with
    | zero =>
      simp only [coeffFrom, List.getElem_cons_zero]
      exact ⟨canon_multMod hc hs, by rw [fp_multMod hc hs]; ring⟩
    | succ i =>
      simp only [coeffFrom, List.getElem_cons_succ]
      simp only [coeffFrom, List.length_cons, Nat.add_lt_add_iff_right] at h
      obtain ⟨h1, h2⟩ := ih (multMod c s) (canon_multMod hc hs) i h
      exact ⟨h1, by rw [h2, fp_multMod hc hs]; ring⟩

theorem innPrdtLoop_spec (r : W) (a b : List W) (hr : Canon r)
    (ha : ∀ x ∈ a, Canon x) (hb : ∀ x ∈ b, Canon x) :
    Canon (innPrdtLoop r a b) ∧
      fp (innPrdtLoop r a b) = fp r + (List.zipWith (fun x y => fp x * fp y) a b).sum := by
  induction a generalizing r b with
  | nil => simp [innPrdtLoop, hr]
  | cons x a ih =>
    cases b with
    | nil => simp [innPrdtLoop, hr]
    | cons y b =>
      have hx := ha x (by simp)
      have hy := hb y (by simp)
      have hm := canon_multMod hx hy
      obtain ⟨h1, h2⟩ := ih (addMod r (multMod x y)) b (canon_addMod hr hm)
        (fun z hz => ha z (by simp [hz])) (fun z hz => hb z (by simp [hz]))
      simp only [innPrdtLoop]
      refine ⟨h1, ?_⟩
      rw [h2, fp_addMod_canon hr hm, fp_multMod hx hy]
      simp [add_assoc]

end EmpZk
