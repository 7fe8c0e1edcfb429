/-
Conversion from arithmetic to boolean against a prover that chooses the opened word: C81.
-/
import Verif.Model.Convert
import Verif.Props.EdaBits
import Verif.Props.AnyWord

namespace EmpZk

/-! ### C81 : an accepted conversion has the value of the input

The claim: whatever word the prover sends for the sum and whatever it hashes, if the session is accepted then the integer has the value of
the field element, except for a bounded number of `Delta`. It is false. -/

/-- The word accepted and wrong: `sum + p`. -/
def sumPlusP (x r : Fp) : W := toW (x + r) + PR

/-- What the prover hashes when it follows the code: the MAC of the sum. -/
def sumMac (mx mr : Fp) : W := toW (mr + mx)

theorem intfpAddB_keyAt (d : Fp) (a b : Fp × Fp) :
    low64 (intfpAddB (keyAt d a) (keyAt d b)) = toW ((a.2 + b.2) - (a.1 + b.1) * d) := by
  rw [intfpAddB, low64_makeBlock, low64_keyAt, low64_keyAt, addMod_toW]
  congr 1
  ring

/-- The 62-bit integer of a field element. -/
def int62 (r : Fp) : Int62 := BitVec.ofNat 62 r.val

theorem int62_toNat (r : Fp) : (int62 r).toNat = r.val := by
  rw [int62, BitVec.toNat_ofNat]
  exact Nat.mod_eq_of_lt (lt_trans (ZMod.val_lt r) (by decide))

/-- `mult_mod` of `s + p` is the product with `s` if `Delta` is below one half of `p`. -/
theorem multMod_plus_p (s d : Fp) (hd : 2 * d.val ≤ pN) : multMod (toW s + PR) (toW d) = toW (s * d) := by
  have hs := canon_toW s
  have hdc := canon_toW d
  unfold Canon at hs hdc
  have hx : (toW s + PR).toNat = s.val + pN := by
    rw [BitVec.toNat_add, toW_toNat, show PR.toNat = pN from by decide]
    rw [toW_toNat] at hs
    exact Nat.mod_eq_of_lt (by simp only [pN] at *; omega)
  have hsv := ZMod.val_lt s
  have hP : (s.val + pN) * d.val ≤ (2 * pN - 1) * d.val := Nat.mul_le_mul_right _ (by omega)
  have hdn : (toW d).toNat = d.val := toW_toNat d
  have hgen := multMod_toNat_gen (toW s + PR) (toW d) (by
    rw [hx, hdn]
    refine lt_of_le_of_lt hP ?_
    simp only [pN] at *
    omega)
  rw [hx, hdn] at hgen
  have hfold := mersenne_fold ((s.val + pN) * d.val)
  have hm : (multMod (toW s + PR) (toW d)).toNat = (s.val + pN) * d.val % pN := by
    rw [hgen, hfold]
    generalize (s.val + pN) * d.val = P at *
    generalize d.val = D at *
    have hT : P % 2 ^ 61 + P / 2 ^ 61 < 2 * pN := by
      simp only [pN] at *
      omega
    simp only
    rw [Nat.mod_eq_of_lt (by simp only [pN] at *; omega), condSub_mod hT]
  refine eq_toW ?_ ?_
  · unfold Canon
    rw [hm]
    exact Nat.mod_lt _ (by decide)
  · unfold fp
    rw [hm, ZMod.natCast_mod, Nat.cast_mul, Nat.cast_add, pN_cast_zero, ZMod.natCast_zmod_val, ZMod.natCast_zmod_val, add_zero]

theorem sumPlusP_toNat (x r : Fp) (h : x.val + r.val < pN) : (sumPlusP x r).toNat = x.val + r.val + pN := by
  have hv : (x + r).val = x.val + r.val := ZMod.val_add_of_lt h
  rw [sumPlusP, BitVec.toNat_add, toW_toNat, hv, show PR.toNat = pN from by decide]
  exact Nat.mod_eq_of_lt (by simp only [pN] at *; omega)

/-- The wrong conversion: for every input `x ≥ 2`, every edaBit `r` with `x + r < p`, all MACs and every `Delta` up to one half of `p`, a
prover that sends `sum + p` and otherwise follows the code is accepted, and both parties go on with bits of `x - 2`. -/
theorem C81_wrong (x r mx mr d : Fp) (hx : 2 ≤ x.val) (hxr : x.val + r.val < pN) (hd : 2 * d.val ≤ pN) :
    let res := arith2boolB (toW d) (keyAt d (r, mr)) (keyAt d (x, mx)) (int62 r) (sumPlusP x r)
    res.1 = (arith2boolA (lab (r, mr)) (lab (x, mx)) (int62 r)).2.1 ∧ res.2.toNat = x.val - 2 := by
  constructor
  · simp only [arith2boolB, arith2boolA]
    rw [intfpAddB_keyAt, sumPlusP, multMod_plus_p _ _ hd, addMod_toW, intfpAddA, low64_makeBlock, low64_lab, low64_lab, addMod_toW]
    congr 1
    simp only
    ring
  · simp only [arith2boolB]
    rw [f2Diff_toNat, int62_toNat, BitVec.toNat_setWidth, sumPlusP_toNat x r hxr]
    generalize x.val = X at *
    generalize r.val = R at *
    simp only [pN] at *
    have h1 : (2 ^ 62 - R + (X + R + 2305843009213693951) % 2 ^ 62) % 2 ^ 62 = X + 2305843009213693951 := by omega
    rw [h1, if_pos (by omega)]
    omega

/-- What C81 claims for one conversion, and for the number `n` of exceptional `Delta`: of the `Delta` for which the prover's words are
accepted, all but `n` give the value of the input. -/
def ConvSound (n : Nat) : Prop :=
  ∀ (x r mx mr : Fp) (v t : W),
    (Finset.univ.filter (fun d : Fp =>
      (arith2boolB (toW d) (keyAt d (r, mr)) (keyAt d (x, mx)) (int62 r) v).1 = t ∧
      (arith2boolB (toW d) (keyAt d (r, mr)) (keyAt d (x, mx)) (int62 r) v).2.toNat ≠ x.val)).card ≤ n

/-- More than half of all `Delta` accept the wrong conversion. -/
theorem C81_wrong_count (x r mx mr : Fp) (hx : 2 ≤ x.val) (hxr : x.val + r.val < pN) :
    2 ^ 60 ≤ (Finset.univ.filter (fun d : Fp =>
      (arith2boolB (toW d) (keyAt d (r, mr)) (keyAt d (x, mx)) (int62 r) (sumPlusP x r)).1 = sumMac mx mr ∧
      (arith2boolB (toW d) (keyAt d (r, mr)) (keyAt d (x, mx)) (int62 r) (sumPlusP x r)).2.toNat ≠ x.val)).card := by
  have h := card_val_lt (2 ^ 60)
  rw [show min pN (2 ^ 60) = 2 ^ 60 from by decide] at h
  rw [← h]
  refine Finset.card_le_card ?_
  intro d hd
  simp only [Finset.mem_filter, Finset.mem_univ, true_and] at hd ⊢
  obtain ⟨h1, h2⟩ := C81_wrong x r mx mr d hx hxr (by simp only [pN]; omega)
  refine ⟨?_, ?_⟩
  · rw [h1]
    simp only [arith2boolA]
    rw [intfpAddA, low64_makeBlock, low64_lab, low64_lab, addMod_toW, sumMac]
  · rw [h2]
    omega

/-- The claim is false, even when up to one half of all `Delta` are excepted. -/
theorem C81_false (n : Nat) (hn : n < 2 ^ 60) : ¬ ConvSound n := by
  intro h
  have h1 := C81_wrong_count 2 0 0 0 (by decide +kernel) (by decide +kernel)
  have h2 := h 2 0 0 0 (sumPlusP 2 0) (sumMac 0 0)
  omega

/-- Converting back gives a field element with a valid MAC and the value `x - 2`. -/
theorem C81_round_trip (x r mx mr d : Fp) (hx : 2 ≤ x.val) (hxr : x.val + r.val < pN) (hd : 2 * d.val ≤ pN) (r' mr' : Fp) :
    let y := (arith2boolB (toW d) (keyAt d (r, mr)) (keyAt d (x, mx)) (int62 r) (sumPlusP x r)).2
    let M := bool2arithA (lab (r', mr')) y (int62 r')
    Auth (toW d) M (bool2arithB (toW d) (keyAt d (r', mr')) y (int62 r')) ∧ fp (high64 M) = x - 2 := by
  intro y M
  have hy : y.toNat = x.val - 2 := (C81_wrong x r mx mr d hx hxr hd).2
  have hxl := ZMod.val_lt x
  obtain ⟨h1, h2⟩ := C41_bool2arith (canon_toW d) (auth_lab d (r', mr')) (x := y) (r := int62 r')
    (by unfold Same; rw [int62_toNat, high64_lab, toW_toNat]) (by omega)
  refine ⟨h1, ?_⟩
  unfold Same at h2
  unfold fp
  rw [show (high64 M).toNat = x.val - 2 from h2.symm.trans hy, Nat.cast_sub hx, ZMod.natCast_zmod_val]
  rfl

/-- A word accepted for three different `Delta` is congruent to the sum. -/
theorem C81_congruent (x r mx mr : Fp) (v t : W) (D : Finset Fp)
    (hD : ∀ d ∈ D, (arith2boolB (toW d) (keyAt d (r, mr)) (keyAt d (x, mx)) (int62 r) v).1 = t) (hc : 2 < D.card) : fp v = x + r := by
  by_contra hne
  have hs : fp v - (x + r) ≠ 0 := fun h0 => hne (sub_eq_zero.1 h0)
  have hsub : D ⊆ {(fp t - (mr + mx)) / (fp v - (x + r)), (fp t - (mr + mx) + 8) / (fp v - (x + r))} := by
    intro d hd
    have h := hD d hd
    simp only [arith2boolB] at h
    rw [intfpAddB_keyAt, addMod_comm] at h
    obtain ⟨c, hcc⟩ := fp_open_any v d ((mr + mx) - (r + x) * d)
    simp only at h
    rw [h] at hcc
    simp only [Finset.mem_insert, Finset.mem_singleton]
    rw [eq_div_iff hs, eq_div_iff hs]
    cases c with
    | false => left; simp only [Bool.false_eq_true, if_false] at hcc; linear_combination -hcc
    | true => right; simp only [if_true] at hcc; linear_combination -hcc
  have := (Finset.card_le_card hsub).trans Finset.card_le_two
  omega

theorem conv_results_int (V R : Nat) (hV : V < 2 ^ 64) (hR : R < pN) :
    ∃ m : Nat, m ≤ 4 ∧ ∃ k : Int, (((if 2 ^ 61 < (2 ^ 62 - R + V % 2 ^ 62) % 2 ^ 62 then (2 ^ 62 - R + V % 2 ^ 62) % 2 ^ 62 + pN - 2 ^ 62
      else if (2 ^ 62 - R + V % 2 ^ 62) % 2 ^ 62 = 2 ^ 61 then 2 ^ 62 - 1 else (2 ^ 62 - R + V % 2 ^ 62) % 2 ^ 62 : Nat) : Nat) : Int)
        = V - R - 2 * m + k * pN := by
  simp only [pN] at *
  have hb : V = 2 ^ 62 * (V / 2 ^ 62) + V % 2 ^ 62 := by omega
  have ha : V / 2 ^ 62 ≤ 3 := by omega
  generalize V / 2 ^ 62 = a at *
  have hlt : V % 2 ^ 62 < 2 ^ 62 := Nat.mod_lt _ (by decide)
  generalize V % 2 ^ 62 = b at *
  clear hV
  subst hb
  by_cases hbr : b < R
  · have hs : (2 ^ 62 - R + b) % 2 ^ 62 = 2 ^ 62 - R + b := by omega
    rw [hs, if_pos (by omega)]
    exact ⟨a, by omega, 1 - 2 * a, by omega⟩
  · have hs : (2 ^ 62 - R + b) % 2 ^ 62 = b - R := by omega
    rw [hs]
    split
    · exact ⟨a + 1, by omega, 1 - 2 * a - 2, by omega⟩
    · split
      · exact ⟨a, by omega, 1 - 2 * a, by omega⟩
      · exact ⟨a, by omega, - 2 * a, by omega⟩

/-- The integer obtained from a word congruent to the sum: the value of the input less at most four times two. -/
theorem conv_results (x r : Fp) (v : W) (hv : fp v = x + r) :
    ∃ m : Nat, m ≤ 4 ∧ (((f2Diff (v.setWidth 62) (int62 r)).toNat : Nat) : Fp) = x - 2 * (m : Fp) := by
  rw [f2Diff_toNat, int62_toNat, BitVec.toNat_setWidth]
  obtain ⟨m, hm, k, hk⟩ := conv_results_int v.toNat r.val v.isLt (ZMod.val_lt r)
  refine ⟨m, hm, ?_⟩
  have key : ∀ E : Nat, (E : Int) = v.toNat - r.val - 2 * m + k * pN → (E : Fp) = x - 2 * (m : Fp) := by
    intro E hE
    have h := congrArg (Int.cast : Int → Fp) hE
    push_cast at h
    rw [show (2305843009213693951 : Fp) = 0 from by decide +kernel, ZMod.natCast_zmod_val, show ((v.toNat : Nat) : Fp) = x + r from hv] at h
    rw [h]
    ring
  exact key _ hk

/-- What holds. Whatever word the prover sends and whatever it hashes:
1. of the `Delta` for which it is accepted, all but two give the value of the input less 0, 2, 4, 6 or 8 modulo `p`;
2. if the word is below `p`, all but one give the value of the input;
3. a prover following the code is accepted with the value of the input for every `Delta`.
Missing: the claim itself (`ConvSound`), which a check that the received word is below `p` would give by 2. -/
theorem C81_partial (x r mx mr : Fp) :
    (∀ v t : W, (Finset.univ.filter (fun d : Fp =>
      (arith2boolB (toW d) (keyAt d (r, mr)) (keyAt d (x, mx)) (int62 r) v).1 = t ∧
      ¬ ∃ m : Nat, m ≤ 4 ∧
        (((arith2boolB (toW d) (keyAt d (r, mr)) (keyAt d (x, mx)) (int62 r) v).2.toNat : Nat) : Fp) = x - 2 * (m : Fp))).card ≤ 2) ∧
    (∀ v t : W, Canon v → (Finset.univ.filter (fun d : Fp =>
      (arith2boolB (toW d) (keyAt d (r, mr)) (keyAt d (x, mx)) (int62 r) v).1 = t ∧
      (arith2boolB (toW d) (keyAt d (r, mr)) (keyAt d (x, mx)) (int62 r) v).2.toNat ≠ x.val)).card ≤ 1) ∧
    (∀ d : Fp, arith2boolB (toW d) (keyAt d (r, mr)) (keyAt d (x, mx)) (int62 r) (arith2boolA (lab (r, mr)) (lab (x, mx)) (int62 r)).1 =
      ((arith2boolA (lab (r, mr)) (lab (x, mx)) (int62 r)).2.1, int62 x)) := by
  have hgood : f2Diff ((toW (r + x)).setWidth 62) (int62 r) = int62 x := by
    apply BitVec.eq_of_toNat_eq
    have hv : (r + x).val < pN := ZMod.val_lt _
    have h1 : ((toW (r + x)).setWidth 62).toNat = (r + x).val := by
      rw [BitVec.toNat_setWidth, toW_toNat]
      exact Nat.mod_eq_of_lt (lt_trans hv (by decide))
    have h2 := f2Diff_fp (a := (toW (r + x)).setWidth 62) (b := int62 r) (by rw [h1]; exact hv) (by rw [int62_toNat]; exact ZMod.val_lt r)
    have h3 := f2Diff_lt (a := (toW (r + x)).setWidth 62) (b := int62 r) (by rw [h1]; exact hv) (by rw [int62_toNat]; exact ZMod.val_lt r)
    rw [h1, int62_toNat, ZMod.natCast_zmod_val, ZMod.natCast_zmod_val, add_sub_cancel_left] at h2
    rw [int62_toNat]
    conv_rhs => rw [← h2]
    rw [ZMod.val_natCast, Nat.mod_eq_of_lt h3]
  refine ⟨?_, ?_, ?_⟩
  · intro v t
    have aux : ∀ D : Finset Fp, (∀ d ∈ D, (arith2boolB (toW d) (keyAt d (r, mr)) (keyAt d (x, mx)) (int62 r) v).1 = t ∧
        ¬ ∃ m : Nat, m ≤ 4 ∧ (((f2Diff (v.setWidth 62) (int62 r)).toNat : Nat) : Fp) = x - 2 * (m : Fp)) → D.card ≤ 2 := by
      intro D hD
      by_contra hlt
      have hlt' := not_le.1 hlt
      have hv := C81_congruent x r mx mr v t D (fun d hd => (hD d hd).1) hlt'
      obtain ⟨d, hd⟩ := Finset.card_pos.1 (lt_trans Nat.zero_lt_two hlt')
      exact (hD d hd).2 (conv_results x r v hv)
    exact aux _ (fun d hd => (Finset.mem_filter.1 hd).2)
  · intro v t hv
    rw [Finset.card_le_one]
    intro d hd d' hd'
    obtain ⟨_, h1, h2⟩ := Finset.mem_filter.1 hd
    obtain ⟨_, h1', _⟩ := Finset.mem_filter.1 hd'
    simp only [arith2boolB] at h1 h1' h2
    rw [intfpAddB_keyAt] at h1 h1'
    refine C41_open (r + x, mr + mx) v t hv ?_ d d' (by rw [low64_keyAt]; exact h1) (by rw [low64_keyAt]; exact h1')
    rintro rfl
    exact h2 (by rw [hgood, int62_toNat])
  · intro d
    simp only [arith2boolB, arith2boolA]
    rw [intfpAddB_keyAt, intfpAddA, high64_makeBlock, low64_makeBlock, low64_lab, low64_lab, high64_lab, high64_lab, addMod_toW, addMod_toW,
      multMod_toW, addMod_toW, hgood]
    congr 2
    ring

/-- A conversion of 1000 with the mask 5: the word sent is `1005 + p`, the `Delta` is 7, the result 998. -/
example : 2 ≤ (1000 : Fp).val ∧ (1000 : Fp).val + (5 : Fp).val < pN ∧ 2 * (7 : Fp).val ≤ pN ∧
    (arith2boolB (toW 7) (keyAt 7 (5, 11)) (keyAt 7 (1000, 13)) (int62 5) (sumPlusP 1000 5)).1 = toW 24 ∧
    (arith2boolB (toW 7) (keyAt 7 (5, 11)) (keyAt 7 (1000, 13)) (int62 5) (sumPlusP 1000 5)).2 = 998#62 := by decide +kernel

/-- Three `Delta` that accept one word, as `C81_congruent` asks. -/
example : ∀ d ∈ ({1, 2, 7} : Finset Fp),
    (arith2boolB (toW d) (keyAt d (5, 11)) (keyAt d (1000, 13)) (int62 5) (sumPlusP 1000 5)).1 = toW 24 := by
  intro d hd
  simp only [Finset.mem_insert, Finset.mem_singleton] at hd
  rcases hd with rfl | rfl | rfl <;> decide +kernel

/-! ### C82 : the result of `bool2arith` for every 62-bit integer

The claim: the field element obtained is determined by the integer. It is true up to `p + 1` and false beyond. -/

theorem bool2arith_int (X R : Nat) (hX : X < 2 ^ 62) (hR : R < pN) :
    ∃ k : Int, (((if 2 ^ 61 < (2 ^ 62 - R + X) % 2 ^ 62 then (2 ^ 62 - R + X) % 2 ^ 62 + pN - 2 ^ 62
      else if (2 ^ 62 - R + X) % 2 ^ 62 = 2 ^ 61 then 2 ^ 62 - 1 else (2 ^ 62 - R + X) % 2 ^ 62 : Nat) : Nat) : Int) + R
        = X - (if R + 2 ^ 61 < X then 2 else 0) + k * pN := by
  simp only [pN] at *
  by_cases h : X < R
  · have hs : (2 ^ 62 - R + X) % 2 ^ 62 = 2 ^ 62 - R + X := by omega
    rw [hs, if_pos (by omega), if_neg (by omega)]
    exact ⟨1, by omega⟩
  · have hs : (2 ^ 62 - R + X) % 2 ^ 62 = X - R := by omega
    rw [hs]
    split
    · rw [if_pos (by omega)]
      exact ⟨-1, by omega⟩
    · split
      · rw [if_neg (by omega)]
        exact ⟨1, by omega⟩
      · rw [if_neg (by omega)]
        exact ⟨0, by omega⟩

/-- The value of the field element obtained from any 62-bit integer `x` with the mask `r`: the residue of `x`, but two less when
`x` exceeds the mask by more than `2^61`. -/
theorem C82_value (x : Int62) (r m : Fp) :
    fp (high64 (bool2arithA (lab (r, m)) x (int62 r))) = (x.toNat : Fp) - (if r.val + 2 ^ 61 < x.toNat then 2 else 0) := by
  have hlt : ((f2Diff x (int62 r)).setWidth 64).toNat = (f2Diff x (int62 r)).toNat := by
    rw [BitVec.toNat_setWidth]
    exact Nat.mod_eq_of_lt (lt_trans (f2Diff x (int62 r)).isLt (by decide))
  have hsmall : ((f2Diff x (int62 r)).setWidth 64).toNat + pN ≤ 2 ^ 64 := by
    rw [hlt]
    have := (f2Diff x (int62 r)).isLt
    simp only [pN]
    omega
  rw [bool2arithA, intfpAddConstA, high64_makeBlock, high64_lab, addMod_comm, fp_addMod_any _ hsmall]
  unfold fp
  rw [hlt, f2Diff_toNat, int62_toNat]
  obtain ⟨k, hk⟩ := bool2arith_int x.toNat r.val x.isLt (ZMod.val_lt r)
  have key : ∀ E : Nat, (E : Int) + r.val = x.toNat - (if r.val + 2 ^ 61 < x.toNat then 2 else 0) + k * pN →
      (E : Fp) + r = (x.toNat : Fp) - (if r.val + 2 ^ 61 < x.toNat then 2 else 0) := by
    intro E hE
    have h := congrArg (Int.cast : Int → Fp) hE
    have hp : ((pN : Int) : Fp) = 0 := by exact_mod_cast pN_cast_zero
    rw [Int.cast_add, Int.cast_add, Int.cast_mul, hp, mul_zero, add_zero, Int.cast_sub, Int.cast_natCast, Int.cast_natCast,
      Int.cast_natCast, ZMod.natCast_zmod_val] at h
    rw [h]
    split <;> rfl
  exact key _ hk

theorem addMod_PR (a : Fp) : addMod (toW a) PR = toW a := by
  have h := addMod_toNat_gen (toW a) PR (by
    have := canon_toW a
    unfold Canon at this
    rw [show PR.toNat = pN from by decide]
    simp only [pN] at *
    omega)
  apply BitVec.eq_of_toNat_eq
  rw [h, show PR.toNat = pN from by decide, if_pos (Nat.le_add_left _ _), Nat.add_sub_cancel]

theorem two_ne_zero_cv : (2 : Fp) ≠ 0 := by decide +kernel

/-- The result has a valid MAC and a value below `p`, unless `x` is the mask plus `2^61`. -/
theorem C82_auth (x : Int62) (r m d : Fp) (hx : x.toNat ≠ r.val + 2 ^ 61) :
    Auth (toW d) (bool2arithA (lab (r, m)) x (int62 r)) (bool2arithB (toW d) (keyAt d (r, m)) x (int62 r)) := by
  have hlt : ((f2Diff x (int62 r)).setWidth 64).toNat = (f2Diff x (int62 r)).toNat := by
    rw [BitVec.toNat_setWidth]
    exact Nat.mod_eq_of_lt (lt_trans (f2Diff x (int62 r)).isLt (by decide))
  have hle : ((f2Diff x (int62 r)).setWidth 64).toNat ≤ pN := by
    rw [hlt, f2Diff_toNat, int62_toNat]
    have h1 := x.isLt
    have h2 := ZMod.val_lt r
    generalize x.toNat = X at *
    generalize r.val = R at *
    simp only [pN] at *
    by_cases h : X < R
    · have hs : (2 ^ 62 - R + X) % 2 ^ 62 = 2 ^ 62 - R + X := by omega
      rw [hs, if_pos (by omega)]
      omega
    · have hs : (2 ^ 62 - R + X) % 2 ^ 62 = X - R := by omega
      rw [hs]
      split
      · omega
      · split <;> omega
  unfold bool2arithA bool2arithB
  generalize (f2Diff x (int62 r)).setWidth 64 = v at hle
  rcases Nat.lt_or_eq_of_le hle with h | h
  · exact auth_intfpAddConst (canon_toW d) (auth_lab d (r, m)) h
  · have hv : v = PR := BitVec.eq_of_toNat_eq (h.trans (by decide))
    subst hv
    have a := auth_lab d (r, m)
    have e1 : intfpAddConstA (lab (r, m)) PR = lab (r, m) := by
      rw [intfpAddConstA, high64_lab, low64_lab, addMod_PR]
      rfl
    have e2 : intfpAddConstB (toW d) (keyAt d (r, m)) PR = makeBlock 0 (low64 (keyAt d (r, m))) := by
      rw [intfpAddConstB, multMod_PR, low64_keyAt, show PR - 0 = PR from by decide, addMod_PR]
    rw [e1, e2]
    exact ⟨a.value, a.mac, by rw [low64_makeBlock]; exact a.key, high64_makeBlock _ _, by rw [low64_makeBlock]; exact a.rel⟩

/-- The claim: the value of the field element is determined by the integer. -/
def Determined (x : Int62) : Prop := ∃ y : Fp, ∀ r m : Fp, fp (high64 (bool2arithA (lab (r, m)) x (int62 r))) = y

/-- For an integer `x` beyond `p`, exactly `x - p - 1` of the `p` masks give the value `x - 2`; the others give `x`. -/
theorem C82_count (x : Int62) (m : Fp) :
    (Finset.univ.filter (fun r : Fp => fp (high64 (bool2arithA (lab (r, m)) x (int62 r))) = (x.toNat : Fp) - 2)).card = x.toNat - (pN + 1) ∧
    (Finset.univ.filter (fun r : Fp => fp (high64 (bool2arithA (lab (r, m)) x (int62 r))) = (x.toNat : Fp))).card =
      pN - (x.toNat - (pN + 1)) := by
  have hx := x.isLt
  have hmin : min pN (x.toNat - (pN + 1)) = x.toNat - (pN + 1) := by simp only [pN]; omega
  have hcard := card_val_lt (x.toNat - (pN + 1))
  rw [hmin] at hcard
  have hiff : ∀ r : Fp, r.val < x.toNat - (pN + 1) ↔ r.val + 2 ^ 61 < x.toNat := by
    intro r
    simp only [pN]
    omega
  constructor
  · rw [← hcard]
    refine congrArg Finset.card (Finset.filter_congr ?_)
    intro r _
    rw [C82_value, hiff]
    by_cases h : r.val + 2 ^ 61 < x.toNat
    · rw [if_pos h]
      exact ⟨fun _ => h, fun _ => rfl⟩
    · rw [if_neg h]
      refine ⟨fun h2 => absurd ?_ two_ne_zero_cv, fun h2 => absurd h2 h⟩
      linear_combination h2
  · have hsum := Finset.card_filter_add_card_filter_not (s := (Finset.univ : Finset Fp)) (fun r : Fp => r.val < x.toNat - (pN + 1))
    rw [hcard, Finset.card_univ, ZMod.card] at hsum
    rw [← Nat.eq_sub_of_add_eq' hsum]
    refine congrArg Finset.card (Finset.filter_congr ?_)
    intro r _
    rw [C82_value, hiff]
    by_cases h : r.val + 2 ^ 61 < x.toNat
    · rw [if_pos h]
      refine ⟨fun h2 => absurd ?_ two_ne_zero_cv, fun h2 => absurd h h2⟩
      linear_combination -h2
    · rw [if_neg h]
      exact ⟨fun _ => h, fun _ => sub_zero _⟩

/-- The claim is false of every integer from `p + 2` on, except the largest. -/
theorem C82_false (x : Int62) (h1 : pN + 2 ≤ x.toNat) (h2 : x.toNat ≠ 2 ^ 62 - 1) : ¬ Determined x := by
  rintro ⟨y, hy⟩
  have hx := x.isLt
  have e0 := hy 0 0
  have e1 := hy (-1) 0
  rw [C82_value, show (0 : Fp).val = 0 from by decide +kernel, if_pos (by simp only [pN] at *; omega)] at e0
  rw [C82_value, show (-1 : Fp).val = pN - 1 from by decide +kernel, if_neg (by simp only [pN] at *; omega)] at e1
  exact two_ne_zero_cv (by linear_combination e1 - e0)

/-- What holds: the claim for the other integers. The value is the residue, and `-1` for the largest.
Missing: the integers from `p + 2` on (`C82_false`). -/
theorem C82_partial (x : Int62) :
    (x.toNat ≤ pN + 1 → ∀ r m : Fp, fp (high64 (bool2arithA (lab (r, m)) x (int62 r))) = (x.toNat : Fp)) ∧
    (x.toNat = 2 ^ 62 - 1 → ∀ r m : Fp, fp (high64 (bool2arithA (lab (r, m)) x (int62 r))) = -1) ∧
    (Determined x ↔ x.toNat ≤ pN + 1 ∨ x.toNat = 2 ^ 62 - 1) := by
  have ha : x.toNat ≤ pN + 1 → ∀ r m : Fp, fp (high64 (bool2arithA (lab (r, m)) x (int62 r))) = (x.toNat : Fp) := by
    intro h r m
    rw [C82_value, if_neg (by simp only [pN] at *; omega), sub_zero]
  have hb : x.toNat = 2 ^ 62 - 1 → ∀ r m : Fp, fp (high64 (bool2arithA (lab (r, m)) x (int62 r))) = -1 := by
    intro h r m
    have hr := ZMod.val_lt r
    rw [C82_value, if_pos (by simp only [pN] at *; omega), h]
    decide +kernel
  refine ⟨ha, hb, ?_, ?_⟩
  · intro hd
    by_contra hc
    rw [not_or, not_le] at hc
    exact C82_false x hc.1 hc.2 hd
  · rintro (h | h)
    · exact ⟨_, ha h⟩
    · exact ⟨_, hb h⟩

/-- Read as a signed number: `-n` is converted to `-n` modulo `p` except for `n - 1` masks, for which the result is `2 - n`. -/
theorem C82_signed (n : Nat) (h1 : 1 ≤ n) (h2 : n ≤ 2 ^ 61) (m : Fp) :
    (Finset.univ.filter (fun r : Fp =>
      fp (high64 (bool2arithA (lab (r, m)) (-(BitVec.ofNat 62 n)) (int62 r))) = 2 - (n : Fp))).card = min pN (n - 1) := by
  have hx : (-(BitVec.ofNat 62 n)).toNat = 2 ^ 62 - n := by
    rw [BitVec.toNat_neg, BitVec.toNat_ofNat]
    omega
  have hc : ((2 ^ 62 - n : Nat) : Fp) = 2 - (n : Fp) := by
    rw [Nat.cast_sub (by omega), show ((2 ^ 62 : Nat) : Fp) = 2 from by decide +kernel]
  have h := (C82_count (-(BitVec.ofNat 62 n)) m).2
  rw [hx, hc] at h
  rw [h]
  simp only [pN]
  omega

/-- An integer beyond `p + 1` and two masks with different results. -/
example : pN + 2 ≤ (4611686018427387900#62).toNat ∧ (4611686018427387900#62).toNat ≠ 2 ^ 62 - 1 ∧
    fp (high64 (bool2arithA (lab (5, 11)) 4611686018427387900#62 (int62 5))) = -4 ∧
    fp (high64 (bool2arithA (lab (-1, 11)) 4611686018427387900#62 (int62 (-1)))) = -2 := by decide +kernel

end EmpZk
