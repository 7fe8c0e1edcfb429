/-
Property C80: linear operations on authenticated values, multiplications checked against a triple, debug checks.
-/
import Verif.Props.ArithProtocol
import Verif.Model.ArithTriple

namespace EmpZk

theorem fp_word_add {x y : W} (h : x.toNat + y.toNat < 2 ^ 64) : fp (x + y) = fp x + fp y := by
  unfold fp
  rw [BitVec.toNat_add, Nat.mod_eq_of_lt h, Nat.cast_add]

theorem toW_lt (a : Fp) : (toW a).toNat < pN := canon_toW a

theorem mod64_add_toW (a b : Fp) : mod64 (toW a + toW b) = toW (a + b) := by
  have ha := toW_lt a
  have hb := toW_lt b
  rw [mod64_eq_toW, fp_word_add (by simp only [pN] at *; omega), fp_toW, fp_toW]

theorem mod64_add_sub_toW (a b : Fp) : mod64 (toW a + (PR - toW b)) = toW (a - b) := by
  have ha := toW_lt a
  have hb := toW_lt b
  have hs := PR_sub_toNat (x := toW b) (by omega)
  rw [mod64_eq_toW, fp_word_add (by rw [hs]; simp only [pN] at *; omega), fp_toW, fp_PR_sub (by omega), fp_toW, sub_eq_add_neg]

theorem low64_PR_sub (b : W) (hb : b.toNat ≤ pN) : low64 (PR128 - keyWord b) = PR - b := by
  apply BitVec.eq_of_toNat_eq
  rw [low64_toNat, BitVec.toNat_sub, keyWord_toNat, PR128_toNat, PR_sub_toNat hb]
  simp only [pN] at *
  omega

theorem authMacAdd_lab (a b : Fp × Fp) : authMacAdd (lab a) (lab b) = lab (a.1 + b.1, a.2 + b.2) := by
  apply block_ext
  · rw [authMacAdd, high64_vecMod, high64_vAdd, high64_lab, high64_lab, high64_lab, mod64_add_toW]
  · rw [authMacAdd, low64_vecMod, low64_vAdd, low64_lab, low64_lab, low64_lab, mod64_add_toW]

theorem authMacSub_lab (a b : Fp × Fp) : authMacSub (lab a) (lab b) = lab (a.1 - b.1, a.2 - b.2) := by
  apply block_ext
  · rw [authMacSub, high64_vecMod, high64_vAdd, high64_vSub, high64_PRs, high64_lab, high64_lab, high64_lab, mod64_add_sub_toW]
  · rw [authMacSub, low64_vecMod, low64_vAdd, low64_vSub, low64_PRs, low64_lab, low64_lab, low64_lab, mod64_add_sub_toW]

theorem authMacAddConst_lab (a : Fp × Fp) (c : Fp) : authMacAddConst (lab a) (keyWord (toW c)) = lab (a.1 + c, a.2) := by
  apply block_ext
  · rw [authMacAddConst, high64_vecMod, high64_vAdd, high64_makeBlock, low64_keyWord, high64_lab, high64_lab, mod64_add_toW]
  · rw [authMacAddConst, low64_vecMod, low64_vAdd, low64_makeBlock, low64_lab, low64_lab,
      show toW a.2 + 0 = toW a.2 from BitVec.add_zero _, mod64_eq_toW, fp_toW]

theorem authKeyAdd_keyAt (d : Fp) (a b : Fp × Fp) :
    authKeyAdd (keyAt d a) (keyAt d b) = keyAt d (a.1 + b.1, a.2 + b.2) := by
  simp only [authKeyAdd, low64_keyAt, addMod_toW]
  refine congrArg (fun x => keyWord (toW x)) ?_
  ring

theorem authKeySub_keyAt (d : Fp) (a b : Fp × Fp) :
    authKeySub (keyAt d a) (keyAt d b) = keyAt d (a.1 - b.1, a.2 - b.2) := by
  rw [authKeySub, show keyAt d b = keyWord (toW (b.2 - b.1 * d)) from rfl, low64_PR_sub _ (le_of_lt (toW_lt _)), low64_keyAt,
    addMod_sub_toW']
  refine congrArg (fun x => keyWord (toW x)) ?_
  ring

theorem authKeyAddConst_keyAt (d : Fp) (a : Fp × Fp) (c : Fp) :
    authKeyAddConst (toW d) (keyAt d a) (keyWord (toW c)) = keyAt d (a.1 + c, a.2) := by
  rw [authKeyAddConst]
  simp only [low64_keyWord, multMod_toW]
  rw [low64_PR_sub _ (le_of_lt (toW_lt _)), low64_keyAt, addMod_sub_toW]
  refine congrArg (fun x => keyWord (toW x)) ?_
  ring

theorem mod128_mul_toW (a b : Fp) :
    mod128 ((toW a).setWidth 128 * (toW b).setWidth 128) PR128 = keyWord (toW (a * b)) := by
  have ha := toW_lt a
  have hb := toW_lt b
  have hab := mul_canon_lt (canon_toW a) (canon_toW b)
  apply BitVec.eq_of_toNat_eq
  have h1 : ((toW a).setWidth 128 * (toW b).setWidth 128).toNat = (toW a).toNat * (toW b).toNat := by
    rw [BitVec.toNat_mul, BitVec.toNat_setWidth, BitVec.toNat_setWidth, Nat.mod_eq_of_lt (a := (toW a).toNat)
      (by simp only [pN] at *; omega), Nat.mod_eq_of_lt (a := (toW b).toNat) (by simp only [pN] at *; omega)]
    exact Nat.mod_eq_of_lt (lt_trans hab (by norm_num [pN]))
  rw [mod128_toNat _ (by rw [h1]; exact hab), h1, keyWord_toNat, ← multMod_toW, multMod_toNat _ _ hab]

theorem lab_shr (a : Fp × Fp) : lab a >>> 64 = (toW a.1).setWidth 128 := makeBlock_shr _ _
theorem lab_and (a : Fp × Fp) : lab a &&& 0xFFFFFFFFFFFFFFFF#128 = (toW a.2).setWidth 128 := makeBlock_and _ _

/-- C80 (linear operations). Sums, differences, sums with a constant and multiples of authenticated values are authenticated
for every `Delta`: the prover's label and the verifier's key belong to the same value and MAC. -/
theorem C80_linear (d : Fp) (a b : Fp × Fp) (c : Fp) :
    (∃ r : Fp × Fp, authMacAdd (lab a) (lab b) = lab r ∧ authKeyAdd (keyAt d a) (keyAt d b) = keyAt d r ∧ r.1 = a.1 + b.1) ∧
    (∃ r : Fp × Fp, authMacSub (lab a) (lab b) = lab r ∧ authKeySub (keyAt d a) (keyAt d b) = keyAt d r ∧ r.1 = a.1 - b.1) ∧
    (∃ r : Fp × Fp, authMacAddConst (lab a) (keyWord (toW c)) = lab r ∧
      authKeyAddConst (toW d) (keyAt d a) (keyWord (toW c)) = keyAt d r ∧ r.1 = a.1 + c) ∧
    (∃ r : Fp × Fp, mulConstA (lab a) (toW c) = lab r ∧ mulConstB (keyAt d a) (toW c) = keyAt d r ∧ r.1 = a.1 * c) :=
  ⟨⟨_, authMacAdd_lab a b, authKeyAdd_keyAt d a b, rfl⟩, ⟨_, authMacSub_lab a b, authKeySub_keyAt d a b, rfl⟩,
    ⟨_, authMacAddConst_lab a c, authKeyAddConst_keyAt d a c, rfl⟩, ⟨_, mulConstA_lab a c, mulConstB_keyAt d a c, rfl⟩⟩

/-- C80 (check value). For the triple `t0, t1, t2` and the opened differences `epsilon`, `sigma` both sides get the label and
the key of the same authenticated value `t2 - z + sigma t0 + epsilon t1 + epsilon sigma`, in both versions of the code. -/
theorem C80_mu (d : Fp) (z t0 t1 t2 ep si : Fp × Fp) :
    ∃ r : Fp × Fp, computeMuPrv (lab z) (lab t0) (lab t1) (lab t2) (lab ep) (lab si) = lab r ∧
      computeMuVrf (toW d) (keyAt d z) (keyAt d t0) (keyAt d t1) (keyAt d t2) (keyWord (toW ep.1)) (keyWord (toW si.1)) =
        keyAt d r ∧
      computeMuPrvOpt (lab ep) (lab si) (lab z) (lab t0) (lab t1) (lab t2) = lab r ∧
      computeMuVrfOpt (toW d) (keyWord (toW ep.1)) (keyWord (toW si.1)) (keyAt d z) (keyAt d t0) (keyAt d t1) (keyAt d t2) =
        keyAt d r ∧
      r.1 = t2.1 - z.1 + si.1 * t0.1 + ep.1 * t1.1 + ep.1 * si.1 := by
  have e1 : low64 (lab si >>> 64) = toW si.1 := by rw [lab_shr]; exact low64_keyWord _
  have e2 : low64 (lab ep >>> 64) = toW ep.1 := by rw [lab_shr]; exact low64_keyWord _
  have e3 : mod128 (lab ep >>> 64 * lab si >>> 64) PR128 = keyWord (toW (ep.1 * si.1)) := by
    rw [lab_shr, lab_shr, mod128_mul_toW]
  have e4 : mod128 (keyWord (toW ep.1) * keyWord (toW si.1)) PR128 = keyWord (toW (ep.1 * si.1)) := mod128_mul_toW _ _
  refine ⟨(t2.1 - z.1 + t0.1 * si.1 + t1.1 * ep.1 + ep.1 * si.1, t2.2 - z.2 + t0.2 * si.1 + t1.2 * ep.1), ?_, ?_, ?_, ?_, ?_⟩
  · simp only [computeMuPrv, e1, e2, e3, authMacSub_lab, mulConstA_lab, authMacAdd_lab, authMacAddConst_lab]
  · simp only [computeMuVrf, e4, low64_keyWord, authKeySub_keyAt, mulConstB_keyAt, authKeyAdd_keyAt, authKeyAddConst_keyAt]
  · simp only [computeMuPrvOpt, high64_lab, multMod_toW, authMacSub_lab, mulConstA_lab, authMacAdd_lab, authMacAddConst_lab]
  · simp only [computeMuVrfOpt, low64_keyWord, multMod_toW, authKeySub_keyAt, mulConstB_keyAt, authKeyAdd_keyAt,
      authKeyAddConst_keyAt]
  · ring

/-- C80 (triples). With a correct triple `(a, b, ab)` and the differences `x - a`, `y - b` the check value is zero exactly when
`z = x y`; the verifier then stores the same word as the prover for `reveal_check_zero`, otherwise it stores another one for
every `Delta` but 0. -/
theorem C80_triple (d x y z a b mz ma mb mc me ms : Fp) :
    let P := computeMuPrv (lab (z, mz)) (lab (a, ma)) (lab (b, mb)) (lab (a * b, mc)) (lab (x - a, me)) (lab (y - b, ms))
    let V := computeMuVrf (toW d) (keyAt d (z, mz)) (keyAt d (a, ma)) (keyAt d (b, mb)) (keyAt d (a * b, mc))
      (keyWord (toW (x - a))) (keyWord (toW (y - b)))
    (z = x * y → low64 P = low64 V) ∧ (z ≠ x * y → d ≠ 0 → low64 P ≠ low64 V) := by
  obtain ⟨r, h1, h2, _, _, h3⟩ := C80_mu d (z, mz) (a, ma) (b, mb) (a * b, mc) (x - a, me) (y - b, ms)
  simp only at h1 h2 h3 ⊢
  rw [h1, h2, low64_lab, low64_keyAt]
  have hr : r.1 = x * y - z := by rw [h3]; ring
  constructor
  · intro hz
    rw [hr, hz, sub_self, zero_mul, sub_zero]
  · intro hz hd h
    have h0 : r.1 * d = 0 := by linear_combination toW_inj h
    rcases mul_eq_zero.1 h0 with h | h
    · rw [hr] at h
      exact hz (sub_eq_zero.1 h).symm
    · exact hd h

example : computeMuPrv (lab (42, 1)) (lab (2, 2)) (lab (3, 3)) (lab (6, 4)) (lab (4, 5)) (lab (4, 6)) = lab (0, 4 - 1 + 2 * 4 + 3 * 4) ∧
    computeMuPrv (lab (41, 1)) (lab (2, 2)) (lab (3, 3)) (lab (6, 4)) (lab (4, 5)) (lab (4, 6)) = lab (1, 4 - 1 + 2 * 4 + 3 * 4) := by
  decide +kernel

theorem checkAuthMac1_iff (d k : Fp) (a : Fp × Fp) :
    checkAuthMac1 (toW d) (keyWord (toW k)) (lab a) = true ↔ a.2 = k + a.1 * d := by
  have e : checkAuthMac1 (toW d) (keyWord (toW k)) (lab a) = ((toW a.2).setWidth 128 == (toW (a.1 * d + k)).setWidth 128) := by
    simp only [checkAuthMac1, lab_shr, lab_and, mod128_mul_toW]
    have : mod128 (keyWord (toW (a.1 * d)) + keyWord (toW k)) PR128 = (toW (a.1 * d + k)).setWidth 128 := mod128_add_toW _ _
    rw [this]
  rw [e, beq_iff_eq]
  constructor
  · intro h
    have := congrArg low64 h
    rw [show low64 ((toW a.2).setWidth 128) = toW a.2 from low64_keyWord _,
      show low64 ((toW (a.1 * d + k)).setWidth 128) = _ from low64_keyWord _] at this
    rw [toW_inj this]; ring
  · intro h
    rw [h, add_comm]

/-- C80 (debug check of MACs). On canonical labels and keys `check_auth_mac` passes exactly when every label is authenticated. -/
theorem C80_check_auth_mac (d : Fp) (l : List (Fp × (Fp × Fp))) :
    checkAuthMac (toW d) (l.map (fun x => keyWord (toW x.1))) (l.map (fun x => lab x.2)) = true ↔
      ∀ x ∈ l, x.2.2 = x.1 + x.2.1 * d := by
  induction l with
  | nil => simp [checkAuthMac]
  | cons x l ih =>
    simp only [checkAuthMac, List.map_cons, List.zipWith_cons_cons, List.all_cons, id, Bool.and_eq_true, List.forall_mem_cons]
    rw [checkAuthMac1_iff]
    exact and_congr Iff.rfl ih

example : checkAuthMac 5 [7, 7] [makeBlock 3 22, makeBlock 2 17] = true ∧ checkAuthMac 5 [7, 7] [makeBlock 3 22, makeBlock 2 16] = false := by
  decide +kernel

/-- C80 (debug check of products). On canonical labels and keys `check_compute_mul` passes exactly when every product is right
and its label is authenticated; the keys of the factors play no role. -/
theorem C80_check_mul (d : Fp) (l : List (Fp × (Fp × Fp) × (Fp × Fp) × (Fp × Fp))) :
    checkComputeMul (toW d) (l.map (fun x => keyWord (toW x.1))) (l.map (fun x => (lab x.2.1, lab x.2.2.1, lab x.2.2.2))) = true ↔
      ∀ x ∈ l, x.2.2.2.1 = x.2.1.1 * x.2.2.1.1 ∧ x.2.2.2.2 = x.1 + x.2.2.2.1 * d := by
  have one : ∀ (k : Fp) (a b c : Fp × Fp), checkComputeMul1 (toW d) (keyWord (toW k)) (lab a) (lab b) (lab c) = true ↔
      c.1 = a.1 * b.1 ∧ c.2 = k + c.1 * d := by
    intro k a b c
    have e1 : checkComputeMul1 (toW d) (keyWord (toW k)) (lab a) (lab b) (lab c) =
        ((toW (a.1 * b.1)).setWidth 128 == (toW c.1).setWidth 128 &&
          (toW (a.1 * b.1 * d + k)).setWidth 128 == (toW c.2).setWidth 128) := by
      simp only [checkComputeMul1, lab_shr, lab_and, mod128_mul_toW]
      have h1 : mod128 (keyWord (toW (a.1 * b.1)) * (toW d).setWidth 128) PR128 = keyWord (toW (a.1 * b.1 * d)) :=
        mod128_mul_toW _ _
      have h2 : mod128 (keyWord (toW (a.1 * b.1 * d)) + keyWord (toW k)) PR128 = (toW (a.1 * b.1 * d + k)).setWidth 128 :=
        mod128_add_toW _ _
      rw [h1, h2]
      rfl
    have inj : ∀ x y : Fp, (toW x).setWidth 128 = (toW y).setWidth 128 ↔ x = y := by
      intro x y
      constructor
      · intro h
        have := congrArg low64 h
        rw [show low64 ((toW x).setWidth 128) = toW x from low64_keyWord _,
          show low64 ((toW y).setWidth 128) = toW y from low64_keyWord _] at this
        exact toW_inj this
      · rintro rfl; rfl
    rw [e1, Bool.and_eq_true, beq_iff_eq, beq_iff_eq, inj, inj]
    constructor
    · rintro ⟨h1, h2⟩
      exact ⟨h1.symm, by rw [← h1, ← h2]; ring⟩
    · rintro ⟨h1, h2⟩
      exact ⟨h1.symm, by rw [h2, h1]; ring⟩
  induction l with
  | nil => simp [checkComputeMul]
  | cons x l ih =>
    simp only [checkComputeMul, List.map_cons, List.zipWith_cons_cons, List.all_cons, id, Bool.and_eq_true, List.forall_mem_cons]
    rw [one]
    exact and_congr Iff.rfl ih

example : checkComputeMul 5 [7] [(makeBlock 2 17, makeBlock 3 22, makeBlock 6 37)] = true ∧
    checkComputeMul 5 [7] [(makeBlock 2 17, makeBlock 3 22, makeBlock 5 32)] = false := by decide +kernel

end EmpZk
