/-
The word-level functions of `Verif.Model.ArithGate` on canonical words, as operations of the field.
-/
import Verif.Spec.ArithCommit
import Verif.Lemmas.Word
import Verif.Lemmas.WordVec
import Verif.Model.Chi

namespace EmpZk

theorem val_lt_pN (a : Fp) : a.val < pN := ZMod.val_lt a

theorem toW_toNat (a : Fp) : (toW a).toNat = a.val := by
  unfold toW
  rw [BitVec.toNat_ofNat]
  have := val_lt_pN a
  exact Nat.mod_eq_of_lt (by simp only [pN] at this; omega)

theorem canon_toW (a : Fp) : Canon (toW a) := by
  unfold Canon; rw [toW_toNat]; exact val_lt_pN a

@[simp] theorem fp_toW (a : Fp) : fp (toW a) = a := by
  unfold fp; rw [toW_toNat]; exact ZMod.natCast_zmod_val a

theorem toW_fp {w : W} (h : Canon w) : toW (fp w) = w := fp_inj (canon_toW _) h (fp_toW _)

theorem eq_toW {w : W} {a : Fp} (h : Canon w) (hf : fp w = a) : w = toW a := by rw [← hf, toW_fp h]

theorem toW_inj {a b : Fp} (h : toW a = toW b) : a = b := by
  have := congrArg fp h
  rwa [fp_toW, fp_toW] at this

@[simp] theorem toW_zero : toW 0 = 0 := (eq_toW canon_zero fp_zero).symm

@[simp] theorem addMod_toW (a b : Fp) : addMod (toW a) (toW b) = toW (a + b) :=
  eq_toW (canon_addMod (canon_toW a) (canon_toW b)) (by rw [fp_addMod_canon (canon_toW a) (canon_toW b), fp_toW, fp_toW])

@[simp] theorem multMod_toW (a b : Fp) : multMod (toW a) (toW b) = toW (a * b) :=
  eq_toW (canon_multMod (canon_toW a) (canon_toW b)) (by rw [fp_multMod (canon_toW a) (canon_toW b), fp_toW, fp_toW])

@[simp] theorem addMod_sub_toW (a b : Fp) : addMod (toW a) (PR - toW b) = toW (a - b) :=
  eq_toW (canon_addMod_sub (canon_toW a) (canon_toW b)) (by rw [fp_addMod_sub (canon_toW a) (canon_toW b), fp_toW, fp_toW])

@[simp] theorem addMod_sub_toW' (a b : Fp) : addMod (PR - toW b) (toW a) = toW (a - b) := by
  rw [addMod_comm, addMod_sub_toW]

@[simp] theorem mod64_eq_toW (x : W) : mod64 x = toW (fp x) := eq_toW (canon_mod64 x) (fp_mod64 x)

@[simp] theorem low64_keyWord (k : W) : low64 (keyWord k) = k := by
  unfold low64 keyWord
  apply BitVec.eq_of_toNat_eq
  simp only [BitVec.toNat_setWidth]
  have := k.isLt
  omega

theorem keyWord_toNat (k : W) : (keyWord k).toNat = k.toNat := by
  unfold keyWord
  rw [BitVec.toNat_setWidth]
  exact Nat.mod_eq_of_lt (by have := k.isLt; omega)

attribute [simp] low64_makeBlock high64_makeBlock

@[simp] theorem low64_lab (c : Fp × Fp) : low64 (lab c) = toW c.2 := low64_makeBlock _ _
@[simp] theorem high64_lab (c : Fp × Fp) : high64 (lab c) = toW c.1 := high64_makeBlock _ _
@[simp] theorem low64_keyAt (d : Fp) (c : Fp × Fp) : low64 (keyAt d c) = toW (c.2 - c.1 * d) := low64_keyWord _

theorem feedA_lab (c : Fp × Fp) (w : Fp) : feedA (lab c) (toW w) = (lab (w, c.2), toW (c.1 - w)) := by
  simp only [feedA, low64_lab, high64_lab, addMod_sub_toW]
  rfl

theorem feedB_keyAt (d : Fp) (c : Fp × Fp) (l : Fp) :
    feedB (toW d) (keyAt d c) (toW l) = keyAt d (c.1 - l, c.2) := by
  simp only [feedB, low64_keyAt, multMod_toW, addMod_toW]
  unfold keyAt
  congr 2; ring

theorem mulSend_lab (c a b : Fp × Fp) :
    mulSend (lab c) (lab a) (lab b) = (lab (a.1 * b.1, c.2), toW (c.1 - a.1 * b.1)) := by
  simp only [mulSend, low64_lab, high64_lab, multMod_toW, addMod_sub_toW]
  rfl

theorem mulRecv_keyAt (d : Fp) (c : Fp × Fp) (l : Fp) :
    mulRecv (toW d) (keyAt d c) (toW l) = keyAt d (c.1 - l, c.2) := feedB_keyAt d c l

theorem mod128_add_toW (a b : Fp) :
    mod128 ((toW a).setWidth 128 + (toW b).setWidth 128) PR128 = (toW (a + b)).setWidth 128 := by
  have ha := canon_toW a
  have hb := canon_toW b
  unfold Canon at ha hb
  apply BitVec.eq_of_toNat_eq
  have h1 : ((toW a).setWidth 128 + (toW b).setWidth 128).toNat = (toW a).toNat + (toW b).toNat := by
    rw [BitVec.toNat_add, BitVec.toNat_setWidth, BitVec.toNat_setWidth]
    simp only [pN] at *; omega
  rw [mod128_toNat _ (by rw [h1]; simp only [pN] at *; omega), h1, BitVec.toNat_setWidth, ← addMod_toW,
    addMod_toNat _ _ (by omega)]
  symm
  apply Nat.mod_eq_of_lt
  exact lt_of_lt_of_le (Nat.mod_lt _ (by norm_num)) (by norm_num [pN])

theorem makeBlock_shr (h l : W) : makeBlock h l >>> 64 = h.setWidth 128 := by
  unfold makeBlock
  ext i hi
  simp
  by_cases h1 : i < 64
  · simp [show 64 + i < 128 by omega, hi]
  · simp [BitVec.getLsbD_of_ge h i (by omega)]

theorem makeBlock_and (h l : W) : makeBlock h l &&& 0xFFFFFFFFFFFFFFFF#128 = l.setWidth 128 := by
  apply BitVec.eq_of_toNat_eq
  have e : (0xFFFFFFFFFFFFFFFF#128).toNat = 2 ^ 64 - 1 := by decide
  rw [BitVec.toNat_and, e, Nat.and_two_pow_sub_one_eq_mod, makeBlock_toNat, BitVec.toNat_setWidth]
  have := l.isLt
  omega

theorem shl_xor_setWidth (h l : W) : (h.setWidth 128 <<< 64) ^^^ l.setWidth 128 = makeBlock h l := by
  unfold makeBlock
  ext i hi
  simp
  by_cases h1 : i < 64
  · simp [h1]
  · simp [h1, BitVec.getLsbD_of_ge l i (by omega)]

theorem addGateA_lab (a b : Fp × Fp) : addGateA (lab a) (lab b) = lab (a.1 + b.1, a.2 + b.2) := by
  simp only [addGateA, lab, makeBlock_shr, makeBlock_and, mod128_add_toW, shl_xor_setWidth]

theorem addGateB_keyAt (d : Fp) (a b : Fp × Fp) :
    addGateB (keyAt d a) (keyAt d b) = keyAt d (a.1 + b.1, a.2 + b.2) := by
  simp only [addGateB, keyAt, keyWord, mod128_add_toW]
  congr 2; ring

theorem mulConstA_lab (a : Fp × Fp) (c : Fp) : mulConstA (lab a) (toW c) = lab (a.1 * c, a.2 * c) := by
  apply block_ext
  · rw [mulConstA, high64_multModV, high64_lab, high64_lab,
      laneMul_eq _ _ (canon_mul_lt (canon_toW _) (canon_toW _)), multMod_toW]
  · rw [mulConstA, low64_multModV, low64_lab, low64_lab,
      laneMul_eq _ _ (canon_mul_lt (canon_toW _) (canon_toW _)), multMod_toW]

theorem mulConstB_keyAt (d : Fp) (a : Fp × Fp) (c : Fp) :
    mulConstB (keyAt d a) (toW c) = keyAt d (a.1 * c, a.2 * c) := by
  simp only [mulConstB, low64_keyAt, multMod_toW]
  unfold keyAt
  congr 2; ring

theorem pubA_lab (pm w : Fp) : pubA (toW pm) (toW w) = lab (w, pm) := rfl

theorem pubB_keyAt (d pm w : Fp) : pubB (toW d) (toW pm) (toW w) = keyAt d (w, pm) := by
  simp only [pubB, multMod_toW, addMod_sub_toW', keyAt]
  congr 2; ring

theorem openB_keyAt (d v : Fp) (c : Fp × Fp) :
    addMod (multMod (toW v) (toW d)) (low64 (keyAt d c)) = toW (c.2 + (v - c.1) * d) := by
  simp only [multMod_toW, low64_keyAt, addMod_toW]
  congr 1; ring

/-- `pub_mac` is canonical. -/
theorem pubMacOf_spec (x : U128) : ∃ w : W, Canon w ∧ pubMacOf x = keyWord w ∧ fp w = fp (low64 x) := by
  refine ⟨mod64 (low64 x), canon_mod64 _, ?_, fp_mod64 _⟩
  have e : x &&& 0xFFFFFFFFFFFFFFFF#128 = (low64 x).setWidth 128 := by
    conv_lhs => rw [← makeBlock_eta x]
    exact makeBlock_and _ _
  unfold pubMacOf keyWord
  rw [e]
  apply BitVec.eq_of_toNat_eq
  have hl := (low64 x).isLt
  have e2 : ((low64 x).setWidth 128).toNat = (low64 x).toNat := by rw [BitVec.toNat_setWidth]; omega
  rw [mod128_toNat _ (by rw [e2]; simp only [pN]; omega), e2, BitVec.toNat_setWidth, mod64_toNat]
  symm
  apply Nat.mod_eq_of_lt
  exact lt_of_lt_of_le (Nat.mod_lt _ (by norm_num)) (by norm_num [pN])

/-! ### coefficient lists -/

/-- `c*s, c*s^2, ..` -/
def powersFrom (c s : Fp) : Nat → List Fp
  | 0 => []
  | n + 1 => c * s :: powersFrom (c * s) s n

theorem coeffFrom_toW (c s : Fp) (n : Nat) : coeffFrom (toW c) (toW s) n = (powersFrom c s n).map toW := by
  induction n generalizing c with
  | zero => rfl
  | succ n ih => simp only [coeffFrom, multMod_toW, ih, powersFrom, List.map_cons]

theorem uniHashCoeffGen_toW (s : Fp) (n : Nat) :
    uniHashCoeffGen (toW s) (n + 1) = some ((s :: powersFrom s s n).map toW) := by
  simp only [uniHashCoeffGen, coeffFrom_toW, List.map_cons]

theorem innPrdtLoop_toW (s c r : Fp) (l : List Fp) (n : Nat) (h : l.length = n + 1) :
    innPrdtLoop (toW r) ((c :: powersFrom c s n).map toW) (l.map toW) = toW (r + chiSumFrom s c l) := by
  induction n generalizing c r l with
  | zero =>
    cases l with
    | nil => simp at h
    | cons x l =>
      have : l = [] := by simpa using h
      subst this
      simp [innPrdtLoop, powersFrom, chiSumFrom]
  | succ n ih =>
    cases l with
    | nil => simp at h
    | cons x l =>
      have hl : l.length = n + 1 := by simpa using h
      have := ih (c * s) (r + c * x) l hl
      simp only [powersFrom, List.map_cons, innPrdtLoop, multMod_toW, addMod_toW, chiSumFrom] at this ⊢
      rw [this]
      congr 1; ring

theorem innPrdtSumRed_toW (s : Fp) (l : List Fp) (n : Nat) (h : l.length = n + 1) :
    innPrdtSumRed ((s :: powersFrom s s n).map toW) (l.map toW) = toW (chiSum s l) := by
  have := innPrdtLoop_toW s s 0 l n h
  rw [toW_zero, zero_add] at this
  exact this

end EmpZk
