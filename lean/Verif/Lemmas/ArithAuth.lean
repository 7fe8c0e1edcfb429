/-
Authenticated words and committed pairs.
-/
import Verif.Lemmas.ArithSound

namespace EmpZk

theorem high64_keyWord (k : W) : high64 (keyWord k) = 0 := by
  unfold keyWord high64
  ext i hi
  simp

theorem auth_lab (d : Fp) (c : Fp × Fp) : Auth (toW d) (lab c) (keyAt d c) where
  value := by rw [high64_lab]; exact canon_toW _
  mac := by rw [low64_lab]; exact canon_toW _
  key := by rw [low64_keyAt]; exact canon_toW _
  top := high64_keyWord _
  rel := by rw [low64_lab, high64_lab, low64_keyAt, fp_toW, fp_toW, fp_toW, fp_toW]; ring

theorem eq_makeBlock (x : U128) : x = makeBlock (high64 x) (low64 x) := by
  unfold makeBlock high64 low64
  ext i hi
  simp
  by_cases h : i < 64
  · simp [h, BitVec.getLsbD_eq_getElem hi]
  · simp [h, show 64 + (i - 64) = i by omega, show i - 64 < 64 by omega, BitVec.getLsbD_eq_getElem hi]

/-- The pair committed by a label. -/
def comOf (M : U128) : Fp × Fp := (fp (high64 M), fp (low64 M))

theorem Auth.lab_eq {delta : W} {M K : U128} (h : Auth delta M K) : lab (comOf M) = M := by
  unfold lab comOf
  rw [toW_fp h.value, toW_fp h.mac]
  exact (eq_makeBlock M).symm

theorem Auth.key_eq {delta : W} {M K : U128} (h : Auth delta M K) : keyAt (fp delta) (comOf M) = K := by
  have : fp (low64 M) - fp (high64 M) * fp delta = fp (low64 K) := by rw [h.rel]; ring
  unfold keyAt comOf
  simp only
  rw [this, toW_fp h.key]
  have e := eq_makeBlock K
  rw [h.top] at e
  rw [e]
  unfold keyWord makeBlock low64
  ext i hi
  simp

/-- The committed multiplication of the prover's labels. -/
def comGate (A : AGate) : CGate := ⟨comOf A.left, comOf A.right, comOf A.out⟩

theorem AuthGate.eqs {delta : W} {A B : AGate} (h : AuthGate delta A B) :
    (comGate A).lab = A ∧ (comGate A).keyAt (fp delta) = B := by
  constructor
  · simp only [comGate, CGate.lab, h.left.lab_eq, h.right.lab_eq, h.out.lab_eq]
  · simp only [comGate, CGate.keyAt, h.left.key_eq, h.right.key_eq, h.out.key_eq]

theorem authGates_eqs {delta : W} {bufA bufB : List AGate} (h : List.Forall₂ (AuthGate delta) bufA bufB) :
    (bufA.map comGate).map CGate.lab = bufA ∧ (bufA.map comGate).map (CGate.keyAt (fp delta)) = bufB := by
  induction h with
  | nil => exact ⟨rfl, rfl⟩
  | cons h _ ih =>
    have := h.eqs
    simp only [List.map_cons, this.1, this.2, ih.1, ih.2, and_self]

end EmpZk
