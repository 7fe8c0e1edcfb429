/-
The error bound of C87 for families of messages indexed by the verifier's random choices.
-/
import Verif.Lemmas.ArithFamily
import Verif.Props.ArithProtocol

namespace EmpZk

/-- For choices that hide nothing, at most 36 words for `Delta` let the prover cheat. -/
theorem fibre_words {B Q : Nat} {v : AView} {expand : U128 → Nat → U128} {ops : List AOp}
    {M : (Fin B → U128) → (Fin Q → W) → List AMsg} {F : (Fin B → U128) → (Fin Q → W) → AFin}
    (ho : ∀ o ∈ ops, o.CanonC) (hB : mulCount ops ≤ B * v.checkSz) (hQ : stmtCount ops ≤ Q * v.polySz)
    (hcover : ∀ b, b * v.checkSz < mulCount ops → batchLen (mulCount ops) v.checkSz b < 32 ∨
      batchLen (mulCount ops) v.checkSz b % v.threads < batchLen (mulCount ops) v.checkSz b / v.threads)
    (R : W → AVer → Prop) (σ : Fin B → U128) (τ : Fin Q → W)
    (hR : ∀ w V, R w V → (∀ m ∈ M σ τ, m.CanonM) ∧
      averSession ((v.drawn expand σ τ).env (fp w)) ops (M σ τ) (F σ τ) = some V ∧ V.accepted = true)
    (hgood : ¬ ((∃ b : Fin B, HidesMul v expand ops M σ τ b.1 (σ b)) ∨ ∃ b : Fin Q, HidesPoly v expand ops M σ τ b.1 (τ b)))
    (D : Finset W)
    (hD : ∀ w ∈ D, (∀ w1 w2 V1 V2, R w1 V1 → R w2 V2 → v.hash V1.stored = v.hash V2.stored → V1.stored = V2.stored) ∧
      ∃ V, R w V ∧ ¬ Explained ops V) : D.card ≤ 36 := by
  classical
  refine card_words_le D 4 ?_
  by_contra hcon
  obtain ⟨d0, hd0⟩ : (D.image fp).Nonempty := Finset.card_pos.1 (by omega)
  obtain ⟨w0, hw0, hfw0⟩ := Finset.mem_image.1 hd0
  obtain ⟨hsep, V0, hRV0, hne0⟩ := hD w0 hw0
  obtain ⟨hms, hV0, hok0⟩ := hR _ _ hRV0
  obtain ⟨ab, ch, k⟩ := averSession_img (v.drawn expand σ τ) (fp w0) ops ho _ hms (F σ τ)
  rw [hV0] at k
  obtain ⟨c, hc, _⟩ := Option.map_eq_some_iff.1 k.symm
  obtain ⟨ops', pl, e1, e2, e3, e4, e5⟩ := C64_extraction (v.drawn expand σ τ) ops ho _ hms (F σ τ) c hc
    (by
      intro r hr tasks htasks herr t ht g hg
      by_contra hgc
      obtain ⟨b, hb⟩ := List.mem_iff_getElem?.1 hr
      obtain ⟨k1, k2, k3, k4⟩ := session_mulBatch hc hb
      have hbB : b < B := by
        have k3' : b * v.checkSz < mulCount ops := k3
        exact lt_of_mul_lt_mul_right (lt_of_lt_of_le k3' hB) (Nat.zero_le _)
      refine hgood (Or.inl ⟨⟨b, hbB⟩, ?_⟩)
      unfold HidesMul
      have k1' : r.gates = mulBufAt (v.drawn expand σ τ) ops (M σ τ) (batchEnd mulCount ops v.checkSz b) := k1
      simp only
      rw [← k1']
      refine ⟨k4, tasks, htasks, ⟨t, ht, g, hg, hgc⟩, ?_⟩
      rw [← herr, k2]
      show mulErr r.gates _ tasks = mulErr r.gates (expand (drawAt 0 σ b)) tasks
      rw [drawAt_lt 0 σ b hbB])
    (by
      intro r hr
      obtain ⟨b, hb⟩ := List.mem_iff_getElem?.1 hr
      obtain ⟨k1, k2, k3, k4⟩ := session_mulBatch hc hb
      rw [k4]
      exact hcover b k3)
    (by
      intro r hr herr s hs
      by_contra hsc
      obtain ⟨b, hb⟩ := List.mem_iff_getElem?.1 hr
      obtain ⟨k1, k2, k3, k4⟩ := session_polyBatch hc hb
      have hbQ : b < Q := by
        have k3' : b * v.polySz < stmtCount ops := k3
        exact lt_of_mul_lt_mul_right (lt_of_lt_of_le k3' hQ) (Nat.zero_le _)
      refine hgood (Or.inr ⟨⟨b, hbQ⟩, ?_⟩)
      unfold HidesPoly
      have k1' : r.polys = polyBufAt (v.drawn expand σ τ) ops (M σ τ) (batchEnd stmtCount ops v.polySz b) := k1
      simp only
      rw [← k1']
      refine ⟨k4, ⟨s, hs, hsc⟩, ?_⟩
      rw [← herr, k2]
      show _ = chiSum (fp (drawAt 0 τ b)) _
      rw [drawAt_lt 0 τ b hbQ])
    (D.image fp) (by omega)
    (by
      intro d hd
      obtain ⟨w, hw, rfl⟩ := Finset.mem_image.1 hd
      obtain ⟨_, V, hV, _⟩ := hD w hw
      obtain ⟨_, h1, h2⟩ := hR _ _ hV
      exact ⟨V, h1, h2⟩)
    (by
      intro d1 hd1 d2 hd2 V1 V2 hV1 hV2 hh
      obtain ⟨w1, hw1, rfl⟩ := Finset.mem_image.1 hd1
      obtain ⟨w2, hw2, rfl⟩ := Finset.mem_image.1 hd2
      obtain ⟨_, V1', hR1, _⟩ := hD w1 hw1
      obtain ⟨_, V2', hR2, _⟩ := hD w2 hw2
      have q1 : V1' = V1 := Option.some.inj ((hR _ _ hR1).2.1.symm.trans hV1)
      have q2 : V2' = V2 := Option.some.inj ((hR _ _ hR2).2.1.symm.trans hV2)
      subst q1; subst q2
      exact hsep w1 w2 V1' V2' hR1 hR2 hh)
  exact hne0 ⟨ops', pl, e1, e2, e3, e4, (e5 (fp w0) (Finset.mem_image_of_mem _ hw0) V0 hV0).1⟩

theorem bound_arith {x y N N' a k c : Nat} (h1 : x ≤ y * N' + k * a) (h2 : y * (N * N') ≤ c * a) :
    x * (N * N') ≤ (c + k * N) * (a * N') := by
  calc x * (N * N') ≤ (y * N' + k * a) * (N * N') := Nat.mul_le_mul_right _ h1
    _ = y * (N * N') * N' + k * a * (N * N') := by ring
    _ ≤ c * a * N' + k * a * (N * N') := Nat.add_le_add_right (Nat.mul_le_mul_right _ h2) _
    _ = _ := by ring

open Classical in
theorem family_error {B Q E : Nat} {v : AView} {expand : U128 → Nat → U128} {ops : List AOp}
    {M : (Fin B → U128) → (Fin Q → W) → List AMsg} {F : (Fin B → U128) → (Fin Q → W) → AFin} (hM : Causal v ops M)
    (hE : ExpandGood expand v.threads E)
    (ho : ∀ o ∈ ops, o.CanonC) (hB : mulCount ops ≤ B * v.checkSz) (hQ : stmtCount ops ≤ Q * v.polySz)
    (hcover : ∀ b, b * v.checkSz < mulCount ops → batchLen (mulCount ops) v.checkSz b < 32 ∨
      batchLen (mulCount ops) v.checkSz b % v.threads < batchLen (mulCount ops) v.checkSz b / v.threads)
    (R : (Fin B → U128) → (Fin Q → W) → W → AVer → Prop)
    (hR : ∀ σ τ w V, R σ τ w V → (∀ m ∈ M σ τ, m.CanonM) ∧
      averSession ((v.drawn expand σ τ).env (fp w)) ops (M σ τ) (F σ τ) = some V ∧ V.accepted = true) :
    (Finset.univ.filter (fun q : ((Fin B → U128) × (Fin Q → W)) × W =>
      (∀ w1 w2 V1 V2, R q.1.1 q.1.2 w1 V1 → R q.1.1 q.1.2 w2 V2 → v.hash V1.stored = v.hash V2.stored → V1.stored = V2.stored) ∧
      ∃ V, R q.1.1 q.1.2 q.2 V ∧ ¬ Explained ops V)).card * (Fintype.card U128 * Fintype.card W) ≤
    (mulCount ops * E * Fintype.card W + 9 * stmtCount ops * Fintype.card U128 + 36 * Fintype.card U128) *
      (Fintype.card U128 ^ B * Fintype.card W ^ Q * Fintype.card W) := by
  have hcA : Fintype.card ((Fin B → U128) × (Fin Q → W)) = Fintype.card U128 ^ B * Fintype.card W ^ Q := by
    rw [Fintype.card_prod, Fintype.card_fun, Fintype.card_fun, Fintype.card_fin, Fintype.card_fin]
  have h := card_fibre_le (A := (Fin B → U128) × (Fin Q → W)) (B := W)
    (fun a w => (∀ w1 w2 V1 V2, R a.1 a.2 w1 V1 → R a.1 a.2 w2 V2 → v.hash V1.stored = v.hash V2.stored → V1.stored = V2.stored) ∧
      ∃ V, R a.1 a.2 w V ∧ ¬ Explained ops V)
    (fun a => (∃ b : Fin B, HidesMul v expand ops M a.1 a.2 b.1 (a.1 b)) ∨ ∃ b : Fin Q, HidesPoly v expand ops M a.1 a.2 b.1 (a.2 b))
    _ 36 (le_refl _)
    (fun a hgood D hD => fibre_words ho hB hQ hcover (R a.1 a.2) a.1 a.2 (hR a.1 a.2) hgood D hD)
  rw [hcA] at h
  exact bound_arith h (card_hides hM hE)

end EmpZk
