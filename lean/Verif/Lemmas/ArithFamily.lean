/-
Counting for C87: families of messages indexed by the verifier's random choices.
-/
import Verif.Spec.ArithProcGame
import Verif.Lemmas.ArithGame

namespace EmpZk

theorem card_bitVec (n : Nat) : Fintype.card (BitVec n) = 2 ^ n := by
  rw [Fintype.ofEquiv_card, Fintype.card_fin]

theorem drawAt_congr {X : Type} (z : X) {n : Nat} (s s' : Fin n → X) (b : Nat) (h : ∀ j : Fin n, j.1 < b → s j = s' j) (i : Nat)
    (hi : i < b) : drawAt z s i = drawAt z s' i := by
  unfold drawAt
  split
  · exact h _ hi
  · rfl

theorem drawAt_lt {X : Type} (z : X) {n : Nat} (s : Fin n → X) (i : Nat) (h : i < n) : drawAt z s i = s ⟨i, h⟩ := dif_pos h

/-- At most nine 64-bit words have the same residue. -/
theorem card_residue (s : Finset W) (x : Fp) (h : ∀ w ∈ s, fp w = x) : s.card ≤ 9 := by
  have h1 : s.card ≤ (Finset.range 9).card := by
    apply Finset.card_le_card_of_injOn (fun w => w.toNat / pN)
    · intro w hw
      have h2 := w.isLt
      have : w.toNat / pN < 9 := by
        rw [Nat.div_lt_iff_lt_mul (by unfold pN; omega)]
        unfold pN
        omega
      exact Finset.mem_coe.2 (Finset.mem_range.2 this)
    · intro a ha b hb hab
      have e : fp a = fp b := (h a ha).trans (h b hb).symm
      have e2 : a.toNat % pN = b.toNat % pN := by
        have := (ZMod.natCast_eq_natCast_iff' a.toNat b.toNat pN).1 e
        exact this
      have hab : a.toNat / pN = b.toNat / pN := hab
      apply BitVec.eq_of_toNat_eq
      rw [← Nat.div_add_mod a.toNat pN, ← Nat.div_add_mod b.toNat pN, hab, e2]
  rwa [Finset.card_range] at h1

theorem card_words_le (s : Finset W) (k : Nat) (h : (s.image fp).card ≤ k) : s.card ≤ 9 * k := by
  classical
  refine (Finset.card_le_mul_card_image s 9 ?_).trans (Nat.mul_le_mul_left 9 h)
  intro x _
  exact card_residue _ x (fun w hw => (Finset.mem_filter.1 hw).2)

section family
variable (v : AView) (expand : U128 → Nat → U128) (ops : List AOp) {B Q : Nat}
  (M : (Fin B → U128) → (Fin Q → W) → List AMsg)

/-- The messages up to the end of a batch do not depend on its seed nor on later ones. -/
structure Causal : Prop where
  mul : ∀ σ σ' τ b, (∀ j : Fin B, j.1 < b → σ j = σ' j) →
    (M σ τ).take (batchEnd mulCount ops v.checkSz b) = (M σ' τ).take (batchEnd mulCount ops v.checkSz b)
  poly : ∀ σ τ τ' b, (∀ j : Fin Q, j.1 < b → τ j = τ' j) →
    (M σ τ).take (batchEnd stmtCount ops v.polySz b) = (M σ τ').take (batchEnd stmtCount ops v.polySz b)

variable {v ops M}

theorem mulBuf_fam (hM : Causal v ops M) (σ σ' : Fin B → U128) (τ : Fin Q → W) (b : Nat) (h : ∀ j : Fin B, j.1 < b → σ j = σ' j) :
    mulBufAt (v.drawn expand σ τ) ops (M σ τ) (batchEnd mulCount ops v.checkSz b) =
      mulBufAt (v.drawn expand σ' τ) ops (M σ' τ) (batchEnd mulCount ops v.checkSz b) := by
  have key : ∀ σ σ' : Fin B → U128, (∀ j : Fin B, j.1 < b → σ j = σ' j) → ∀ s,
      acomRun (v.drawn expand σ τ) ACom.init (ops.take (batchEnd mulCount ops v.checkSz b))
        ((M σ τ).take (batchEnd mulCount ops v.checkSz b)) = some s →
      acomRun (v.drawn expand σ' τ) ACom.init (ops.take (batchEnd mulCount ops v.checkSz b))
        ((M σ' τ).take (batchEnd mulCount ops v.checkSz b)) = some s := by
    intro σ σ' h s hs
    rw [← hM.mul σ σ' τ b h]
    refine acomRun_upto (b := b) (q := s.polyBatches) ?_ _ hs ?_ (le_refl _)
    · refine ⟨rfl, rfl, rfl, rfl, rfl, rfl, ?_, fun _ _ => rfl⟩
      intro i hi
      show expand (drawAt 0 σ' i) = expand (drawAt 0 σ i)
      rw [drawAt_congr 0 σ σ' b h i hi]
    · obtain ⟨c1, _, c3⟩ := acomRun_mulCount hs
      rw [(acomRun_batches hs).1]
      exact prefix_batches c1 (lastIdx_spec (fun k => mulCount (ops.take k)) _ _ (counter_mul.zero ops))
        (fun h0 => List.length_eq_zero_iff.1 h0) (fun h0 => by rw [c3 h0]; rfl)
  unfold mulBufAt
  have : acomRun (v.drawn expand σ τ) ACom.init (ops.take (batchEnd mulCount ops v.checkSz b))
        ((M σ τ).take (batchEnd mulCount ops v.checkSz b)) =
      acomRun (v.drawn expand σ' τ) ACom.init (ops.take (batchEnd mulCount ops v.checkSz b))
        ((M σ' τ).take (batchEnd mulCount ops v.checkSz b)) := by
    apply Option.ext
    intro s
    exact ⟨key σ σ' h s, key σ' σ (fun j hj => (h j hj).symm) s⟩
  rw [this]

theorem polyBuf_fam (hM : Causal v ops M) (σ : Fin B → U128) (τ τ' : Fin Q → W) (b : Nat) (h : ∀ j : Fin Q, j.1 < b → τ j = τ' j) :
    polyBufAt (v.drawn expand σ τ) ops (M σ τ) (batchEnd stmtCount ops v.polySz b) =
      polyBufAt (v.drawn expand σ τ') ops (M σ τ') (batchEnd stmtCount ops v.polySz b) := by
  have key : ∀ τ τ' : Fin Q → W, (∀ j : Fin Q, j.1 < b → τ j = τ' j) → ∀ s,
      acomRun (v.drawn expand σ τ) ACom.init (ops.take (batchEnd stmtCount ops v.polySz b))
        ((M σ τ).take (batchEnd stmtCount ops v.polySz b)) = some s →
      acomRun (v.drawn expand σ τ') ACom.init (ops.take (batchEnd stmtCount ops v.polySz b))
        ((M σ τ').take (batchEnd stmtCount ops v.polySz b)) = some s := by
    intro τ τ' h s hs
    rw [← hM.poly σ τ τ' b h]
    refine acomRun_upto (b := s.mulBatches) (q := b) ?_ _ hs (le_refl _) ?_
    · refine ⟨rfl, rfl, rfl, rfl, rfl, rfl, fun _ _ => rfl, ?_⟩
      intro i hi
      show drawAt 0 τ' i = drawAt 0 τ i
      rw [drawAt_congr 0 τ τ' b h i hi]
    · obtain ⟨c1, _, c3⟩ := acomRun_stmtCount hs
      rw [(acomRun_batches hs).2]
      exact prefix_batches c1 (lastIdx_spec (fun k => stmtCount (ops.take k)) _ _ (counter_stmt.zero ops))
        (fun h0 => List.length_eq_zero_iff.1 h0) (fun h0 => by rw [c3 h0]; rfl)
  unfold polyBufAt
  have : acomRun (v.drawn expand σ τ) ACom.init (ops.take (batchEnd stmtCount ops v.polySz b))
        ((M σ τ).take (batchEnd stmtCount ops v.polySz b)) =
      acomRun (v.drawn expand σ τ') ACom.init (ops.take (batchEnd stmtCount ops v.polySz b))
        ((M σ τ').take (batchEnd stmtCount ops v.polySz b)) := by
    apply Option.ext
    intro s
    exact ⟨key τ τ' h s, key τ' τ (fun j hj => (h j hj).symm) s⟩
  rw [this]

variable (v ops M)

/-- The block `x` hides a wrong product of the `b`-th batch. -/
def HidesMul (σ : Fin B → U128) (τ : Fin Q → W) (b : Nat) (x : U128) : Prop :=
  let buf := mulBufAt (v.drawn expand σ τ) ops (M σ τ) (batchEnd mulCount ops v.checkSz b)
  buf.length = batchLen (mulCount ops) v.checkSz b ∧ ∃ tasks, mulTasks buf.length v.threads = some tasks ∧
    (∃ t ∈ tasks, ∃ g ∈ taskSlice buf t, ¬ g.Correct) ∧ mulErr buf (expand x) tasks = 0

/-- The word `x` hides a wrong statement of the `b`-th batch. -/
def HidesPoly (σ : Fin B → U128) (τ : Fin Q → W) (b : Nat) (x : W) : Prop :=
  let buf := polyBufAt (v.drawn expand σ τ) ops (M σ τ) (batchEnd stmtCount ops v.polySz b)
  buf.length = batchLen (stmtCount ops) v.polySz b ∧ (∃ s ∈ buf, s.value ≠ 0) ∧ chiSum (fp x) (buf.map APoly.value) = 0

open Classical in
theorem card_hidesMul {E : Nat} (hE : ExpandGood expand v.threads E) (σ : Fin B → U128) (τ : Fin Q → W) (b : Nat) :
    (Finset.univ.filter (HidesMul v expand ops M σ τ b)).card ≤ batchLen (mulCount ops) v.checkSz b * E := by
  by_cases hex : ∃ x, HidesMul v expand ops M σ τ b x
  · obtain ⟨x0, h1, tasks, h2, h3, _⟩ := hex
    rw [← h1]
    refine hE _ tasks h2 h3 _ ?_
    intro x hx
    obtain ⟨_, _, tasks', h2', _, h4'⟩ := Finset.mem_filter.1 hx
    rw [h2, Option.some.injEq] at h2'
    subst h2'
    exact h4'
  · have : Finset.univ.filter (HidesMul v expand ops M σ τ b) = ∅ := by
      rw [Finset.filter_eq_empty_iff]
      intro x _ hx
      exact hex ⟨x, hx⟩
    rw [this]
    exact Nat.zero_le _

open Classical in
theorem card_hidesPoly (σ : Fin B → U128) (τ : Fin Q → W) (b : Nat) :
    (Finset.univ.filter (HidesPoly v expand ops M σ τ b)).card ≤ 9 * batchLen (stmtCount ops) v.polySz b := by
  apply card_words_le
  by_cases hex : ∃ x, HidesPoly v expand ops M σ τ b x
  · obtain ⟨x0, h1, ⟨s, hs, hne⟩, _⟩ := hex
    have hle := card_seeds_le _ ⟨s.value, List.mem_map_of_mem hs, hne⟩ 0
    rw [List.length_map, h1] at hle
    refine (Finset.card_le_card ?_).trans hle
    intro x hx
    obtain ⟨w, hw, rfl⟩ := Finset.mem_image.1 hx
    exact Finset.mem_filter.2 ⟨Finset.mem_univ _, (Finset.mem_filter.1 hw).2.2.2⟩
  · have : Finset.univ.filter (HidesPoly v expand ops M σ τ b) = ∅ := by
      rw [Finset.filter_eq_empty_iff]
      intro x _ hx
      exact hex ⟨x, hx⟩
    rw [this]
    simp

end family

/-- Adaptive bad choices, each time at most `k b` of `N`. -/
theorem card_adaptive_mul {X : Type} [Fintype X] {B : Nat} (bad : (Fin B → X) → Fin B → X → Prop)
    [DecidablePred fun σ : Fin B → X => ∃ b, bad σ b (σ b)] [∀ σ b, DecidablePred (bad σ b)]
    (hc : ∀ b σ σ', (∀ j, j < b → σ j = σ' j) → ∀ x, bad σ b x → bad σ' b x) (k : Fin B → Nat)
    (hk : ∀ σ b, (Finset.univ.filter (bad σ b)).card ≤ k b) {K : Nat} (hK : ∑ b, k b ≤ K) :
    (Finset.univ.filter (fun σ : Fin B → X => ∃ b, bad σ b (σ b))).card * Fintype.card X ≤ K * Fintype.card X ^ B := by
  classical
  have h := card_adaptive bad hc k (by intro σ b; convert hk σ b)
  have h' : (Finset.univ.filter (fun σ : Fin B → X => ∃ b, bad σ b (σ b))).card ≤ (∑ b, k b) * Fintype.card X ^ (B - 1) := by
    convert h
  refine (Nat.mul_le_mul_right _ h').trans ?_
  rcases Nat.eq_zero_or_pos B with h0 | h0
  · subst h0; simp
  · calc (∑ b, k b) * Fintype.card X ^ (B - 1) * Fintype.card X
        = (∑ b, k b) * (Fintype.card X ^ (B - 1) * Fintype.card X) := by ring
      _ = (∑ b, k b) * Fintype.card X ^ B := by rw [pow_sub_one_mul (by omega)]
      _ ≤ _ := Nat.mul_le_mul_right _ hK

open Classical in
/-- Two sequences of adaptive bad choices. -/
theorem card_adaptive_two {X Y : Type} [Fintype X] [Fintype Y] {B Q : Nat} (P : (Fin B → X) → (Fin Q → Y) → Fin B → X → Prop)
    (R : (Fin B → X) → (Fin Q → Y) → Fin Q → Y → Prop) {K L : Nat}
    (h1 : ∀ τ, (Finset.univ.filter (fun σ : Fin B → X => ∃ b, P σ τ b (σ b))).card * Fintype.card X ≤ K * Fintype.card X ^ B)
    (h2 : ∀ σ, (Finset.univ.filter (fun τ : Fin Q → Y => ∃ b, R σ τ b (τ b))).card * Fintype.card Y ≤ L * Fintype.card Y ^ Q) :
    (Finset.univ.filter (fun a : (Fin B → X) × (Fin Q → Y) => (∃ b, P a.1 a.2 b (a.1 b)) ∨ ∃ b, R a.1 a.2 b (a.2 b))).card *
      (Fintype.card X * Fintype.card Y) ≤
    (K * Fintype.card Y + L * Fintype.card X) * (Fintype.card X ^ B * Fintype.card Y ^ Q) := by
  have hcS : Fintype.card (Fin B → X) = Fintype.card X ^ B := by rw [Fintype.card_fun, Fintype.card_fin]
  have hcQ : Fintype.card (Fin Q → Y) = Fintype.card Y ^ Q := by rw [Fintype.card_fun, Fintype.card_fin]
  have h3 : (Finset.univ.filter (fun a : (Fin B → X) × (Fin Q → Y) => ∃ b, P a.1 a.2 b (a.1 b))).card * Fintype.card X ≤
      K * (Fintype.card X ^ B * Fintype.card Y ^ Q) := by
    have e : (Finset.univ.filter (fun a : (Fin B → X) × (Fin Q → Y) => ∃ b, P a.1 a.2 b (a.1 b))).card =
        ∑ τ : Fin Q → Y, (Finset.univ.filter (fun σ : Fin B → X => ∃ b, P σ τ b (σ b))).card := by
      simp only [Finset.card_filter]
      rw [Fintype.sum_prod_type_right]
    rw [e, Finset.sum_mul]
    have h6 := Finset.sum_le_sum (s := Finset.univ) fun τ (_ : τ ∈ (Finset.univ : Finset (Fin Q → Y))) => h1 τ
    rw [Finset.sum_const, Finset.card_univ, hcQ, smul_eq_mul] at h6
    exact h6.trans (le_of_eq (by ring))
  have h4 : (Finset.univ.filter (fun a : (Fin B → X) × (Fin Q → Y) => ∃ b, R a.1 a.2 b (a.2 b))).card * Fintype.card Y ≤
      L * (Fintype.card X ^ B * Fintype.card Y ^ Q) := by
    have e : (Finset.univ.filter (fun a : (Fin B → X) × (Fin Q → Y) => ∃ b, R a.1 a.2 b (a.2 b))).card =
        ∑ σ : Fin B → X, (Finset.univ.filter (fun τ : Fin Q → Y => ∃ b, R σ τ b (τ b))).card := by
      simp only [Finset.card_filter]
      rw [Fintype.sum_prod_type]
    rw [e, Finset.sum_mul]
    have h6 := Finset.sum_le_sum (s := Finset.univ) fun σ (_ : σ ∈ (Finset.univ : Finset (Fin B → X))) => h2 σ
    rw [Finset.sum_const, Finset.card_univ, hcS, smul_eq_mul] at h6
    exact h6.trans (le_of_eq (by ring))
  have h5 : (Finset.univ.filter (fun a : (Fin B → X) × (Fin Q → Y) =>
      (∃ b, P a.1 a.2 b (a.1 b)) ∨ ∃ b, R a.1 a.2 b (a.2 b))).card ≤ _ + _ :=
    (Finset.card_le_card (t := Finset.univ.filter (fun a : (Fin B → X) × (Fin Q → Y) => ∃ b, P a.1 a.2 b (a.1 b)) ∪
      Finset.univ.filter (fun a : (Fin B → X) × (Fin Q → Y) => ∃ b, R a.1 a.2 b (a.2 b))) (by
      intro a ha
      rw [Finset.mem_union, Finset.mem_filter, Finset.mem_filter]
      rcases (Finset.mem_filter.1 ha).2 with h | h
      · exact Or.inl ⟨Finset.mem_univ _, h⟩
      · exact Or.inr ⟨Finset.mem_univ _, h⟩)).trans (Finset.card_union_le _ _)
  refine (Nat.mul_le_mul_right _ h5).trans ?_
  rw [Nat.add_mul]
  refine (Nat.add_le_add ((le_of_eq (mul_assoc _ _ _).symm).trans (Nat.mul_le_mul_right (Fintype.card Y) h3))
    ((le_of_eq (by ring)).trans (Nat.mul_le_mul_right (Fintype.card X) h4))).trans (le_of_eq ?_)
  ring

open Classical in
/-- Choices that hide something wrong are rare. -/
theorem card_hides {B Q E : Nat} {v : AView} {expand : U128 → Nat → U128} {ops : List AOp}
    {M : (Fin B → U128) → (Fin Q → W) → List AMsg} (hM : Causal v ops M) (hE : ExpandGood expand v.threads E) :
    (Finset.univ.filter (fun a : (Fin B → U128) × (Fin Q → W) =>
      (∃ b : Fin B, HidesMul v expand ops M a.1 a.2 b.1 (a.1 b)) ∨ ∃ b : Fin Q, HidesPoly v expand ops M a.1 a.2 b.1 (a.2 b))).card *
      (Fintype.card U128 * Fintype.card W) ≤
    (mulCount ops * E * Fintype.card W + 9 * stmtCount ops * Fintype.card U128) *
      (Fintype.card U128 ^ B * Fintype.card W ^ Q) := by
  have h1 : ∀ τ : Fin Q → W, (Finset.univ.filter (fun σ : Fin B → U128 =>
      ∃ b : Fin B, HidesMul v expand ops M σ τ b.1 (σ b))).card * Fintype.card U128 ≤ mulCount ops * E * Fintype.card U128 ^ B := by
    intro τ
    refine card_adaptive_mul (X := U128) (B := B) (fun σ b x => HidesMul v expand ops M σ τ b.1 x) ?_
      (fun b => batchLen (mulCount ops) v.checkSz b.1 * E) (fun σ b => card_hidesMul v expand ops M hE σ τ b.1) ?_
    · intro b σ σ' h x hx
      unfold HidesMul at hx ⊢
      rw [← mulBuf_fam expand hM σ σ' τ b.1 (fun j hj => h j hj)]
      exact hx
    · rw [← Finset.sum_mul]
      exact Nat.mul_le_mul_right _ (sum_batchLen _ _ _)
  have h2 : ∀ σ : Fin B → U128, (Finset.univ.filter (fun τ : Fin Q → W =>
      ∃ b : Fin Q, HidesPoly v expand ops M σ τ b.1 (τ b))).card * Fintype.card W ≤ 9 * stmtCount ops * Fintype.card W ^ Q := by
    intro σ
    refine card_adaptive_mul (X := W) (B := Q) (fun τ b x => HidesPoly v expand ops M σ τ b.1 x) ?_
      (fun b => 9 * batchLen (stmtCount ops) v.polySz b.1) (fun τ b => card_hidesPoly v expand ops M σ τ b.1) ?_
    · intro b τ τ' h x hx
      unfold HidesPoly at hx ⊢
      rw [← polyBuf_fam expand hM σ τ τ' b.1 (fun j hj => h j hj)]
      exact hx
    · rw [← Finset.mul_sum]
      exact Nat.mul_le_mul_left _ (sum_batchLen _ _ _)
  exact card_adaptive_two (X := U128) (Y := W) (fun σ τ b x => HidesMul v expand ops M σ τ b.1 x)
    (fun σ τ b x => HidesPoly v expand ops M σ τ b.1 x) h1 h2

end EmpZk
