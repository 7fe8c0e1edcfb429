/-
Counting random functions: a program that asks few questions seldom meets a bad answer.
-/
import Verif.Spec.Rom
import Verif.Lemmas.Count

namespace EmpZk

section
variable {X A R : Type}

/-- Some answer on the way is bad. -/
def OTree.Hit (bad : X → A → Prop) (H : X → A) : OTree X A R → Prop
  | .out _ => False
  | .ask x k => bad x (H x) ∨ (k (H x)).Hit bad H

/-- One question more at the end. -/
def OTree.last (f : R → X) : OTree X A R → OTree X A Unit
  | .out r => .ask (f r) (fun _ => .out ())
  | .ask x k => .ask x (fun a => (k a).last f)

theorem OTree.last_hit (bad : X → A → Prop) (f : R → X) (H : X → A) (t : OTree X A R) (h : bad (f (t.run H)) (H (f (t.run H)))) :
    (t.last f).Hit bad H := by
  induction t with
  | out r => exact Or.inl h
  | ask x k ih => exact Or.inr (ih (H x) h)

theorem OTree.last_asks (f : R → X) (t : OTree X A R) : ∀ q, t.Asks q → (t.last f).Asks (q + 1) := by
  induction t with
  | out r => intro q _ a; cases q <;> trivial
  | ask x k ih =>
    intro q h
    cases q with
    | zero => exact h.elim
    | succ q => intro a; exact ih a q (h a)

theorem OTree.asks_mono (t : OTree X A R) : ∀ q, t.Asks q → t.Asks (q + 1) := by
  induction t with
  | out r => intro q _; trivial
  | ask x k ih =>
    intro q h
    cases q with
    | zero => exact h.elim
    | succ q => intro a; exact ih a q (h a)

variable [Fintype X] [DecidableEq X] [Fintype A] [DecidableEq A]

/-- Functions with given values on `K`. -/
theorem card_agree (K : Finset X) (g : X → A) :
    (Finset.univ.filter (fun H : X → A => ∀ x ∈ K, H x = g x)).card ≤ Fintype.card A ^ (Fintype.card X - K.card) := by
  have h1 : (Finset.univ.filter (fun H : X → A => ∀ x ∈ K, H x = g x)).card ≤ (Finset.univ : Finset ({x // x ∈ Kᶜ} → A)).card := by
    refine Finset.card_le_card_of_injOn (fun H x => H x.1) (fun _ _ => Finset.mem_coe.2 (Finset.mem_univ _)) ?_
    intro H1 h1 H2 h2 h
    funext x
    by_cases hx : x ∈ K
    · rw [(Finset.mem_filter.1 (Finset.mem_coe.1 h1)).2 x hx, (Finset.mem_filter.1 (Finset.mem_coe.1 h2)).2 x hx]
    · exact congrFun h ⟨x, Finset.mem_compl.2 hx⟩
  refine h1.trans (le_of_eq ?_)
  rw [Finset.card_univ, Fintype.card_fun, Fintype.card_coe, Finset.card_compl]

open Classical in
/-- Among the functions with given, good values on `K`, few lead the program to a bad answer. -/
theorem card_hit_on (bad : X → A → Prop) (B : Nat) (hB : ∀ x, (Finset.univ.filter (fun a => bad x a)).card ≤ B) (t : OTree X A R) :
    ∀ (q : Nat), t.Asks q → ∀ (K : Finset X) (g : X → A), (∀ x ∈ K, ¬ bad x (g x)) →
    (Finset.univ.filter (fun H : X → A => (∀ x ∈ K, H x = g x) ∧ t.Hit bad H)).card * Fintype.card A ≤
      q * B * Fintype.card A ^ (Fintype.card X - K.card) := by
  induction t with
  | out r => intro q _ K g _; simp [OTree.Hit]
  | ask x k ih =>
    intro q hq K g hg
    cases q with
    | zero => exact hq.elim
    | succ q =>
      by_cases hx : x ∈ K
      · refine le_trans (Nat.mul_le_mul_right _ (Finset.card_le_card ?_)) (ih (g x) (q + 1) (OTree.asks_mono _ _ (hq _)) K g hg)
        intro H hH
        obtain ⟨_, h1, h2⟩ := Finset.mem_filter.1 hH
        refine Finset.mem_filter.2 ⟨Finset.mem_univ _, h1, ?_⟩
        rcases h2 with h2 | h2
        · rw [h1 x hx] at h2; exact absurd h2 (hg x hx)
        · rw [h1 x hx] at h2; exact h2
      · have hK : (insert x K).card = K.card + 1 := Finset.card_insert_of_notMem hx
        have hle : (insert x K).card ≤ Fintype.card X := Finset.card_le_univ _
        obtain ⟨N, hN⟩ : ∃ N, Fintype.card X - K.card = N + 1 := ⟨Fintype.card X - K.card - 1, by omega⟩
        have hN' : Fintype.card X - (insert x K).card = N := by omega
        -- split by the answer
        let S : A → Finset (X → A) := fun a => Finset.univ.filter (fun H : X → A =>
          (∀ y ∈ K, H y = g y) ∧ (OTree.ask x k : OTree X A R).Hit bad H ∧ H x = a)
        have hS : (Finset.univ.filter (fun H : X → A => (∀ y ∈ K, H y = g y) ∧ (OTree.ask x k : OTree X A R).Hit bad H)).card ≤
            ∑ a : A, (S a).card := by
          refine le_trans (Finset.card_le_card (t := Finset.univ.biUnion S) ?_) Finset.card_biUnion_le
          intro H hH
          obtain ⟨_, h1, h2⟩ := Finset.mem_filter.1 hH
          exact Finset.mem_biUnion.2 ⟨H x, Finset.mem_univ _, Finset.mem_filter.2 ⟨Finset.mem_univ _, h1, h2, rfl⟩⟩
        have hag : ∀ a (H : X → A), ((∀ y ∈ K, H y = g y) ∧ H x = a) → ∀ y ∈ insert x K, H y = Function.update g x a y := by
          intro a H h y hy
          rcases Finset.mem_insert.1 hy with rfl | hy'
          · rw [Function.update_self]; exact h.2
          · rw [Function.update_of_ne (fun e : y = x => hx (e ▸ hy' : x ∈ K))]; exact h.1 y hy'
        have hbadc : ∀ a, (S a).card ≤ Fintype.card A ^ N := by
          intro a
          refine le_trans (Finset.card_le_card ?_) ((card_agree (insert x K) (Function.update g x a)).trans (le_of_eq (by rw [hN'])))
          intro H hH
          obtain ⟨_, h1, _, h3⟩ := Finset.mem_filter.1 hH
          exact Finset.mem_filter.2 ⟨Finset.mem_univ _, hag a H ⟨h1, h3⟩⟩
        have hgoodc : ∀ a, ¬ bad x a → (S a).card * Fintype.card A ≤ q * B * Fintype.card A ^ N := by
          intro a ha
          have := ih a q (hq a) (insert x K) (Function.update g x a) (by
            intro y hy
            rcases Finset.mem_insert.1 hy with rfl | hy'
            · rw [Function.update_self]; exact ha
            · rw [Function.update_of_ne (fun e : y = x => hx (e ▸ hy' : x ∈ K))]; exact hg y hy')
          rw [hN'] at this
          refine le_trans (Nat.mul_le_mul_right _ (Finset.card_le_card ?_)) this
          intro H hH
          obtain ⟨_, h1, h2, h3⟩ := Finset.mem_filter.1 hH
          refine Finset.mem_filter.2 ⟨Finset.mem_univ _, hag a H ⟨h1, h3⟩, ?_⟩
          rcases h2 with h2 | h2
          · rw [h3] at h2; exact absurd h2 ha
          · rw [h3] at h2; exact h2
        have hsum : (∑ a : A, (S a).card) * Fintype.card A ≤
            ∑ a : A, ((if bad x a then Fintype.card A ^ N * Fintype.card A else 0) + q * B * Fintype.card A ^ N) := by
          rw [Finset.sum_mul]
          refine Finset.sum_le_sum ?_
          intro a _
          by_cases ha : bad x a
          · rw [if_pos ha]
            exact (Nat.mul_le_mul_right _ (hbadc a)).trans (Nat.le_add_right _ _)
          · rw [if_neg ha, Nat.zero_add]; exact hgoodc a ha
        refine le_trans (Nat.mul_le_mul_right _ hS) (hsum.trans ?_)
        rw [Finset.sum_add_distrib, Finset.sum_const, ← Finset.sum_filter, Finset.sum_const, Finset.card_univ, smul_eq_mul, smul_eq_mul, hN, pow_succ]
        have := Nat.mul_le_mul_right (Fintype.card A ^ N * Fintype.card A) (hB x)
        calc _ ≤ B * (Fintype.card A ^ N * Fintype.card A) + Fintype.card A * (q * B * Fintype.card A ^ N) := Nat.add_le_add_right this _
          _ = (q + 1) * B * (Fintype.card A ^ N * Fintype.card A) := by ring

open Classical in
/-- A program that asks at most `q` questions and then names a point is, for at most the fraction `(q + 1) * B / |A|` of all functions, at a point
with a bad value. -/
theorem card_hit (bad : X → A → Prop) (B : Nat) (hB : ∀ x, (Finset.univ.filter (fun a => bad x a)).card ≤ B) (t : OTree X A R) (q : Nat)
    (hq : t.Asks q) (f : R → X) :
    (Finset.univ.filter (fun H : X → A => bad (f (t.run H)) (H (f (t.run H))))).card * Fintype.card A ≤
      (q + 1) * B * Fintype.card (X → A) := by
  rcases isEmpty_or_nonempty (X → A) with he | ⟨⟨g⟩⟩
  · rw [Finset.univ_eq_empty, Finset.filter_empty, Finset.card_empty, Nat.zero_mul]; exact Nat.zero_le _
  · have := card_hit_on bad B hB (t.last f) (q + 1) (OTree.last_asks f t q hq) ∅ g (by simp)
    rw [Finset.card_empty, Nat.sub_zero, ← Fintype.card_fun] at this
    refine le_trans (Nat.mul_le_mul_right _ (Finset.card_le_card ?_)) this
    intro H hH
    exact Finset.mem_filter.2 ⟨Finset.mem_univ _, by simp, OTree.last_hit bad f H t (Finset.mem_filter.1 hH).2⟩

end
end EmpZk
