/-
Facts about random linear combinations with powers of a seed: linearity and root counting.
-/
import Verif.Model.Chi
import Mathlib.Algebra.Polynomial.Roots
import Mathlib.Algebra.Polynomial.Eval.Degree
import Mathlib.Tactic.Ring
import Mathlib.Tactic.LinearCombination

namespace EmpZk
open Polynomial

section ring
variable {F : Type} [CommRing F]

theorem sel_eq (b : Bool) (t : F) : sel b t = (if b then 1 else 0) * t := by cases b <;> simp [sel]

theorem chiSumFrom_add (seed c : F) {α : Type} (l : List α) (f g : α → F) :
    chiSumFrom seed c (l.map (fun x => f x + g x)) =
      chiSumFrom seed c (l.map f) + chiSumFrom seed c (l.map g) := by
  induction l generalizing c with
  | nil => simp [chiSumFrom]
  | cons x l ih => simp only [List.map_cons, chiSumFrom, ih]; ring

theorem chiSumFrom_mul (seed c d : F) {α : Type} (l : List α) (f : α → F) :
    chiSumFrom seed c (l.map (fun x => f x * d)) = chiSumFrom seed c (l.map f) * d := by
  induction l generalizing c with
  | nil => simp [chiSumFrom]
  | cons x l ih => simp only [List.map_cons, chiSumFrom, ih]; ring

theorem chiSum_add (seed : F) {α : Type} (l : List α) (f g : α → F) :
    chiSum seed (l.map (fun x => f x + g x)) = chiSum seed (l.map f) + chiSum seed (l.map g) :=
  chiSumFrom_add seed seed l f g

theorem chiSum_mul (seed d : F) {α : Type} (l : List α) (f : α → F) :
    chiSum seed (l.map (fun x => f x * d)) = chiSum seed (l.map f) * d :=
  chiSumFrom_mul seed seed d l f

theorem chiSum_zero (seed : F) {α : Type} (l : List α) (f : α → F) (h : ∀ x ∈ l, f x = 0) :
    chiSum seed (l.map f) = 0 := by
  suffices H : ∀ c, chiSumFrom seed c (l.map f) = 0 from H seed
  induction l with
  | nil => intro c; rfl
  | cons x l ih =>
    intro c
    simp only [List.map_cons, chiSumFrom, h x (by simp), mul_zero, zero_add]
    exact ih (fun y hy => h y (by simp [hy])) _

/-- The polynomial with the given coefficients. -/
noncomputable def listPoly : List F → F[X]
  | [] => 0
  | x :: l => C x + X * listPoly l

theorem chiSumFrom_eval (seed c : F) (l : List F) : chiSumFrom seed c l = c * (listPoly l).eval seed := by
  induction l generalizing c with
  | nil => simp [chiSumFrom, listPoly]
  | cons x l ih => simp only [chiSumFrom, listPoly, ih, eval_add, eval_C, eval_mul, eval_X]; ring

theorem chiSum_eval (seed : F) (l : List F) : chiSum seed l = (X * listPoly l).eval seed := by
  rw [chiSum, chiSumFrom_eval, eval_mul, eval_X]

theorem listPoly_coeff (l : List F) (i : Nat) (h : i < l.length) : (listPoly l).coeff i = l[i] := by
  induction l generalizing i with
  | nil => simp at h
  | cons x l ih =>
    cases i with
    | zero => simp [listPoly]
    | succ i =>
      simp only [listPoly, coeff_add, coeff_C_succ, coeff_X_mul, zero_add, List.getElem_cons_succ]
      exact ih i (by simpa using h)

theorem listPoly_ne_zero (l : List F) (h : ∃ x ∈ l, x ≠ 0) : listPoly l ≠ 0 := by
  obtain ⟨x, hx, hne⟩ := h
  obtain ⟨i, hi, rfl⟩ := List.getElem_of_mem hx
  intro h0
  apply hne
  rw [← listPoly_coeff l i hi, h0, coeff_zero]

theorem listPoly_degree (l : List F) : (listPoly l).natDegree ≤ l.length - 1 := by
  induction l with
  | nil => simp [listPoly]
  | cons x l ih =>
    cases l with
    | nil => simp [listPoly]
    | cons y l =>
      simp only [listPoly] at ih ⊢
      refine natDegree_add_le_of_degree_le (by simp) ?_
      refine (natDegree_mul_le).trans ?_
      have := natDegree_X_le (R := F)
      simp only [List.length_cons] at ih ⊢
      omega

/-- Polynomial in the seed, including the leading factor (`chi[0] = seed`). -/
theorem seedPoly_degree (l : List F) : (X * listPoly l).natDegree ≤ l.length := by
  cases l with
  | nil => simp [listPoly]
  | cons y l =>
    refine (natDegree_mul_le).trans ?_
    have := natDegree_X_le (R := F)
    have := listPoly_degree (y :: l)
    simp only [List.length_cons] at this ⊢
    omega
end ring

section field
variable {F : Type} [Field F]

theorem seedPoly_ne_zero (l : List F) (h : ∃ x ∈ l, x ≠ 0) : (X * listPoly l) ≠ 0 :=
  mul_ne_zero X_ne_zero (listPoly_ne_zero l h)

/-- A nonzero polynomial has at most `natDegree` roots in any finite set. -/
theorem card_roots_le [DecidableEq F] (p : F[X]) (hp : p ≠ 0) (s : Finset F) (hs : ∀ x ∈ s, p.eval x = 0) :
    s.card ≤ p.natDegree := by
  have : s ⊆ p.roots.toFinset := by
    intro x hx
    rw [Multiset.mem_toFinset, mem_roots hp]
    exact hs x hx
  calc s.card ≤ p.roots.toFinset.card := Finset.card_le_card this
    _ ≤ Multiset.card p.roots := Multiset.toFinset_card_le _
    _ ≤ p.natDegree := card_roots' p

/-- At most `length` seeds make a combination `= c` when some entry is nonzero. -/
theorem card_seeds_le [DecidableEq F] [Fintype F] (l : List F) (h : ∃ x ∈ l, x ≠ 0) (c : F) :
    (Finset.univ.filter (fun s : F => chiSum s l = c)).card ≤ l.length := by
  have hne : l ≠ [] := by rintro rfl; simp at h
  have hp : X * listPoly l - C c ≠ 0 := by
    intro h0
    obtain ⟨x, hx, hxne⟩ := h
    obtain ⟨i, hi, rfl⟩ := List.getElem_of_mem hx
    have := congrArg (fun p => coeff p (i + 1)) h0
    simp only [coeff_sub, coeff_X_mul, coeff_C_succ, sub_zero, coeff_zero, listPoly_coeff l i hi] at this
    exact hxne this
  refine (card_roots_le _ hp _ ?_).trans ?_
  · intro s hs
    rw [Finset.mem_filter] at hs
    rw [eval_sub, ← chiSum_eval, eval_C, hs.2, sub_self]
  · refine (natDegree_sub_le _ _).trans ?_
    rw [natDegree_C]
    exact max_le (seedPoly_degree l) (Nat.zero_le _)

/-- A quadratic equation with nonzero leading coefficient has at most two solutions. -/
theorem card_quad_le [DecidableEq F] (a b c : F) (ha : a ≠ 0) (s : Finset F)
    (hs : ∀ x ∈ s, a * (x * x) + b * x + c = 0) : s.card ≤ 2 := by
  have hp : (C a * X ^ 2 + C b * X + C c) ≠ 0 := by
    intro h0
    have := congrArg (fun p => coeff p 2) h0
    simp [coeff_C] at this
    exact ha this
  refine (card_roots_le _ hp s ?_).trans natDegree_quadratic_le
  intro x hx
  have := hs x hx
  simp only [eval_add, eval_mul, eval_C, eval_pow, eval_X]
  rw [← this]; ring

/-- A linear equation with nonzero leading coefficient has at most one solution. -/
theorem card_lin_le [DecidableEq F] (b c : F) (hb : b ≠ 0) (s : Finset F)
    (hs : ∀ x ∈ s, b * x + c = 0) : s.card ≤ 1 := by
  rw [Finset.card_le_one]
  intro x hx y hy
  have h1 := hs x hx
  have h2 := hs y hy
  apply mul_left_cancel₀ hb
  linear_combination h1 - h2

/-- Fibre counting: if for all but `m` values of `s` the fibre has at most `k` elements, the set has at most
`m * |B| + k * |A|` elements. -/
theorem card_fibre_le {A B : Type} [Fintype A] [Fintype B] [DecidableEq A] [DecidableEq B]
    (P : A → B → Prop) [DecidablePred fun q : A × B => P q.1 q.2] (bad : A → Prop) [DecidablePred bad]
    (m k : Nat) (hm : (Finset.univ.filter bad).card ≤ m)
    (hk : ∀ a, ¬ bad a → ∀ s : Finset B, (∀ b ∈ s, P a b) → s.card ≤ k) :
    (Finset.univ.filter (fun q : A × B => P q.1 q.2)).card ≤ m * Fintype.card B + k * Fintype.card A := by
  classical
  have h1 : (Finset.univ.filter (fun q : A × B => P q.1 q.2)).card
      = ∑ a : A, (Finset.univ.filter (fun b : B => P a b)).card := by
    rw [Finset.card_filter, Fintype.sum_prod_type]
    apply Finset.sum_congr rfl
    intro a _
    rw [Finset.card_filter]
    apply Finset.sum_congr rfl
    intro b _
    by_cases h : P a b <;> simp [h]
  rw [h1]
  calc ∑ a : A, (Finset.univ.filter (fun b : B => P a b)).card
      ≤ ∑ a : A, ((if bad a then Fintype.card B else 0) + k) := by
        apply Finset.sum_le_sum
        intro a _
        by_cases hb : bad a
        · rw [if_pos hb]
          exact (Finset.card_le_univ _).trans (Nat.le_add_right _ _)
        · rw [if_neg hb, zero_add]
          exact hk a hb _ (by simp)
    _ = (Finset.univ.filter bad).card * Fintype.card B + Fintype.card A * k := by
        rw [Finset.sum_add_distrib, ← Finset.sum_filter, Finset.sum_const, Finset.sum_const, smul_eq_mul, smul_eq_mul]
        rfl
    _ ≤ _ := by
        rw [Nat.mul_comm (Fintype.card A)]
        exact Nat.add_le_add_right (Nat.mul_le_mul_right _ hm) _
end field
end EmpZk
