import Mathlib.Algebra.MvPolynomial.SchwartzZippel
import Mathlib.RingTheory.MvPolynomial.IrreducibleQuadratic
import Mathlib.RingTheory.Polynomial.UniqueFactorization
import Mathlib.Algebra.GroupWithZero.Associated
import Mathlib.Data.List.Prime
import Mathlib.Data.Fintype.Pi
import Mathlib.Tactic.FieldSimp
import Mathlib.Tactic.Ring
/-! Products of shifted linear combinations determine the multiset of rows, as polynomials in the coefficients. -/
namespace EmpZk

open MvPolynomial

section
variable {F : Type} [Field F] {b : Nat}

/-- The linear polynomial of a row, shifted by `r`. -/
noncomputable def linP (r : F) (a : Fin b → F) : MvPolynomial (Fin b) F := ∑ i, C (a i) * X i + C r

theorem eval_linP (r : F) (a c : Fin b → F) : eval c (linP r a) = ∑ i, a i * c i + r := by
  simp [linP]

theorem coeff_zero_linP (r : F) (a : Fin b → F) : (linP r a).coeff 0 = r := by
  simp [linP, coeff_sum, coeff_C_mul]

theorem coeff_X_linP (r : F) (a : Fin b → F) (j : Fin b) : (linP r a).coeff (Finsupp.single j 1) = a j := by
  classical
  simp [linP, coeff_sum, coeff_C_mul, coeff_X, coeff_C, Finsupp.single_left_inj, eq_comm, Finsupp.single_eq_zero]

theorem linP_inj {r : F} {a a' : Fin b → F} (h : linP r a = linP r a') : a = a' := by
  funext j
  rw [← coeff_X_linP r a j, h, coeff_X_linP]

theorem linP_degree_le (r : F) (a : Fin b → F) : (linP r a).totalDegree ≤ 1 := by
  unfold linP
  refine (totalDegree_add _ _).trans (max_le ?_ (by simp))
  refine totalDegree_finsetSum_le (fun i _ => ?_)
  refine (totalDegree_mul _ _).trans ?_
  simp

theorem linP_ne_zero {r : F} (hr : r ≠ 0) (a : Fin b → F) : linP r a ≠ 0 := by
  intro h
  apply hr
  rw [← coeff_zero_linP r a, h, coeff_zero]

theorem linP_degree {r : F} {a : Fin b → F} (ha : a ≠ 0) : (linP r a).totalDegree = 1 := by
  refine le_antisymm (linP_degree_le r a) ?_
  by_contra h
  have h0 : (linP r a).totalDegree = 0 := by omega
  rw [totalDegree_eq_zero_iff_eq_C] at h0
  apply ha
  funext j
  rw [← coeff_X_linP r a j, h0]
  classical
  simp [coeff_C, eq_comm, Finsupp.single_eq_zero]

theorem linP_irreducible {r : F} (hr : r ≠ 0) {a : Fin b → F} (ha : a ≠ 0) : Irreducible (linP r a) := by
  apply irreducible_of_totalDegree_eq_one (linP_degree ha)
  intro x hx
  have := hx 0
  rw [coeff_zero_linP] at this
  rw [isUnit_iff_ne_zero]
  rintro rfl
  exact hr (zero_dvd_iff.1 this)

theorem linP_dvd {r : F} (hr : r ≠ 0) {a a' : Fin b → F} (ha : a ≠ 0) (h : linP r a ∣ linP r a') : a = a' := by
  obtain ⟨q, hq⟩ := h
  have hne := linP_ne_zero hr a'
  have hqne : q ≠ 0 := by rintro rfl; rw [mul_zero] at hq; exact hne hq
  have hd : (linP r a').totalDegree = (linP r a).totalDegree + q.totalDegree := by
    rw [hq, totalDegree_mul_of_isDomain (linP_ne_zero hr a) hqne]
  rw [linP_degree ha] at hd
  have hle := linP_degree_le r a'
  have hq0 : q.totalDegree = 0 := by omega
  rw [totalDegree_eq_zero_iff_eq_C] at hq0
  have hc := coeff_zero_linP r a'
  rw [hq, hq0, mul_comm, coeff_C_mul, coeff_zero_linP] at hc
  have h1 : coeff 0 q = 1 := by
    have : (coeff 0 q - 1) * r = 0 := by rw [sub_mul, hc, one_mul, sub_self]
    rcases mul_eq_zero.1 this with h | h
    · exact sub_eq_zero.1 h
    · exact absurd h hr
  rw [h1, C_1] at hq0
  rw [hq0, mul_one] at hq
  exact (linP_inj hq).symm

theorem perm_of_linP {r : F} (hr : r ≠ 0) : ∀ (n : Nat) (A B : List (Fin b → F)), A.length = n → B.length = n →
    (A.map (linP r)).prod = (B.map (linP r)).prod → A.Perm B := by
  intro n
  induction n with
  | zero =>
    intro A B h1 h2 _
    rw [List.length_eq_zero_iff.1 h1, List.length_eq_zero_iff.1 h2]
  | succ n ih =>
    intro A B h1 h2 h
    have step : ∀ (A B : List (Fin b → F)), A.length = n + 1 → B.length = n + 1 →
        (A.map (linP r)).prod = (B.map (linP r)).prod → (∃ a ∈ A, a ≠ 0) → A.Perm B := by
      rintro A B h1 h2 h ⟨a, ha, hne⟩
      have hp : Prime (linP r a) := (linP_irreducible hr hne).prime
      have hd : linP r a ∣ (B.map (linP r)).prod := by
        rw [← h]
        exact List.dvd_prod (List.mem_map_of_mem ha)
      obtain ⟨p, hpm, hpd⟩ := hp.dvd_prod_iff.1 hd
      obtain ⟨a', ha', rfl⟩ := List.mem_map.1 hpm
      have haa : a = a' := linP_dvd hr hne hpd
      subst haa
      classical
      have pA := List.perm_cons_erase ha
      have pB := List.perm_cons_erase ha'
      have e1 := (pA.map (linP r)).prod_eq
      have e2 := (pB.map (linP r)).prod_eq
      rw [List.map_cons, List.prod_cons] at e1 e2
      rw [e1, e2] at h
      have h' := mul_left_cancel₀ (linP_ne_zero hr a) h
      have := ih (A.erase a) (B.erase a) (by rw [List.length_erase_of_mem ha]; omega)
        (by rw [List.length_erase_of_mem ha']; omega) h'
      exact pA.trans ((this.cons a).trans pB.symm)
    by_cases hA : ∃ a ∈ A, a ≠ 0
    · exact step A B h1 h2 h hA
    · by_cases hB : ∃ a ∈ B, a ≠ 0
      · exact (step B A h2 h1 h.symm hB).symm
      · push Not at hA hB
        rw [List.eq_replicate_of_mem hA, List.eq_replicate_of_mem hB, h1, h2]

/-- At most a fraction `n / |F|` of the coefficient vectors makes the two products equal. -/
theorem card_compress_le [Fintype F] [DecidableEq F] {r : F} (hr : r ≠ 0) (A B : List (Fin b → F)) (hl : A.length = B.length)
    (hne : ¬ A.Perm B) :
    (Finset.univ.filter (fun c : Fin b → F =>
      (A.map (fun a => ∑ i, a i * c i + r)).prod = (B.map (fun a => ∑ i, a i * c i + r)).prod)).card * Fintype.card F ≤
      A.length * Fintype.card F ^ b := by
  set p : MvPolynomial (Fin b) F := (A.map (linP r)).prod - (B.map (linP r)).prod with hp
  have hp0 : p ≠ 0 := by
    intro h0
    exact hne (perm_of_linP hr A.length A B rfl hl.symm (sub_eq_zero.1 h0))
  have hev : ∀ (c : Fin b → F) (l : List (Fin b → F)), eval c (l.map (linP r)).prod = (l.map (fun a => ∑ i, a i * c i + r)).prod := by
    intro c l
    rw [map_list_prod, List.map_map]
    congr 1
    apply List.map_congr_left
    intro a _
    exact eval_linP r a c
  have hdeg : ∀ l : List (Fin b → F), ((l.map (linP r)).prod).totalDegree ≤ l.length := by
    intro l
    induction l with
    | nil => simp
    | cons a l ih =>
      rw [List.map_cons, List.prod_cons, List.length_cons]
      refine (totalDegree_mul _ _).trans ?_
      have := linP_degree_le r a
      omega
  have hd : p.totalDegree ≤ A.length := by
    refine (totalDegree_sub _ _).trans (max_le (hdeg A) ?_)
    rw [hl]
    exact hdeg B
  have h := schwartz_zippel_totalDegree hp0 (Finset.univ : Finset F)
  have hset : (Finset.univ.filter (fun c : Fin b → F =>
      (A.map (fun a => ∑ i, a i * c i + r)).prod = (B.map (fun a => ∑ i, a i * c i + r)).prod)) =
      (Fintype.piFinset fun _ => (Finset.univ : Finset F)).filter (fun f => eval f p = 0) := by
    ext c
    simp only [Finset.mem_filter, Finset.mem_univ, true_and, Fintype.mem_piFinset, implies_true]
    rw [hp, map_sub, hev, hev, sub_eq_zero]
  rw [hset]
  set k := ((Fintype.piFinset fun _ => (Finset.univ : Finset F)).filter (fun f : Fin b → F => eval f p = 0)).card with hk
  have hF : (0 : ℚ≥0) < (Fintype.card F : ℚ≥0) := by exact_mod_cast Fintype.card_pos
  rw [Finset.card_univ, div_le_div_iff₀ (by positivity) hF] at h
  have h' : k * Fintype.card F ≤ p.totalDegree * Fintype.card F ^ b := by exact_mod_cast h
  exact h'.trans (Nat.mul_le_mul_right _ hd)

end
end EmpZk
