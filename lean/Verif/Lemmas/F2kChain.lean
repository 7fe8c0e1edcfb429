/-
Lemmas on the product loops of the RAM extension and on the product test.
-/
import Verif.Lemmas.F2kCheck
import Mathlib.Algebra.Polynomial.Roots
import Mathlib.Algebra.Polynomial.BigOperators
import Mathlib.Tactic.ComputeDegree

open Polynomial

namespace EmpZk

section
variable {F : Type} [Field F] [BlockField F]

/-- Part of the combined error that comes from the gates with `N` operands. -/
def polyErrAt (N : Nat) (g : PGate F) : F := if g.ins.length = N then polyErr g else 0

theorem chiSum_split (seed delta : F) (gs : List (PGate F)) (h : ∀ g ∈ gs, g.Poly) :
    chiSum seed (gs.map (fun g => polyErr g * delta ^ g.ins.length)) =
      chiSum seed (gs.map (polyErrAt 3)) * delta ^ 3 + chiSum seed (gs.map (polyErrAt 4)) * delta ^ 4 +
        chiSum seed (gs.map (polyErrAt 5)) * delta ^ 5 := by
  rw [← chiSum_mul, ← chiSum_mul, ← chiSum_mul, ← chiSum_add, ← chiSum_add]
  congr 1
  apply List.map_congr_left
  intro g hg
  rcases h g hg with h' | h' | h' <;> simp [polyErrAt, h']

theorem polyBatchVer_iff [DecidableEq F] (delta seed : F) (gs : List (PGate F)) (h : ∀ g ∈ gs, g.Poly)
    (es : List (PolyEnt F)) (hl : es.length = gs.length) (sum : PolyEnt F) :
    polyBatchVer delta seed (List.zipWith (fun g e => entAt delta e + polyErr g * delta ^ g.ins.length) gs es) sum = true ↔
      entAt delta (polyBatchPrv seed es) + (chiSum seed (gs.map (polyErrAt 3)) * delta ^ 3 +
        chiSum seed (gs.map (polyErrAt 4)) * delta ^ 4 + chiSum seed (gs.map (polyErrAt 5)) * delta ^ 5) =
        entAt delta sum := by
  rw [polyBatchVer, decide_eq_true_eq, chiSum_zipWith seed delta gs es hl, chiSum_split seed delta gs h]
  rfl

/-- At most five values of `delta` pass once the combined error of the five-operand gates is not zero. -/
theorem card_quint_le [DecidableEq F] (a0 a1 a2 a3 a4 a5 : F) (ha : a5 ≠ 0) (D : Finset F)
    (hD : ∀ x ∈ D, a0 + a1 * x + a2 * x ^ 2 + a3 * x ^ 3 + a4 * x ^ 4 + a5 * x ^ 5 = 0) : D.card ≤ 5 := by
  let p : F[X] := C a5 * X ^ 5 + C a4 * X ^ 4 + C a3 * X ^ 3 + C a2 * X ^ 2 + C a1 * X + C a0
  have hlead : p.coeff 5 = a5 := by
    simp [p, coeff_X, coeff_C, coeff_X_pow]
  have hp : p ≠ 0 := by
    intro h0
    rw [h0, coeff_zero] at hlead
    exact ha hlead.symm
  have hdeg : p.natDegree ≤ 5 := by
    simp only [p]
    compute_degree
  refine (card_roots_le p hp D ?_).trans hdeg
  intro x hx
  have := hD x hx
  simp only [p, eval_add, eval_mul, eval_C, eval_pow, eval_X]
  linear_combination this

/-! ### loops -/

theorem bchBound_eq {w n : Nat} (hw : 1 ≤ w) (h : w - 1 ≤ n) (hn : n < 2 ^ 64) : bchBound w n = n - (w - 1) := by
  unfold bchBound
  rw [show n + 2 ^ 64 - (w - 1) = (n - (w - 1)) + 2 ^ 64 by omega, Nat.add_mod_right, Nat.mod_eq_of_lt (by omega)]

theorem bchTail_eq (n : Nat) : ∀ (fuel i : Nat), n < i + fuel → i ≤ n →
    bchTail n n fuel i = some ((List.range' i (n - i)).map (fun j => [j])) := by
  intro fuel
  induction fuel with
  | zero => intro i h1 h2; omega
  | succ fuel ih =>
    intro i h1 h2
    unfold bchTail
    by_cases hi : i < n
    · rw [if_pos hi, if_pos hi, ih (i + 1) (by omega) (by omega)]
      rw [show n - i = (n - (i + 1)) + 1 by omega, List.range'_succ]
      rfl
    · rw [if_neg hi, show n - i = 0 by omega]
      rfl

theorem range_map_add (i w : Nat) : (List.range w).map (i + ·) = List.range' i w := by
  rw [List.range'_eq_map_range]

theorem bchMain_eq {w n : Nat} (hw : 1 ≤ w) : ∀ (fuel i : Nat), n < i + fuel → i ≤ n →
    ∃ gs j, bchMain w (n - (w - 1)) n fuel i = some (gs, j) ∧ i ≤ j ∧ j ≤ n ∧ n < j + w ∧
      gs.flatten = List.range' i (j - i) ∧ (∀ g ∈ gs, g.length = w) := by
  intro fuel
  induction fuel with
  | zero => intro i h1 h2; omega
  | succ fuel ih =>
    intro i h1 h2
    unfold bchMain
    by_cases hi : i < n - (w - 1)
    · obtain ⟨gs, j, he, h3, h4, h5, h6, h7⟩ := ih (i + w) (by omega) (by omega)
      refine ⟨List.range' i w :: gs, j, ?_, by omega, h4, h5, ?_, ?_⟩
      · rw [if_pos hi, if_pos (by omega), he, range_map_add]
        rfl
      · rw [List.flatten_cons, h6]
        rw [show j - i = w + (j - (i + w)) by omega, ← List.range'_append_1]
      · intro g hg
        rcases List.mem_cons.1 hg with rfl | hg
        · simp
        · exact h7 g hg
    · exact ⟨[], i, by rw [if_neg hi], le_refl _, h2, by omega, by simp, by simp⟩

theorem singles_flatten (l : List Nat) : (l.map (fun j => [j])).flatten = l := by
  induction l with
  | nil => rfl
  | cons a l ih => simp [ih]

/-- The loops visit `1, …, n - 1` in order. -/
theorem bchGroups_eq {w n : Nat} (hw : 1 ≤ w) (h1 : 1 ≤ n) (h : w - 1 ≤ n) (hn : n < 2 ^ 64) :
    ∃ gs, bchGroups w n n = some gs ∧ gs.flatten = List.range' 1 (n - 1) ∧ (∀ g ∈ gs, g.length = w ∨ g.length = 1) := by
  obtain ⟨gs, j, he, h3, h4, h5, h6, h7⟩ := bchMain_eq (n := n) hw (n + 1) 1 (by omega) h1
  refine ⟨gs ++ (List.range' j (n - j)).map (fun j => [j]), ?_, ?_, ?_⟩
  · rw [bchGroups, if_neg (by omega), bchBound_eq hw h hn, he]
    simp only [Option.bind_eq_bind, Option.bind_some, bchTail_eq n (n + 1) j (by omega) h4]
  · rw [List.flatten_append, h6, singles_flatten]
    rw [show n - 1 = (j - 1) + (n - j) by omega, ← List.range'_append_1]
    rw [show 1 + (j - 1) = j by omega]
  · intro g hg
    rcases List.mem_append.1 hg with hg | hg
    · exact Or.inl (h7 g hg)
    · obtain ⟨k, _, rfl⟩ := List.mem_map.1 hg
      exact Or.inr rfl

/-- Too short a list: the bound wraps around and the first access is out of bounds. -/
theorem bchGroups_none {w n : Nat} (hw : w ≤ 2 ^ 32) (h : n < w - 1) : bchGroups w n n = none := by
  unfold bchGroups
  by_cases h0 : n = 0
  · rw [if_pos h0]
  · rw [if_neg h0]
    have hb : bchBound w n = n + 2 ^ 64 - (w - 1) := Nat.mod_eq_of_lt (by omega)
    rw [hb]
    unfold bchMain
    rw [if_pos (by omega), if_neg (by omega)]
    rfl

theorem innGroups_eq {n : Nat} (h1 : 1 ≤ n) : innGroups n n = some ((List.range' 1 (n - 1)).map (fun j => [j])) := by
  rw [innGroups, if_neg (by omega), bchTail_eq n (n + 1) 1 (by omega) h1]

/-! ### chain of products -/

theorem pick_map {α β : Type} (f : α → β) (l : List α) (g : List Nat) (es : List α) (h : pick l g = some es) :
    pick (l.map f) g = some (es.map f) := by
  unfold pick at *
  induction g generalizing es with
  | nil => simp at h ⊢; subst h; rfl
  | cons i g ih =>
    rw [List.mapM_cons] at h ⊢
    cases hi : l[i]? with
    | none => rw [hi] at h; simp at h
    | some a =>
      rw [hi] at h
      cases hg : g.mapM (fun i => l[i]?) with
      | none => rw [hg] at h; simp at h
      | some es' =>
        rw [hg] at h
        simp only [Option.pure_def, Option.bind_eq_bind, Option.bind_some, Option.some.injEq] at h
        subst h
        rw [ih es' hg]
        simp [hi]

theorem pick_some {α : Type} (l : List α) (g : List Nat) (h : ∀ i ∈ g, i < l.length) :
    ∃ es, pick l g = some es ∧ es.length = g.length ∧ (∀ j (hj : j < g.length), es[j]? = l[g[j]]?) := by
  unfold pick
  induction g with
  | nil => exact ⟨[], rfl, rfl, by simp⟩
  | cons i g ih =>
    obtain ⟨es, he, hl, hj⟩ := ih (fun k hk => h k (by simp [hk]))
    have hi : l[i]? = some (l[i]'(h i (by simp))) := List.getElem?_eq_getElem _
    refine ⟨l[i]'(h i (by simp)) :: es, ?_, by simp [hl], ?_⟩
    · rw [List.mapM_cons, he, hi]; rfl
    · intro j hj'
      cases j with
      | zero => simp [hi]
      | succ j => simpa using hj j (by simpa using hj')

/-- The elements a group selects, with the challenge added, multiplied. -/
def groupProd (r : F) (xs : List (F × F)) (g : List Nat) : F := ((g.filterMap (fun i => xs[i]?)).map (fun x => x.1 + r)).prod

theorem pick_filterMap {α : Type} (l : List α) (g : List Nat) (es : List α) (h : pick l g = some es) :
    g.filterMap (fun i => l[i]?) = es := by
  unfold pick at h
  induction g generalizing es with
  | nil => simp at h; subst h; rfl
  | cons i g ih =>
    rw [List.mapM_cons] at h
    cases hi : l[i]? with
    | none => rw [hi] at h; simp at h
    | some a =>
      rw [hi] at h
      cases hg : g.mapM (fun i => l[i]?) with
      | none => rw [hg] at h; simp at h
      | some es' =>
        rw [hg] at h
        simp only [Option.pure_def, Option.bind_eq_bind, Option.bind_some, Option.some.injEq] at h
        subst h
        rw [List.filterMap_cons, hi, ih es' hg]

/-- Prover and verifier of one product loop: same gates, keys of the committed values, and the committed result is the product
when every gate is right. -/
theorem chain_spec (accFirst : Bool) (delta r : F) (xs : List (F × F)) (outs : Nat → F × F) (gs : List (List Nat)) :
    ∀ (acc : F × F) (k : Nat), (∀ g ∈ gs, ∀ i ∈ g, i < xs.length) →
    ∃ gates fin, chainPrv accFirst r xs outs gs acc k = some (gates, fin) ∧
      chainVer accFirst delta r (xs.map (keyF delta)) (fun i => keyF delta (outs i)) gs (keyF delta acc) k =
        some (gates.map (PGate.keys delta), keyF delta fin) ∧
      gates.map (fun g => g.ins.length) = gs.map (fun g => g.length + 1) ∧
      ((∀ g ∈ gates, g.Ok) → fin.1 = acc.1 * (gs.map (groupProd r xs)).prod) := by
  induction gs with
  | nil =>
    intro acc k _
    exact ⟨[], acc, rfl, rfl, rfl, by simp⟩
  | cons g gs ih =>
    intro acc k h
    obtain ⟨es, hes, hel, _⟩ := pick_some xs g (h g (by simp))
    obtain ⟨gates, fin, h1, h2, h3, h4⟩ := ih (outs k) (k + 1) (fun g' hg' => h g' (by simp [hg']))
    have hops : (es.map (keyF delta)).map (fun x => f2kAddConstVer delta x r) =
        (es.map (fun x => f2kAddConstPrv x r)).map (keyF delta) := by
      rw [List.map_map, List.map_map]
      apply List.map_congr_left
      intro x _
      exact addConst_key delta x r
    let ins := if accFirst || g.length == 1 then acc :: es.map (fun x => f2kAddConstPrv x r)
      else es.map (fun x => f2kAddConstPrv x r) ++ [acc]
    have hlen : ins.length = g.length + 1 := by
      simp only [ins]
      split <;> simp [hel]
    have hprod : (ins.map Prod.fst).prod = acc.1 * groupProd r xs g := by
      have he : groupProd r xs g = ((es.map (fun x => f2kAddConstPrv x r)).map Prod.fst).prod := by
        rw [groupProd, pick_filterMap xs g es hes, List.map_map]
        rfl
      rw [he]
      simp only [ins]
      split
      · rw [List.map_cons, List.prod_cons]
      · rw [List.map_append, List.prod_append, List.map_cons, List.map_nil, List.prod_cons, List.prod_nil, mul_one, mul_comm]
    refine ⟨⟨ins, outs k⟩ :: gates, fin, ?_, ?_, ?_, ?_⟩
    · rw [chainPrv, hes]
      simp only [Option.bind_eq_bind, Option.bind_some, h1]
      rfl
    · rw [chainVer, pick_map (keyF delta) xs g es hes]
      simp only [Option.bind_eq_bind, Option.bind_some, h2, hops]
      congr 2
      simp only [List.map_cons, PGate.keys]
      congr 2
      simp only [ins]
      split <;> simp
    · simp only [List.map_cons, h3, hlen]
    · intro hok
      have hfirst := hok ⟨ins, outs k⟩ (by simp)
      unfold PGate.Ok at hfirst
      simp only at hfirst
      rw [h4 (fun g' hg' => hok g' (by simp [hg'])), hfirst, hprod, List.map_cons, List.prod_cons, mul_assoc]

theorem groupProd_flatten (r : F) (xs : List (F × F)) (gs : List (List Nat)) :
    (gs.map (groupProd r xs)).prod = groupProd r xs gs.flatten := by
  induction gs with
  | nil => simp [groupProd]
  | cons g gs ih =>
    rw [List.map_cons, List.prod_cons, ih, List.flatten_cons]
    simp only [groupProd, List.filterMap_append, List.map_append, List.prod_append]

theorem filterMap_range' {α : Type} (l : List α) : ∀ (k : Nat),
    (List.range' k (l.length - k)).filterMap (fun i => l[i]?) = l.drop k := by
  intro k
  by_cases h : k < l.length
  · have : ∀ m k, l.length - k = m → (List.range' k m).filterMap (fun i => l[i]?) = l.drop k := by
      intro m
      induction m with
      | zero =>
        intro k hk
        rw [List.drop_eq_nil_of_le (by omega)]
        rfl
      | succ m ih =>
        intro k hk
        have hk' : k < l.length := by omega
        rw [List.range'_succ, List.filterMap_cons, List.getElem?_eq_getElem hk', ih (k + 1) (by omega)]
        exact (List.drop_eq_getElem_cons hk').symm
    exact this _ k rfl
  · rw [List.drop_eq_nil_of_le (by omega), show l.length - k = 0 by omega]
    rfl

/-- The product the loop is meant to compute. -/
def prodAt (r : F) (vals : List F) : F := (vals.map (fun x => x + r)).prod

/-- One product loop. -/
theorem product_spec (accFirst : Bool) (delta r : F) (xs : List (F × F)) (outs : Nat → F × F) (gs : List (List Nat))
    (hne : xs ≠ []) (hg : gs.flatten = List.range' 1 (xs.length - 1)) :
    ∃ gates fin, productPrv accFirst (some gs) r xs outs = some (gates, fin) ∧
      productVer accFirst (some gs) delta r (xs.map (keyF delta)) (fun i => keyF delta (outs i)) =
        some (gates.map (PGate.keys delta), keyF delta fin) ∧
      gates.map (fun g => g.ins.length) = gs.map (fun g => g.length + 1) ∧
      ((∀ g ∈ gates, g.Ok) → fin.1 = prodAt r (xs.map Prod.fst)) := by
  cases xs with
  | nil => exact absurd rfl hne
  | cons x xs =>
    have hmem : ∀ g ∈ gs, ∀ i ∈ g, i < (x :: xs).length := by
      intro g hgm i hi
      have : i ∈ gs.flatten := List.mem_flatten.2 ⟨g, hgm, hi⟩
      rw [hg] at this
      have := List.mem_range'_1.1 this
      simp only [List.length_cons] at this ⊢
      omega
    obtain ⟨gates, fin, h1, h2, h3, h4⟩ := chain_spec accFirst delta r (x :: xs) outs gs (f2kAddConstPrv x r) 0 hmem
    refine ⟨gates, fin, ?_, ?_, h3, ?_⟩
    · simp only [productPrv, Option.bind_eq_bind, Option.bind_some, List.getElem?_cons_zero, h1]
    · simp only [productVer, Option.bind_eq_bind, Option.bind_some, List.map_cons, List.getElem?_cons_zero, addConst_key]
      rw [List.map_cons] at h2
      exact h2
    · intro hok
      rw [h4 hok, groupProd_flatten, hg]
      have := filterMap_range' (x :: xs) 1
      rw [groupProd, this]
      simp [prodAt, f2kAddConstPrv, Function.comp_def]

/-! ### product test -/

/-- Different multisets of the same size have equal products for at most that many challenges. -/
theorem card_prodAt_le [DecidableEq F] [Fintype F] (a b : List F) (hl : a.length = b.length) (hne : ¬ a.Perm b) :
    (Finset.univ.filter (fun r => prodAt r a = prodAt r b)).card ≤ a.length := by
  let P : List F → F[X] := fun l => ((l : Multiset F).map (fun x => X - C x)).prod
  have hdeg : ∀ l, (P l).natDegree = l.length := by
    intro l
    simp only [P]
    rw [natDegree_multiset_prod_X_sub_C_eq_card]
    simp
  have heval : ∀ (l : List F) r, (P l).eval r = prodAt r l := by
    intro l r
    simp only [P, prodAt]
    rw [eval_multiset_prod, Multiset.map_map]
    simp only [Multiset.map_coe, Multiset.prod_coe, Function.comp_def, eval_sub, eval_X, eval_C]
    congr 1
    apply List.map_congr_left
    intro x _
    rw [sub_eq_add', add_comm]
  have hp : P a - P b ≠ 0 := by
    intro h0
    have h1 : P a = P b := sub_eq_zero.1 h0
    have h2 : (P a).roots = (P b).roots := by rw [h1]
    simp only [P] at h2
    rw [roots_multiset_prod_X_sub_C, roots_multiset_prod_X_sub_C] at h2
    exact hne (Multiset.coe_eq_coe.1 h2)
  refine (card_roots_le _ hp _ ?_).trans ?_
  · intro r hr
    rw [Finset.mem_filter] at hr
    rw [eval_sub, heval, heval, hr.2, sub_self]
  · refine (natDegree_sub_le _ _).trans ?_
    rw [hdeg, hdeg, ← hl, max_self]

theorem prodAt_perm (r : F) {a b : List F} (h : a.Perm b) : prodAt r a = prodAt r b :=
  (h.map _).prod_eq

end
end EmpZk
