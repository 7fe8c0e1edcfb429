import Verif.Lemmas.F2kChain
import Verif.Lemmas.GF128
/-!
C47 and C49: the product loops of the RAM checks (`inn_prdt`, `inn_prdt_bch2/3/4`) and the comparison of the two products.
-/
namespace EmpZk

section
variable {F : Type} [Field F] [BlockField F]

/-! ### C49: the loops -/

omit [BlockField F] in
/-- C49 is false as stated: on a list shorter than the group width minus one (`inn_prdt_bch3`: one access, `inn_prdt_bch4`: one or
two) the unsigned bound `step - (w - 1)` wraps around and the loop reads past the end; the empty list fails at element 0. The
elements do not matter. -/
theorem C49_false (accFirst : Bool) (w : Nat) (hw : w ≤ 4) (r : F) (xs : List (F × F)) (h : xs.length < w - 1 ∨ xs = [])
    (outs : Nat → F × F) : productPrv accFirst (bchGroups w xs.length xs.length) r xs outs = none := by
  rcases h with h | h
  · rw [bchGroups_none (by omega) h]
    rfl
  · subst h
    simp [bchGroups, productPrv]

/-- Two accesses with `inn_prdt_bch4`, the loop used by `ZKRAM`. -/
example (r : GF128) (outs : Nat → GF128 × GF128) :
    productPrv true (bchGroups 4 2 2) r [((1 : GF128), (5 : GF128)), (2, 6)] outs = none :=
  C49_false true 4 (by decide) r [((1 : GF128), (5 : GF128)), (2, 6)] (Or.inl (by decide)) outs

/-- C49 (what holds). For every group width and every list of at least `max 1 (w - 1)` and fewer than `2^64` elements, both
parties run the same gates, reading only valid indices; every gate has `w + 1` or `2` operands; and if every gate is right, the
final value is the product over all elements of `x + r`, each taken once. Missing from C49 as stated: shorter lists
(`C49_false`). -/
theorem C49_partial (accFirst : Bool) (w : Nat) (hw : 1 ≤ w) (delta r : F) (xs : List (F × F)) (hne : xs ≠ [])
    (h : w - 1 ≤ xs.length) (hn : xs.length < 2 ^ 64) (outs : Nat → F × F) :
    ∃ gates fin, productPrv accFirst (bchGroups w xs.length xs.length) r xs outs = some (gates, fin) ∧
      productVer accFirst (bchGroups w xs.length xs.length) delta r (xs.map (keyF delta)) (fun i => keyF delta (outs i)) =
        some (gates.map (PGate.keys delta), keyF delta fin) ∧
      (∀ g ∈ gates, g.ins.length = w + 1 ∨ g.ins.length = 2) ∧
      ((∀ g ∈ gates, g.Ok) → fin.1 = (xs.map (fun x => x.1 + r)).prod) := by
  have hpos : 1 ≤ xs.length := List.length_pos_iff.2 hne
  obtain ⟨gs, hgs, hf, hlen⟩ := bchGroups_eq hw hpos h hn
  obtain ⟨gates, fin, h1, h2, h3, h4⟩ := product_spec accFirst delta r xs outs gs hne hf
  refine ⟨gates, fin, by rw [hgs, h1], by rw [hgs, h2], ?_, ?_⟩
  · intro g hg
    have : g.ins.length ∈ gs.map (fun g => g.length + 1) := by
      rw [← h3]
      exact List.mem_map_of_mem (f := fun g : PGate F => g.ins.length) hg
    obtain ⟨l, hl, he⟩ := List.mem_map.1 this
    rcases hlen l hl with h | h <;> omega
  · intro hok
    rw [h4 hok, prodAt, List.map_map]
    rfl

/-- Six accesses in groups of four: one gate of five operands and one of two. -/
example (r : GF128) (outs : Nat → GF128 × GF128) :
    ∃ gates fin, productPrv true (bchGroups 4 6 6) r [((1 : GF128), (5 : GF128)), (2, 6), (3, 1), (9, 9), (4, 1), (2, 2)] outs =
      some (gates, fin) ∧ gates.length = 2 := by
  refine ⟨_, _, rfl, rfl⟩

example (delta r : GF128) (outs : Nat → GF128 × GF128) :
    ∃ gates fin, productPrv true (bchGroups 4 5 5) r [((1 : GF128), (5 : GF128)), (2, 6), (3, 1), (9, 9), (4, 1)] outs =
      some (gates, fin) ∧ ((∀ g ∈ gates, g.Ok) → fin.1 = (1 + r) * ((2 + r) * ((3 + r) * ((9 + r) * ((4 + r) * 1))))) := by
  obtain ⟨g, f, h1, _, _, h4⟩ := C49_partial true 4 (by decide) delta r
    [((1 : GF128), (5 : GF128)), (2, 6), (3, 1), (9, 9), (4, 1)] (by simp) (by simp) (by simp) outs
  exact ⟨g, f, h1, h4⟩

/-- C49, the simple loop `inn_prdt`: right for every nonempty list. -/
theorem C49_inn_prdt (accFirst : Bool) (delta r : F) (xs : List (F × F)) (hne : xs ≠ []) (outs : Nat → F × F) :
    ∃ gates fin, productPrv accFirst (innGroups xs.length xs.length) r xs outs = some (gates, fin) ∧
      productVer accFirst (innGroups xs.length xs.length) delta r (xs.map (keyF delta)) (fun i => keyF delta (outs i)) =
        some (gates.map (PGate.keys delta), keyF delta fin) ∧
      (∀ g ∈ gates, g.ins.length = 2) ∧
      ((∀ g ∈ gates, g.Ok) → fin.1 = (xs.map (fun x => x.1 + r)).prod) := by
  have hpos : 1 ≤ xs.length := List.length_pos_iff.2 hne
  obtain ⟨gates, fin, h1, h2, h3, h4⟩ := product_spec accFirst delta r xs outs _ hne
    (singles_flatten (List.range' 1 (xs.length - 1)))
  rw [innGroups_eq hpos]
  refine ⟨gates, fin, h1, h2, ?_, ?_⟩
  · intro g hg
    have : g.ins.length ∈ gates.map (fun g => g.ins.length) := List.mem_map_of_mem (f := fun g : PGate F => g.ins.length) hg
    rw [h3] at this
    simp only [List.map_map, List.mem_map, Function.comp] at this
    obtain ⟨_, _, he⟩ := this
    exact he.symm
  · intro hok
    rw [h4 hok, prodAt, List.map_map]
    rfl

example (delta r : GF128) (outs : Nat → GF128 × GF128) :
    ∃ gates fin, productPrv true (innGroups 2 2) r [((1 : GF128), (5 : GF128)), (2, 6)] outs = some (gates, fin) ∧
      ((∀ g ∈ gates, g.Ok) → fin.1 = (1 + r) * ((2 + r) * 1)) := by
  obtain ⟨g, f, h1, _, _, h4⟩ := C49_inn_prdt true delta r [((1 : GF128), (5 : GF128)), (2, 6)] (by simp) outs
  exact ⟨g, f, h1, h4⟩

/-! ### C47: multiset equality -/

/-- C47 (completeness). Two lists with the same multiset of values: when all product gates are right, BOB accepts the honest
MACs, for every challenge and `Delta`. -/
theorem C47_complete [DecidableEq F] (accFirst : Bool) (w : Nat) (hw : 1 ≤ w) (delta r : F) (xs ys : List (F × F))
    (hne : xs ≠ []) (h : w - 1 ≤ xs.length) (hn : xs.length < 2 ^ 64) (hp : (xs.map Prod.fst).Perm (ys.map Prod.fst))
    (outs0 outs1 : Nat → F × F) :
    ∃ g0 f0 g1 f1 ks0 ks1, productPrv accFirst (bchGroups w xs.length xs.length) r xs outs0 = some (g0, f0) ∧
      productPrv accFirst (bchGroups w ys.length ys.length) r ys outs1 = some (g1, f1) ∧
      productVer accFirst (bchGroups w xs.length xs.length) delta r (xs.map (keyF delta)) (fun i => keyF delta (outs0 i)) =
        some ks0 ∧
      productVer accFirst (bchGroups w ys.length ys.length) delta r (ys.map (keyF delta)) (fun i => keyF delta (outs1 i)) =
        some ks1 ∧
      ((∀ g ∈ g0, g.Ok) → (∀ g ∈ g1, g.Ok) → setEqVer ks0.2 ks1.2 f0.2 f1.2 = true) := by
  have hl : xs.length = ys.length := by simpa using hp.length_eq
  have hne' : ys ≠ [] := by
    intro h0
    rw [h0] at hl
    exact hne (List.length_eq_zero_iff.1 hl)
  obtain ⟨g0, f0, a1, a2, _, a4⟩ := C49_partial accFirst w hw delta r xs hne h hn outs0
  obtain ⟨g1, f1, b1, b2, _, b4⟩ := C49_partial accFirst w hw delta r ys hne' (by omega) (by omega) outs1
  refine ⟨g0, f0, g1, f1, _, _, a1, b1, a2, b2, ?_⟩
  intro h0 h1
  have e : f0.1 = f1.1 := by
    rw [a4 h0, b4 h1]
    have := prodAt_perm r hp
    simpa [prodAt, List.map_map, Function.comp_def] using this
  rw [setEqVer, decide_eq_true_eq]
  have s0 := addSelf f0.2
  have s1 := addSelf f1.2
  simp only [keyF, e]
  linear_combination s0 - s1

example (delta r : GF128) (outs0 outs1 : Nat → GF128 × GF128) :
    ∃ g0 f0 g1 f1 ks0 ks1,
      productPrv true (bchGroups 4 3 3) r [((1 : GF128), (5 : GF128)), (2, 6), (1, 9)] outs0 = some (g0, f0) ∧
      productPrv true (bchGroups 4 3 3) r [((1 : GF128), (3 : GF128)), (1, 4), (2, 7)] outs1 = some (g1, f1) ∧
      productVer true (bchGroups 4 3 3) delta r ([((1 : GF128), (5 : GF128)), (2, 6), (1, 9)].map (keyF delta))
        (fun i => keyF delta (outs0 i)) = some ks0 ∧
      productVer true (bchGroups 4 3 3) delta r ([((1 : GF128), (3 : GF128)), (1, 4), (2, 7)].map (keyF delta))
        (fun i => keyF delta (outs1 i)) = some ks1 ∧
      ((∀ g ∈ g0, g.Ok) → (∀ g ∈ g1, g.Ok) → setEqVer ks0.2 ks1.2 f0.2 f1.2 = true) :=
  C47_complete true 4 (by decide) delta r [((1 : GF128), (5 : GF128)), (2, 6), (1, 9)]
    [((1 : GF128), (3 : GF128)), (1, 4), (2, 7)] (by simp) (by simp) (by simp)
    (by simpa using (List.Perm.swap (1 : GF128) 2 []).cons 1) outs0 outs1

/-- C47 (soundness of the products). Two lists of `n` values that differ as multisets have equal products of `x + r` for at
most `n` challenges `r`. -/
theorem C47_challenges [DecidableEq F] [Fintype F] (a b : List F) (hl : a.length = b.length) (hne : ¬ a.Perm b) :
    (Finset.univ.filter (fun r => (a.map (fun x => x + r)).prod = (b.map (fun x => x + r)).prod)).card ≤ a.length :=
  card_prodAt_le a b hl hne

example : (Finset.univ.filter (fun r : GF128 =>
    ([(1 : GF128), 1, 2].map (fun x => x + r)).prod = ([(1 : GF128), 2, 2].map (fun x => x + r)).prod)).card ≤ 3 :=
  C47_challenges [(1 : GF128), 1, 2] [1, 2, 2] rfl (by
    intro h
    have := h.count_eq (1 : GF128)
    revert this
    decide +kernel)

/-- C47 (one challenge). For a challenge at which the two products differ, whatever the prover commits and sends, the comparison is
passed with right gates for at most one `Delta`. -/
theorem C47_delta [DecidableEq F] (accFirst : Bool) (w : Nat) (hw : 1 ≤ w) (xs ys : List (F × F))
    (hxne : xs ≠ []) (h : w - 1 ≤ xs.length) (hn : xs.length < 2 ^ 64) (hl : xs.length = ys.length) (r : F)
    (hr : ((xs.map Prod.fst).map (fun x => x + r)).prod ≠ ((ys.map Prod.fst).map (fun x => x + r)).prod)
    (outs0 outs1 : Nat → F × F) (msg : F × F) (D : Finset F)
    (hD : ∀ d ∈ D, ∃ g0 f0 g1 f1 ks0 ks1,
      productPrv accFirst (bchGroups w xs.length xs.length) r xs outs0 = some (g0, f0) ∧ (∀ g ∈ g0, g.Ok) ∧
      productPrv accFirst (bchGroups w ys.length ys.length) r ys outs1 = some (g1, f1) ∧ (∀ g ∈ g1, g.Ok) ∧
      productVer accFirst (bchGroups w xs.length xs.length) d r (xs.map (keyF d)) (fun i => keyF d (outs0 i)) = some ks0 ∧
      productVer accFirst (bchGroups w ys.length ys.length) d r (ys.map (keyF d)) (fun i => keyF d (outs1 i)) = some ks1 ∧
      setEqVer ks0.2 ks1.2 msg.1 msg.2 = true) : D.card ≤ 1 := by
  have hne' : ys ≠ [] := by
    intro h0
    rw [h0] at hl
    exact hxne (List.length_eq_zero_iff.1 hl)
  change prodAt r (xs.map Prod.fst) ≠ prodAt r (ys.map Prod.fst) at hr
  rw [Finset.card_le_one]
  have key : ∀ d ∈ D, ∃ m : F, (prodAt r (xs.map Prod.fst) + prodAt r (ys.map Prod.fst)) * d = m ∧
      ∀ g0 f0 g1 f1, productPrv accFirst (bchGroups w xs.length xs.length) r xs outs0 = some (g0, f0) →
        productPrv accFirst (bchGroups w ys.length ys.length) r ys outs1 = some (g1, f1) →
        m = f0.2 + f1.2 + msg.1 + msg.2 := by
    intro d hd
    obtain ⟨g0, f0, g1, f1, ks0, ks1, p0, o0, p1, o1, v0, v1, hv⟩ := hD d hd
    obtain ⟨g0', f0', a1, a2, _, a4⟩ := C49_partial accFirst w hw d r xs hxne h hn outs0
    obtain ⟨g1', f1', b1, b2, _, b4⟩ := C49_partial accFirst w hw d r ys hne' (by omega) (by omega) outs1
    rw [p0] at a1
    rw [p1] at b1
    simp only [Option.some.injEq, Prod.mk.injEq] at a1 b1
    obtain ⟨rfl, rfl⟩ := a1
    obtain ⟨rfl, rfl⟩ := b1
    rw [v0] at a2
    rw [v1] at b2
    simp only [Option.some.injEq] at a2 b2
    subst a2
    subst b2
    refine ⟨f0.2 + f1.2 + msg.1 + msg.2, ?_, ?_⟩
    · rw [setEqVer, decide_eq_true_eq] at hv
      have e0 : f0.1 = prodAt r (xs.map Prod.fst) := by
        rw [a4 o0]; simp [prodAt, List.map_map, Function.comp_def]
      have e1 : f1.1 = prodAt r (ys.map Prod.fst) := by
        rw [b4 o1]; simp [prodAt, List.map_map, Function.comp_def]
      simp only [keyF] at hv
      rw [← e0, ← e1]
      have s0 := addSelf (f1.1 * d)
      have s1 := addSelf f0.2
      have s2 := addSelf msg.1
      linear_combination hv + s0 - s1 - s2
    · intro g0' f0' g1' f1' q0 q1
      rw [p0] at q0
      rw [p1] at q1
      simp only [Option.some.injEq, Prod.mk.injEq] at q0 q1
      rw [q0.2, q1.2]
  intro d hd d' hd'
  obtain ⟨m, hm, hm'⟩ := key d hd
  obtain ⟨m', hmd, hm''⟩ := key d' hd'
  obtain ⟨g0, f0, g1, f1, _, _, p0, _, p1, _⟩ := hD d hd
  have hz : prodAt r (xs.map Prod.fst) + prodAt r (ys.map Prod.fst) ≠ 0 := by
    intro h0
    apply hr
    have := addSelf (prodAt r (ys.map Prod.fst))
    linear_combination h0 - this
  rw [hm' g0 f0 g1 f1 p0 p1] at hm
  rw [hm'' g0 f0 g1 f1 p0 p1] at hmd
  exact mul_left_cancel₀ hz (hm.trans hmd.symm)

example (outs0 outs1 : Nat → GF128 × GF128) (msg : GF128 × GF128) (D : Finset GF128)
    (hD : ∀ d ∈ D, ∃ g0 f0 g1 f1 ks0 ks1,
      productPrv true (bchGroups 4 3 3) (⟨7⟩ : GF128) [((1 : GF128), (5 : GF128)), (1, 6), (2, 9)] outs0 = some (g0, f0) ∧ (∀ g ∈ g0, g.Ok) ∧
      productPrv true (bchGroups 4 3 3) (⟨7⟩ : GF128) [((1 : GF128), (5 : GF128)), (2, 6), (2, 9)] outs1 = some (g1, f1) ∧ (∀ g ∈ g1, g.Ok) ∧
      productVer true (bchGroups 4 3 3) d (⟨7⟩ : GF128) ([((1 : GF128), (5 : GF128)), (1, 6), (2, 9)].map (keyF d))
        (fun i => keyF d (outs0 i)) = some ks0 ∧
      productVer true (bchGroups 4 3 3) d (⟨7⟩ : GF128) ([((1 : GF128), (5 : GF128)), (2, 6), (2, 9)].map (keyF d))
        (fun i => keyF d (outs1 i)) = some ks1 ∧
      setEqVer ks0.2 ks1.2 msg.1 msg.2 = true) : D.card ≤ 1 :=
  C47_delta true 4 (by decide) [((1 : GF128), (5 : GF128)), (1, 6), (2, 9)] [((1 : GF128), (5 : GF128)), (2, 6), (2, 9)]
    (by simp) (by simp) (by simp) rfl ⟨7⟩ (by decide +kernel) outs0 outs1 msg D hD

open Classical in
/-- C47 (soundness of the comparison). Whatever outputs the prover commits for the gates and whatever MACs it sends, all as
functions of the challenge: if the lists differ as multisets and the gates are right, the comparison is passed for at most
`(n + 1) * |F|` of the pairs (challenge, `Delta`). -/
theorem C47_sound [DecidableEq F] [Fintype F] (accFirst : Bool) (w : Nat) (hw : 1 ≤ w) (xs ys : List (F × F))
    (hxne : xs ≠ []) (h : w - 1 ≤ xs.length) (hn : xs.length < 2 ^ 64) (hl : xs.length = ys.length)
    (hne : ¬ (xs.map Prod.fst).Perm (ys.map Prod.fst)) (outs0 outs1 : F → Nat → F × F) (msg : F → F × F) :
    (Finset.univ.filter (fun q : F × F => ∃ g0 f0 g1 f1 ks0 ks1,
      productPrv accFirst (bchGroups w xs.length xs.length) q.1 xs (outs0 q.1) = some (g0, f0) ∧ (∀ g ∈ g0, g.Ok) ∧
      productPrv accFirst (bchGroups w ys.length ys.length) q.1 ys (outs1 q.1) = some (g1, f1) ∧ (∀ g ∈ g1, g.Ok) ∧
      productVer accFirst (bchGroups w xs.length xs.length) q.2 q.1 (xs.map (keyF q.2)) (fun i => keyF q.2 (outs0 q.1 i)) =
        some ks0 ∧
      productVer accFirst (bchGroups w ys.length ys.length) q.2 q.1 (ys.map (keyF q.2)) (fun i => keyF q.2 (outs1 q.1 i)) =
        some ks1 ∧
      setEqVer ks0.2 ks1.2 (msg q.1).1 (msg q.1).2 = true)).card ≤ (xs.length + 1) * Fintype.card F := by
  have hne' : ys ≠ [] := by
    intro h0
    rw [h0] at hl
    exact hxne (List.length_eq_zero_iff.1 hl)
  have h1 := card_prodAt_le _ _ (by simpa using hl) hne
  rw [List.length_map] at h1
  have h2 := card_fibre_le (A := F) (B := F) (fun r d => ∃ g0 f0 g1 f1 ks0 ks1,
      productPrv accFirst (bchGroups w xs.length xs.length) r xs (outs0 r) = some (g0, f0) ∧ (∀ g ∈ g0, g.Ok) ∧
      productPrv accFirst (bchGroups w ys.length ys.length) r ys (outs1 r) = some (g1, f1) ∧ (∀ g ∈ g1, g.Ok) ∧
      productVer accFirst (bchGroups w xs.length xs.length) d r (xs.map (keyF d)) (fun i => keyF d (outs0 r i)) =
        some ks0 ∧
      productVer accFirst (bchGroups w ys.length ys.length) d r (ys.map (keyF d)) (fun i => keyF d (outs1 r i)) =
        some ks1 ∧
      setEqVer ks0.2 ks1.2 (msg r).1 (msg r).2 = true)
    (fun r => prodAt r (xs.map Prod.fst) = prodAt r (ys.map Prod.fst)) xs.length 1 h1
    (by
      intro r hr D hD
      exact C47_delta accFirst w hw xs ys hxne h hn hl r hr (outs0 r) (outs1 r) (msg r) D hD)
  exact h2.trans (le_of_eq (by ring))

open Classical in
/-- A stale value in one of three accesses. -/
example (outs0 outs1 : GF128 → Nat → GF128 × GF128) (msg : GF128 → GF128 × GF128) :
    (Finset.univ.filter (fun q : GF128 × GF128 => ∃ g0 f0 g1 f1 ks0 ks1,
      productPrv true (bchGroups 4 3 3) q.1 [((1 : GF128), (5 : GF128)), (1, 6), (2, 9)] (outs0 q.1) = some (g0, f0) ∧
      (∀ g ∈ g0, g.Ok) ∧
      productPrv true (bchGroups 4 3 3) q.1 [((1 : GF128), (5 : GF128)), (2, 6), (2, 9)] (outs1 q.1) = some (g1, f1) ∧
      (∀ g ∈ g1, g.Ok) ∧
      productVer true (bchGroups 4 3 3) q.2 q.1 ([((1 : GF128), (5 : GF128)), (1, 6), (2, 9)].map (keyF q.2))
        (fun i => keyF q.2 (outs0 q.1 i)) = some ks0 ∧
      productVer true (bchGroups 4 3 3) q.2 q.1 ([((1 : GF128), (5 : GF128)), (2, 6), (2, 9)].map (keyF q.2))
        (fun i => keyF q.2 (outs1 q.1 i)) = some ks1 ∧
      setEqVer ks0.2 ks1.2 (msg q.1).1 (msg q.1).2 = true)).card ≤ 4 * Fintype.card GF128 := by
  have h := C47_sound true 4 (by decide) [((1 : GF128), (5 : GF128)), (1, 6), (2, 9)]
    [((1 : GF128), (5 : GF128)), (2, 6), (2, 9)] (by simp) (by simp) (by simp) rfl (by
      intro h
      have := h.count_eq (1 : GF128)
      revert this
      decide +kernel) outs0 outs1 msg
  have aux : ∀ (c g n : Nat), n = 3 → g ≤ (n + 1) * c → g ≤ 4 * c := fun c g n hn h => by subst hn; exact h
  exact aux _ _ ([((1 : GF128), (5 : GF128)), (1, 6), (2, 9)].length) rfl h

end
end EmpZk
