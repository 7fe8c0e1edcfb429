/-
Lemmas for the soundness of memories of several words per cell over the network.
-/
import Verif.Lemmas.ExtTraceCheck
import Verif.Lemmas.RamExtCheck

namespace EmpZk

theorem xGen_kinds {c : RxCfg} {g g' : XNet} {o : XOp} {ops : List MOp} (h : xGen c g o = some (ops, g')) : ∀ x ∈ ops, ∀ is, x ≠ MOp.mulN is := by
  have hpub : ∀ w v, ∀ x ∈ pubInt w v, ∀ is, x ≠ MOp.mulN is := by
    intro w v x hx is
    rw [pubInt, List.mem_map] at hx
    obtain ⟨b, _, rfl⟩ := hx
    intro h; cases h
  have hpack : ∀ ps : List (List (Nat × List Nat)), ∀ x ∈ ps.map MOp.packAt, ∀ is, x ≠ MOp.mulN is := by
    intro ps x hx is
    obtain ⟨b, _, rfl⟩ := List.mem_map.1 hx
    intro h; cases h
  intro x hx is
  cases o <;> simp only [xGen, Option.bind_eq_bind, Option.bind_eq_some_iff, Option.some.injEq, Prod.mk.injEq, Prod.exists] at h
  case bool => obtain ⟨p, _, rfl, _⟩ := h; rw [List.mem_singleton] at hx; rw [hx]; intro h; cases h
  case read =>
    obtain ⟨_, _, _, _, _, _, _, rfl, _⟩ := h
    simp only [List.mem_append, List.mem_cons] at hx
    rcases hx with hx | hx | rfl | hx
    · obtain ⟨v, _, hx⟩ := List.mem_flatMap.1 hx
      rw [inInt, List.mem_map] at hx
      obtain ⟨b, _, rfl⟩ := hx
      intro h; cases h
    · exact hpub _ _ x hx is
    · intro h; cases h
    · exact hpack _ x hx is
  case write =>
    obtain ⟨_, _, _, _, _, _, _, _, rfl, _⟩ := h
    simp only [List.mem_append, List.mem_cons] at hx
    rcases hx with hx | rfl | hx
    · exact hpub _ _ x hx is
    · intro h; cases h
    · exact hpack _ x hx is

theorem xGens_kinds {c : RxCfg} {us : List XOp} : ∀ {g g' : XNet} {ops : List MOp}, xGens c g us = some (ops, g') → ∀ x ∈ ops, ∀ is, x ≠ MOp.mulN is := by
  induction us with
  | nil => intro g g' ops h; simp only [xGens, Option.some.injEq, Prod.mk.injEq] at h; obtain ⟨rfl, _⟩ := h; intro x hx; cases hx
  | cons o us ih =>
    intro g g' ops h
    simp only [xGens, Option.bind_eq_bind, Option.bind_eq_some_iff, Option.some.injEq, Prod.mk.injEq, Prod.exists] at h
    obtain ⟨a, g1, h1, b, g2, h2, rfl, _⟩ := h
    intro x hx
    rcases List.mem_append.1 hx with hx | hx
    · exact xGen_kinds h1 x hx
    · exact ih h2 x hx

theorem xCheckGen_kinds {lib : CmpLib} {c : RxCfg} {g : XNet} {ops : List MOp} (h3 : 3 ≤ g.st.step) (h64 : g.st.step < 2 ^ 64)
    (h : xCheckGen lib c g = some ops) : ∀ is, MOp.mulN is ∈ ops → is.length = 5 := by
  simp only [xCheckGen, Option.bind_eq_bind, Option.bind_eq_some_iff, Prod.exists] at h
  obtain ⟨_, chk, _, q1, q2, _, h⟩ := h
  split at h
  · cases h
  simp only [Option.bind_eq_some_iff, Option.some.injEq] at h
  obtain ⟨ps, _, la, _, lb, _, se, hse, rfl⟩ := h
  have hk := setEqOps_kinds (by simp) (by simp) h3 h64 hse
  intro is his
  simp only [List.mem_append, List.mem_map, List.mem_cons, reduceCtorEq, and_false, exists_const, false_or] at his
  have hs : MOp.mulN is ∈ se := by simpa using his
  exact (hk _ hs).2 is rfl

/-! ### from runs to the plain program -/

theorem XOp.same_widths {c : RxCfg} {o o' : XOp} (h : XOp.same o o') (hw : o.Widths c) : o'.Widths c := by
  unfold XOp.same at h
  split at h
  · trivial
  · rw [← h]; exact hw

theorem XTraceStep.log {c : RxCfg} {u u' : XPlain} {o : XOp} (h : XTraceStep c u o u') : u.log <+: u'.log := by
  cases o <;> simp only [XTraceStep] at h
  case bool => obtain ⟨b, _, rfl⟩ := h; exact List.prefix_refl _
  case read => obtain ⟨_, _, _, _, _, rfl⟩ := h; exact List.prefix_append _ _
  case write => obtain ⟨_, _, _, _, rfl⟩ := h; exact List.prefix_append _ _

theorem XTrace.log {c : RxCfg} {u u' : XPlain} {os : List XOp} (h : XTrace c u os u') : u.log <+: u'.log := by
  induction h with
  | nil => exact List.prefix_refl _
  | cons h1 _ ih => exact h1.log.trans ih

/-- A run whose reads return the latest write, of addresses written before, is the plain program. -/
theorem XTrace.plain {c : RxCfg} (hc : c.Ok) {u u' : XPlain} {os : List XOp} (h : XTrace c u os u') (hw : ∀ o ∈ os, o.Widths c)
    (hr : ReadsLastWrite u'.log) (hf : WrittenFirst u'.log) : xplainOps c u os = some u' := by
  unfold xplainOps
  have hc1 := hc.1
  induction h with
  | nil => rfl
  | @cons u u1 u2 o os h1 h2 ih =>
    rw [List.foldlM_cons]
    have : xplainStep c u o = some u1 := by
      have w := hw o (by simp)
      have hl := h2.log
      cases o with
      | bool o =>
        obtain ⟨b, hb, rfl⟩ := h1
        simp only [xplainStep, hb, Option.map_some]
      | read ix =>
        obtain ⟨ib, v, hib, hvl, hv, rfl⟩ := h1
        have hi := bitsNum_lt ib
        have w' : ix.length = c.isz := w
        rw [pick_length hib, w'] at hi
        obtain ⟨t, ht⟩ := hl
        simp only [XPlain.push, List.append_assoc, List.cons_append, List.nil_append] at ht
        have hg : u2.log[u.log.length]? = some ⟨bitsNum ib, false, v⟩ := by
          rw [← ht, List.getElem?_append_right (le_refl _), Nat.sub_self, List.getElem?_cons_zero]
        have htk : u2.log.take u.log.length = u.log := by rw [← ht, List.take_left']; rfl
        obtain ⟨v1, hv1⟩ := hf _ _ hg rfl
        have := hr _ _ hg rfl v1 hv1
        rw [htk] at hv1
        simp only at hv1 this
        subst this
        simp only [xplainStep, hib, Option.bind_eq_bind, Option.bind_some, hv1]
        rw [if_pos ⟨by omega, hi⟩]
      | write ix vs =>
        obtain ⟨ib, vb, hib, hvb, rfl⟩ := h1
        have hi := bitsNum_lt ib
        obtain ⟨w1, w2, w3⟩ : ix.length = c.isz ∧ vs.length = (c.vsz + 63) / 64 ∧ ∀ w ∈ vs, w.length ≤ 64 := w
        rw [pick_length hib, w1] at hi
        simp only [xplainStep, hib, hvb, Option.bind_eq_bind, Option.bind_some]
        rw [if_pos ⟨by omega, hi, w2, w3⟩]
    rw [this]
    exact ih (fun o ho => hw o (by simp [ho])) hr hf

/-! ### blocks of rows -/

theorem pairs_lt : ∀ (l : List Nat), (∀ v ∈ l, v < 2 ^ 64) → ∀ w ∈ pairs l, w < 2 ^ 128
  | [], _, w, hw => by cases hw
  | [a], h, w, hw => by
    have := h a (by simp)
    simp only [pairs, List.mem_singleton] at hw
    omega
  | a :: b :: l, h, w, hw => by
    simp only [pairs, List.mem_cons] at hw
    rcases hw with rfl | hw
    · have := h a (by simp)
      have := h b (by simp)
      omega
    · exact pairs_lt l (fun v hv => h v (by simp [hv])) w hw

theorem extRow_lt {c : RxCfg} {e : ExtEnt} (h : e.FitsX c) : ∀ w ∈ extRow e, w < 2 ^ 128 := by
  obtain ⟨i, s, o, v⟩ := e
  obtain ⟨_, _, _, a4⟩ := h
  cases v with
  | nil => intro w hw; cases hw
  | cons v vs =>
    intro w hw
    simp only [extRow, List.mem_cons] at hw
    rcases hw with rfl | hw
    · exact ramPacked_lt extW_ok _
    · exact pairs_lt vs (fun x hx => a4 x (by simp [hx])) w hw

theorem rowBlocks_perm {F : Type} [Field F] [PackField F] {c : RxCfg} (hc : c.Ok) {A B : List ExtEnt} (hA : ∀ e ∈ A, e.FitsX c) (hB : ∀ e ∈ B, e.FitsX c)
    (h : (rowBlocks A : List (List F)).Perm (rowBlocks B)) : A.Perm B := by
  classical
  have hinj : ∀ e f : ExtEnt, e.FitsX c → f.FitsX c → (extRow e).map (wordF (F := F)) = (extRow f).map wordF → e = f := by
    intro e f he hf h1
    apply extRow_inj hc he hf
    apply List.ext_getElem
    · have := congrArg List.length h1
      simpa using this
    · intro i h3 h4
      have := congrArg (fun l => l[i]?) h1
      simp only [List.getElem?_map, List.getElem?_eq_getElem h3, List.getElem?_eq_getElem h4, Option.map_some, Option.some.injEq] at this
      exact wordF_inj (extRow_lt he _ (List.getElem_mem h3)) (extRow_lt hf _ (List.getElem_mem h4)) this
  let vec : ExtEnt → List F := fun e => (extRow e).map wordF
  let g : List F → ExtEnt := fun x => if h : ∃ e : ExtEnt, e.FitsX c ∧ vec e = x then h.choose else ⟨0, 0, false, []⟩
  have hg : ∀ e : ExtEnt, e.FitsX c → g (vec e) = e := by
    intro e he
    have hex : ∃ e' : ExtEnt, e'.FitsX c ∧ vec e' = vec e := ⟨e, he, rfl⟩
    simp only [g, dif_pos hex]
    exact hinj _ _ hex.choose_spec.1 he hex.choose_spec.2
  exact perm_of_leftInv vec g (fun e he => hg e (hA e he)) (fun e he => hg e (hB e he)) h

/-- Equal index wires, equal indices. -/
theorem xrow_idx {c : RxCfg} {n i j : Nat} {rows : List ExtEnt} {W : List Bool} (h : XRowsAt c n rows W) (hf : ∀ e ∈ rows, e.FitsX c) {e f : ExtEnt}
    (he : rows[i]? = some e) (hj : rows[j]? = some f) : pick W (xRowIdx c n i) = pick W (xRowIdx c n j) ↔ e.idx = f.idx := by
  obtain ⟨_, _, _, h1⟩ := h i e he
  obtain ⟨_, _, _, h2⟩ := h j f hj
  rw [h1, h2, Option.some.injEq]
  constructor
  · intro hh
    have := congrArg bitsNum hh
    rwa [bitsNum_bitsOf, bitsNum_bitsOf, Nat.mod_eq_of_lt (hf e (List.mem_of_getElem? he)).1,
      Nat.mod_eq_of_lt (hf f (List.mem_of_getElem? hj)).1] at this
  · intro hh; rw [hh]

end EmpZk
