/-
The set-equality check of a memory as instructions of a mixed session, on plain values.
-/
import Verif.Lemmas.MixNet

namespace EmpZk

section
variable {F : Type} [Field F] [BlockField F] [DecidableEq F]

omit [Field F] [BlockField F] [DecidableEq F] in
theorem pick_append {α : Type} {l : List α} (t : List α) {g : List Nat} {es : List α} (h : pick l g = some es) : pick (l ++ t) g = some es := by
  induction g generalizing es with
  | nil => exact h
  | cons i g ih =>
    rw [pick_cons] at h ⊢
    simp only [Option.bind_eq_some_iff, Option.map_eq_some_iff] at h
    obtain ⟨a, ha, r, hr, rfl⟩ := h
    rw [List.getElem?_append_left (List.getElem?_eq_some_iff.1 ha).1, ha, ih hr]
    rfl

omit [Field F] [BlockField F] [DecidableEq F] in
theorem pick_pick {α : Type} {l : List α} {xs g ws : List Nat} {vs : List α} (h : pick l xs = some vs) (hw : pick xs g = some ws) :
    pick l ws = pick vs g := by
  induction g generalizing ws with
  | nil => rw [pick_nil] at hw; cases hw; rfl
  | cons i g ih =>
    rw [pick_cons] at hw
    simp only [Option.bind_eq_some_iff, Option.map_eq_some_iff] at hw
    obtain ⟨x, hx, r, hr, rfl⟩ := hw
    rw [pick_cons, pick_cons, ih hr]
    have : l[x]? = vs[i]? := by
      clear ih hr
      induction xs generalizing vs i with
      | nil => simp at hx
      | cons y xs ih =>
        rw [pick_cons] at h
        simp only [Option.bind_eq_some_iff, Option.map_eq_some_iff] at h
        obtain ⟨a, ha, q, hq, rfl⟩ := h
        cases i with
        | zero => simp only [List.getElem?_cons_zero, Option.some.injEq] at hx ⊢; subst hx; exact ha
        | succ i => simp only [List.getElem?_cons_succ] at hx ⊢; exact ih hq i hx
    rw [this]

omit [Field F] [BlockField F] [DecidableEq F] in
theorem pick_range' {α : Type} (l t : List α) : pick (l ++ t) (List.range' l.length t.length) = some t := by
  induction t generalizing l with
  | nil => rfl
  | cons a t ih =>
    rw [List.length_cons, List.range'_succ, pick_cons, List.getElem?_append_right (Nat.le_refl _), Nat.sub_self, List.getElem?_cons_zero,
      Option.bind_some]
    have := ih (l ++ [a])
    rw [List.append_assoc, List.length_append] at this
    simp only [List.singleton_append, List.length_singleton] at this
    rw [this]
    rfl

omit [Field F] [BlockField F] [DecidableEq F] in
theorem pick_append_idx {α : Type} {l : List α} {g h : List Nat} {es fs : List α} (h1 : pick l g = some es) (h2 : pick l h = some fs) :
    pick l (g ++ h) = some (es ++ fs) := by
  induction g generalizing es with
  | nil => rw [pick_nil] at h1; cases h1; exact h2
  | cons i g ih =>
    rw [pick_cons] at h1
    simp only [Option.bind_eq_some_iff, Option.map_eq_some_iff] at h1
    obtain ⟨a, ha, r, hr, rfl⟩ := h1
    rw [List.cons_append, pick_cons, ha, ih hr]
    rfl

theorem mplainOps_append (ch : Nat → F) (s : MPlain F) (a b : List MOp) :
    mplainOps ch s (a ++ b) = (mplainOps ch s a).bind (fun s1 => mplainOps ch s1 b) := by
  simp only [mplainOps, List.foldlM_append]; rfl

/-- Adding a challenge to some blocks. -/
theorem mplain_adds (ch : Nat → F) {k : Nat} {r : F} (ws : List Nat) : ∀ {s : MPlain F} {us : List F}, s.rs[k]? = some r →
    pick s.fs ws = some us → mplainOps ch s (ws.map (fun i => MOp.addc i k)) = some { s with fs := s.fs ++ us.map (fun x => x + r) } := by
  induction ws with
  | nil => intro s us _ h; rw [pick_nil] at h; cases h; simp [mplainOps]
  | cons i ws ih =>
    intro s us hr h
    rw [pick_cons] at h
    simp only [Option.bind_eq_some_iff, Option.map_eq_some_iff] at h
    obtain ⟨a, ha, q, hq, rfl⟩ := h
    rw [List.map_cons, mplainOps_cons]
    simp only [mplainStep, Option.bind_eq_bind, ha, hr, Option.bind_some]
    rw [ih (s := { s with fs := s.fs ++ [a + r] }) hr (pick_append _ hq)]
    simp

/-- The product loop. -/
theorem mplain_chain (ch : Nat → F) {k : Nat} {r : F} (xs : List Nat) (gs : List (List Nat)) : ∀ {s : MPlain F} {vs : List F} {acc : Nat} {A : F},
    s.rs[k]? = some r → pick s.fs xs = some vs → s.fs[acc]? = some A → (∀ g ∈ gs, g.length = 4 ∨ g.length = 1) →
    (∀ i ∈ gs.flatten, i < xs.length) →
    ∃ ops acc' t B us, chainOps xs k s.fs.length acc gs = some (ops, s.fs.length + t.length, acc') ∧
      mplainOps ch s ops = some { s with fs := s.fs ++ t } ∧ (s.fs ++ t)[acc']? = some B ∧ pick vs gs.flatten = some us ∧ B = A * prodAt r us := by
  induction gs with
  | nil =>
    intro s vs acc A _ _ hA _ _
    exact ⟨[], acc, [], A, [], rfl, by simp [mplainOps], by rw [List.append_nil]; exact hA, rfl, by simp [prodAt]⟩
  | cons g gs ih =>
    intro s vs acc A hr hx hA hg hi
    have hig : ∀ i ∈ g, i < xs.length := fun i h => hi i (by simp [h])
    obtain ⟨ws, hw, hwl, _⟩ := pick_some xs g hig
    have hvl : vs.length = xs.length := pick_length hx
    obtain ⟨us, hu, hul, _⟩ := pick_some vs g (by rw [hvl]; exact hig)
    have hu' : pick s.fs ws = some us := by rw [pick_pick hx hw]; exact hu
    have hadd := mplain_adds ch ws hr hu'
    set t1 := us.map (fun x => x + r) with ht1
    have ht1l : t1.length = g.length := by rw [ht1, List.length_map, hul]
    have hAcc : ∀ t, (s.fs ++ t)[acc]? = some A := fun t => by
      rw [List.getElem?_append_left (List.getElem?_eq_some_iff.1 hA).1]; exact hA
    have hmul : mplainStep ch { s with fs := s.fs ++ t1 } (if g.length = 1 then MOp.mul acc s.fs.length else MOp.mulN (acc :: List.range' s.fs.length g.length))
        = some { s with fs := s.fs ++ (t1 ++ [A * t1.prod]) } := by
      have hp := pick_range' s.fs t1
      rw [ht1l] at hp
      rcases hg g (by simp) with h4 | h1
      · rw [if_neg (by omega)]
        simp only [mplainStep, Option.bind_eq_bind]
        rw [pick_cons, hAcc, hp]
        simp only [Option.bind_some, Option.map_some, List.length_cons, List.length_range', h4]
        rw [if_pos (by omega)]
        simp
      · rw [if_pos h1]
        obtain ⟨u, hu1⟩ := List.length_eq_one_iff.1 (ht1l.trans h1)
        simp only [mplainStep, Option.bind_eq_bind, hAcc, Option.bind_some, hu1]
        rw [List.getElem?_append_right (Nat.le_refl _), Nat.sub_self]
        simp
    obtain ⟨ops, acc', t, B, us2, k1, k2, k3, k4, k5⟩ := ih (s := { s with fs := s.fs ++ (t1 ++ [A * t1.prod]) }) (vs := vs)
      (acc := s.fs.length + g.length) (A := A * t1.prod) hr (pick_append _ hx)
      (by
        show (s.fs ++ (t1 ++ [A * t1.prod]))[s.fs.length + g.length]? = _
        rw [← List.append_assoc, ← ht1l, ← List.length_append, List.getElem?_concat_length])
      (fun g' h => hg g' (by simp [h])) (fun i h => hi i (by rw [List.flatten_cons]; exact List.mem_append_right _ h))
    have hlen : (s.fs ++ (t1 ++ [A * t1.prod])).length = s.fs.length + g.length + 1 := by
      simp only [List.length_append, ht1l, List.length_singleton]; omega
    simp only at k1 k2 k3
    rw [hlen] at k1
    refine ⟨ws.map (fun i => MOp.addc i k) ++ (if g.length = 1 then MOp.mul acc s.fs.length else MOp.mulN (acc :: List.range' s.fs.length g.length)) :: ops,
      acc', t1 ++ [A * t1.prod] ++ t, B, us ++ us2, ?_, ?_, ?_, ?_, ?_⟩
    · simp only [chainOps, Option.bind_eq_bind, hw, Option.bind_some, k1]
      congr 3
      simp only [List.length_append, ht1l, List.length_singleton]; omega
    · rw [mplainOps_append, hadd, Option.bind_some, mplainOps_cons, hmul, Option.bind_some, k2]
      simp only [List.append_assoc]
    · rw [← k3]; simp only [List.append_assoc]
    · rw [List.flatten_cons]
      exact pick_append_idx hu k4
    · rw [k5, ht1]
      simp only [prodAt, List.map_append, List.prod_append]
      ring

/-- The whole check: it goes through for the challenge `r` exactly when the products agree at `r`. -/
theorem mplain_setEq (ch : Nat → F) {s : MPlain F} {as bs : List Nat} {us vs : List F} {step : Nat}
    (ha : pick s.fs as = some us) (hb : pick s.fs bs = some vs) (hsa : as.length = step) (hsb : bs.length = step) (h3 : 3 ≤ step)
    (h64 : step < 2 ^ 64) :
    ∃ ops t, setEqOps s.fs.length s.rs.length step as bs = some ops ∧ mplainOps ch s ops =
      if prodAt (ch s.rs.length) us = prodAt (ch s.rs.length) vs then some { s with fs := s.fs ++ t, rs := s.rs ++ [ch s.rs.length] } else none := by
  obtain ⟨gs, hgs, hfl, hlen⟩ := bchGroups_eq (w := 4) (n := step) (by decide) (by omega) (by omega) h64
  set r := ch s.rs.length with hr
  have hin : ∀ i ∈ gs.flatten, i < step := by
    intro i hi
    rw [hfl] at hi
    have := List.mem_range'_1.1 hi
    omega
  obtain ⟨a0, as', rfl⟩ : ∃ a as', as = a :: as' := List.exists_cons_of_length_pos (by omega)
  obtain ⟨b0, bs', rfl⟩ : ∃ b bs', bs = b :: bs' := List.exists_cons_of_length_pos (by omega)
  have ha' := ha
  have hb' := hb
  rw [pick_cons] at ha hb
  simp only [Option.bind_eq_some_iff, Option.map_eq_some_iff] at ha hb
  obtain ⟨u0, hu0, us', hus', rfl⟩ := ha
  obtain ⟨v0, hv0, vs', hvs', rfl⟩ := hb
  have hul : us'.length = step - 1 := by have := pick_length hus'; simp only [List.length_cons] at hsa; omega
  have hvl : vs'.length = step - 1 := by have := pick_length hvs'; simp only [List.length_cons] at hsb; omega
  have hflat : ∀ (x : F) (l : List F), l.length = step - 1 → pick (x :: l) gs.flatten = some l := by
    intro x l hl
    have := pick_range' [x] l
    rw [hl] at this
    rw [hfl]
    exact this
  obtain ⟨oa, x, t1, B1, us1, k1, k2, k3, k4, k5⟩ := mplain_chain ch (k := s.rs.length) (r := r) (a0 :: as') gs
    (s := { s with fs := s.fs ++ [u0 + r], rs := s.rs ++ [r] }) (vs := u0 :: us') (acc := s.fs.length) (A := u0 + r)
    List.getElem?_concat_length (pick_append _ ha') List.getElem?_concat_length hlen (by rw [hsa]; exact hin)
  rw [hflat u0 us' hul, Option.some.injEq] at k4
  subst k4
  simp only [List.length_append, List.length_singleton] at k1 k2 k3
  obtain ⟨ob, y, t2, B2, us2, l1, l2, l3, l4, l5⟩ := mplain_chain ch (k := s.rs.length) (r := r) (b0 :: bs') gs
    (s := { s with fs := s.fs ++ [u0 + r] ++ t1 ++ [v0 + r], rs := s.rs ++ [r] }) (vs := v0 :: vs')
    (acc := (s.fs ++ [u0 + r] ++ t1).length) (A := v0 + r)
    List.getElem?_concat_length (by simp only [List.append_assoc]; exact pick_append _ hb') List.getElem?_concat_length hlen (by rw [hsb]; exact hin)
  rw [hflat v0 vs' hvl, Option.some.injEq] at l4
  subst l4
  have e1 : B1 = prodAt r (u0 :: us') := by rw [k5]; simp [prodAt]
  have e2 : B2 = prodAt r (v0 :: vs') := by rw [l5]; simp [prodAt]
  have hx : (s.fs ++ [u0 + r] ++ t1 ++ [v0 + r] ++ t2)[x]? = some B1 := by
    have hl := (List.getElem?_eq_some_iff.1 k3).1
    rw [List.append_assoc (s.fs ++ [u0 + r] ++ t1), List.getElem?_append_left hl]
    exact k3
  refine ⟨MOp.chal :: MOp.addc a0 s.rs.length :: (oa ++ MOp.addc b0 s.rs.length :: (ob ++ [MOp.eq x y])), [u0 + r] ++ t1 ++ [v0 + r] ++ t2, ?_, ?_⟩
  · simp only [List.length_append, List.length_singleton] at l1
    rw [setEqOps, hsa, hsb]
    simp only [hgs, Option.bind_eq_bind, Option.bind_some, List.getElem?_cons_zero, k1, l1]
  · rw [mplainOps_cons]
    simp only [mplainStep, Option.bind_some]
    rw [mplainOps_cons]
    simp only [mplainStep, Option.bind_eq_bind, hu0, Option.bind_some, ← hr, List.getElem?_concat_length]
    rw [mplainOps_append, k2, Option.bind_some, mplainOps_cons]
    simp only [mplainStep, Option.bind_eq_bind, Option.bind_some, List.getElem?_concat_length]
    rw [List.append_assoc, List.getElem?_append_left (List.getElem?_eq_some_iff.1 hv0).1, hv0]
    simp only [Option.bind_some]
    rw [mplainOps_append, ← List.append_assoc, l2, Option.bind_some, mplainOps_cons]
    simp only [mplainStep, Option.bind_eq_bind, hx, l3, Option.bind_some, e1, e2]
    split
    · simp only [Option.bind_some, mplainOps, List.foldlM_nil, List.append_assoc]; rfl
    · rfl

omit [Field F] [BlockField F] [DecidableEq F]

/-- Single products of one loop over four at a time. -/
theorem bchGroups_singles {n : Nat} (h3 : 3 ≤ n) (hn : n < 2 ^ 64) {gs : List (List Nat)} (hgs : bchGroups 4 n n = some gs) :
    gs.countP (fun g => g.length = 1) = (n - 1) % 4 := by
  obtain ⟨ms, j, he, h3, h4, h5, h6, h7⟩ := bchMain_eq (w := 4) (n := n) (by decide) (n + 1) 1 (by omega) (by omega)
  rw [bchGroups, if_neg (by omega), bchBound_eq (by decide) (by omega) hn, he] at hgs
  simp only [Option.bind_eq_bind, Option.bind_some, bchTail_eq n (n + 1) j (by omega) h4, Option.some.injEq] at hgs
  subst hgs
  rw [List.countP_append]
  have e1 : ms.countP (fun g => g.length = 1) = 0 := by
    rw [List.countP_eq_zero]
    intro g hg
    rw [h7 g hg]; decide
  have e2 : ((List.range' j (n - j)).map (fun j => [j])).countP (fun g => g.length = 1) = n - j := by
    rw [List.countP_map, List.countP_eq_length.2 (by simp), List.length_range']
  have e3 : 4 ∣ j - 1 := by
    have : (ms.flatten).length = j - 1 := by rw [h6, List.length_range']
    rw [← this, List.length_flatten]
    clear he h6 e1 this
    induction ms with
    | nil => simp
    | cons m ms ih =>
      rw [List.map_cons, List.sum_cons, h7 m (by simp)]
      exact Dvd.dvd.add ⟨1, rfl⟩ (ih (fun g hg => h7 g (by simp [hg])))
  rw [e1, e2]
  omega

theorem chainOps_counts (xs : List Nat) (k : Nat) (gs : List (List Nat)) : ∀ {n acc : Nat} {r : List MOp × Nat × Nat},
    chainOps xs k n acc gs = some r → mixMuls r.1 = gs.countP (fun g => g.length = 1) ∧ r.1.countP MOp.isAnd = 0 := by
  induction gs with
  | nil => intro n acc r h; rw [chainOps, Option.some.injEq] at h; subst h; exact ⟨rfl, rfl⟩
  | cons g gs ih =>
    intro n acc r h
    simp only [chainOps, Option.bind_eq_bind, Option.bind_eq_some_iff, Option.some.injEq] at h
    obtain ⟨ws, _, q, hq, rfl⟩ := h
    obtain ⟨h1, h2⟩ := ih hq
    have z1 : ∀ l : List Nat, (l.map (fun i => MOp.addc i k)).countP MOp.isMul = 0 := by
      intro l; rw [List.countP_eq_zero]; simp [MOp.isMul]
    have z2 : ∀ l : List Nat, (l.map (fun i => MOp.addc i k)).countP MOp.isAnd = 0 := by
      intro l; rw [List.countP_eq_zero]; simp [MOp.isAnd]
    simp only [mixMuls] at h1 ⊢
    rw [List.countP_append, List.countP_append, z1, z2, List.countP_cons, List.countP_cons, List.countP_cons, h1, h2]
    by_cases hl : g.length = 1
    · simp [hl, MOp.isMul, MOp.isAnd]
    · simp [hl, MOp.isMul, MOp.isAnd]

/-- A check adds twice `(step - 1) % 4` products of two blocks and no AND gate. -/
theorem setEqOps_counts {n k step : Nat} {as bs : List Nat} {ops : List MOp} (hsa : as.length = step) (hsb : bs.length = step) (h3 : 3 ≤ step)
    (h64 : step < 2 ^ 64) (h : setEqOps n k step as bs = some ops) :
    mixMuls ops = 2 * ((step - 1) % 4) ∧ ops.countP MOp.isAnd = 0 := by
  simp only [setEqOps, Option.bind_eq_bind, Option.bind_eq_some_iff, Option.some.injEq, hsa, hsb] at h
  obtain ⟨ga, hga, gb, hgb, a0, _, b0, _, q1, hq1, q2, hq2, rfl⟩ := h
  obtain ⟨x1, x2⟩ := chainOps_counts _ _ _ hq1
  obtain ⟨y1, y2⟩ := chainOps_counts _ _ _ hq2
  rw [bchGroups_singles h3 h64 hga] at x1
  rw [bchGroups_singles h3 h64 hgb] at y1
  simp only [mixMuls] at x1 y1 ⊢
  constructor
  · simp only [List.countP_cons, List.countP_append, x1, y1, MOp.isMul, List.countP_nil]
    simp only [Bool.false_eq_true, if_false]
    omega
  · simp only [List.countP_cons, List.countP_append, x2, y2, MOp.isAnd, List.countP_nil]
    simp

end
end EmpZk
