/-
Lemmas for the soundness of memories over the network.
-/
import Verif.Lemmas.RamTraceCheck
import Verif.Lemmas.SameVerifier
import Verif.Lemmas.BoolView

namespace EmpZk

theorem plainStep_wires_grow {p q : Plain} {o : BOp} (h : plainStep p o = some q) : p.wires <+: q.wires := by
  cases o <;> simp only [plainStep, Option.bind_eq_bind, Option.bind_eq_some_iff, Option.some.injEq] at h
  case input => subst h; exact List.prefix_append _ _
  case pub => subst h; exact List.prefix_append _ _
  case xor => obtain ⟨_, _, _, _, rfl⟩ := h; exact List.prefix_append _ _
  case not => obtain ⟨_, _, rfl⟩ := h; exact List.prefix_append _ _
  case and => obtain ⟨_, _, _, _, rfl⟩ := h; exact List.prefix_append _ _
  case reveal => obtain ⟨_, _, rfl⟩ := h; exact List.prefix_refl _
  case poly => obtain ⟨_, _, rfl⟩ := h; exact List.prefix_refl _

theorem plainRun_wires_grow (ops : List BOp) : ∀ {p q : Plain}, ops.foldlM plainStep p = some q → p.wires <+: q.wires := by
  induction ops with
  | nil => intro p q h; rw [List.foldlM_nil] at h; cases h; exact List.prefix_refl _
  | cons o ops ih =>
    intro p q h
    rw [List.foldlM_cons] at h
    simp only [Option.bind_eq_bind, Option.bind_eq_some_iff] at h
    obtain ⟨p1, h1, h2⟩ := h
    exact (plainStep_wires_grow h1).trans (ih h2)

theorem plainStep_len {p q p' q' : Plain} {o o' : BOp} (hoo : BOp.same o o') (hl : p.wires.length = q.wires.length) (hp : plainStep p o = some p')
    (hq : plainStep q o' = some q') : p'.wires.length = q'.wires.length := by
  cases o <;> cases o' <;> simp only [BOp.same, reduceCtorEq] at hoo <;>
    simp only [plainStep, Option.bind_eq_bind, Option.bind_eq_some_iff, Option.some.injEq] at hp hq
  case input => subst hp hq; simp [hl]
  case pub => subst hp hq; simp [hl]
  case xor => obtain ⟨_, _, _, _, rfl⟩ := hp; obtain ⟨_, _, _, _, rfl⟩ := hq; simp [hl]
  case not => obtain ⟨_, _, rfl⟩ := hp; obtain ⟨_, _, rfl⟩ := hq; simp [hl]
  case and => obtain ⟨_, _, _, _, rfl⟩ := hp; obtain ⟨_, _, _, _, rfl⟩ := hq; simp [hl]
  case reveal => obtain ⟨_, _, rfl⟩ := hp; obtain ⟨_, _, rfl⟩ := hq; exact hl
  case poly => obtain ⟨_, _, rfl⟩ := hp; obtain ⟨_, _, rfl⟩ := hq; exact hl

theorem plainRun_len {l l' : List BOp} (h : List.Forall₂ BOp.same l l') : ∀ {p q p' q' : Plain}, p.wires.length = q.wires.length →
    l.foldlM plainStep p = some p' → l'.foldlM plainStep q = some q' → p'.wires.length = q'.wires.length := by
  induction h with
  | nil => intro p q p' q' hl hp hq; rw [List.foldlM_nil] at hp hq; cases hp; cases hq; exact hl
  | cons h1 _ ih =>
    intro p q p' q' hl hp hq
    rw [List.foldlM_cons] at hp hq
    simp only [Option.bind_eq_bind, Option.bind_eq_some_iff] at hp hq
    obtain ⟨p1, a1, a2⟩ := hp
    obtain ⟨q1, b1, b2⟩ := hq
    exact ih (plainStep_len h1 hl a1 b1) a2 b2

/-! ### counts -/

theorem BOp.same_isAnd {o o' : BOp} (h : BOp.same o o') : o.isAnd = o'.isAnd := by
  unfold BOp.same at h
  split at h
  · rfl
  · rw [h]

theorem MOp.same_isAnd {o o' : MOp} (h : MOp.same o o') : o.isAnd = o'.isAnd ∧ o.isMul = o'.isMul := by
  unfold MOp.same at h
  split at h
  · exact ⟨BOp.same_isAnd h, rfl⟩
  · rw [h]; exact ⟨rfl, rfl⟩

theorem countP_rel {α : Type} {R : α → α → Prop} {f : α → Bool} (hf : ∀ a b, R a b → f a = f b) {l l' : List α} (h : List.Forall₂ R l l') :
    l.countP f = l'.countP f := by
  induction h with
  | nil => rfl
  | cons h1 _ ih => rw [List.countP_cons, List.countP_cons, ih, hf _ _ h1]

theorem mixAnds_same {pre pre' : List BOp} {ops ops' : List MOp} {post post' : List BOp} (h1 : List.Forall₂ BOp.same pre pre')
    (h2 : List.Forall₂ MOp.same ops ops') (h3 : List.Forall₂ BOp.same post post') : mixAnds pre ops post = mixAnds pre' ops' post' := by
  unfold mixAnds
  rw [countP_rel (f := BOp.isAnd) (fun a b h => BOp.same_isAnd h) h1, countP_rel (f := MOp.isAnd) (fun a b h => (MOp.same_isAnd h).1) h2, countP_rel (f := BOp.isAnd) (fun a b h => BOp.same_isAnd h) h3]

theorem mixMuls_same {ops ops' : List MOp} (h2 : List.Forall₂ MOp.same ops ops') : mixMuls ops = mixMuls ops' :=
  countP_rel (f := MOp.isMul) (fun a b h => (MOp.same_isAnd h).2) h2

theorem uGen_kinds {c : RamCfg} {g g' : RNet} {o : UOp} {ops : List MOp} (h : uGen c g o = some (ops, g')) : ∀ x ∈ ops, ∀ is, x ≠ MOp.mulN is := by
  have hin : ∀ w v, ∀ x ∈ inInt w v, ∀ is, x ≠ MOp.mulN is := by
    intro w v x hx is
    rw [inInt, List.mem_map] at hx
    obtain ⟨b, _, rfl⟩ := hx
    intro h; cases h
  have hpub : ∀ w v, ∀ x ∈ pubInt w v, ∀ is, x ≠ MOp.mulN is := by
    intro w v x hx is
    rw [pubInt, List.mem_map] at hx
    obtain ⟨b, _, rfl⟩ := hx
    intro h; cases h
  intro x hx is
  cases o <;> simp only [uGen, Option.bind_eq_bind, Option.bind_eq_some_iff, Option.some.injEq, Prod.mk.injEq, Prod.exists] at h
  case bool => obtain ⟨p, _, rfl, _⟩ := h; rw [List.mem_singleton] at hx; rw [hx]; intro h; cases h
  case read =>
    obtain ⟨_, _, _, _, _, _, _, rfl, _⟩ := h
    simp only [List.mem_append, List.mem_cons, List.not_mem_nil, or_false] at hx
    rcases hx with hx | hx | rfl | rfl
    · exact hin _ _ x hx is
    · exact hpub _ _ x hx is
    · intro h; cases h
    · intro h; cases h
  case write =>
    obtain ⟨_, _, _, _, _, _, _, _, rfl, _⟩ := h
    simp only [List.mem_append, List.mem_cons, List.not_mem_nil, or_false] at hx
    rcases hx with hx | rfl | rfl
    · exact hpub _ _ x hx is
    · intro h; cases h
    · intro h; cases h
  case access =>
    obtain ⟨_, _, _, _, _, _, _, _, _, _, _, rfl, _⟩ := h
    simp only [List.mem_append, List.mem_cons, List.not_mem_nil, or_false] at hx
    rcases hx with hx | hx | rfl
    · exact hin _ _ x hx is
    · exact hpub _ _ x hx is
    · intro h; cases h

theorem uGens_kinds {c : RamCfg} {us : List UOp} : ∀ {g g' : RNet} {ops : List MOp}, uGens c g us = some (ops, g') → ∀ x ∈ ops, ∀ is, x ≠ MOp.mulN is := by
  induction us with
  | nil => intro g g' ops h; simp only [uGens, Option.some.injEq, Prod.mk.injEq] at h; obtain ⟨rfl, _⟩ := h; intro x hx; cases hx
  | cons o us ih =>
    intro g g' ops h
    simp only [uGens, Option.bind_eq_bind, Option.bind_eq_some_iff, Option.some.injEq, Prod.mk.injEq, Prod.exists] at h
    obtain ⟨a, g1, h1, b, g2, h2, rfl, _⟩ := h
    intro x hx
    rcases List.mem_append.1 hx with hx | hx
    · exact uGen_kinds h1 x hx
    · exact ih h2 x hx

theorem uGen_count {c : RamCfg} {g g' : RNet} {o : UOp} {ops : List MOp} (h : uGen c g o = some (ops, g')) :
    g'.ram.step = g.ram.step + (if o.isMem then 1 else 0) ∧ g'.macs.length = g.macs.length + (if o.isMem then 1 else 0) := by
  cases o <;> simp only [uGen, ramRead, ramWrite, ramAccess, Option.bind_eq_bind, Option.bind_eq_some_iff, Option.some.injEq, Prod.mk.injEq, Prod.exists] at h
  case bool => obtain ⟨p, _, _, rfl⟩ := h; exact ⟨rfl, rfl⟩
  case read => obtain ⟨_, _, _, _, ⟨_, _, st, hst, rfl, _⟩, _, _, _, rfl⟩ := h; have := ramPush_step hst; simp [UOp.isMem, this]
  case write => obtain ⟨_, _, _, _, st, ⟨_, _, hst⟩, _, _, _, rfl⟩ := h; have := ramPush_step hst; simp [UOp.isMem, this]
  case access => obtain ⟨_, _, _, _, _, _, _, _, ⟨_, _, st, hst, rfl, _⟩, _, _, _, rfl⟩ := h; have := ramPush_step hst; simp [UOp.isMem, this]

theorem uGens_count {c : RamCfg} {us : List UOp} : ∀ {g g' : RNet} {ops : List MOp}, uGens c g us = some (ops, g') →
    g'.ram.step = g.ram.step + accesses us ∧ g'.macs.length = g.macs.length + accesses us := by
  induction us with
  | nil => intro g g' ops h; simp only [uGens, Option.some.injEq, Prod.mk.injEq] at h; obtain ⟨_, rfl⟩ := h; exact ⟨rfl, rfl⟩
  | cons o us ih =>
    intro g g' ops h
    simp only [uGens, Option.bind_eq_bind, Option.bind_eq_some_iff, Option.some.injEq, Prod.mk.injEq, Prod.exists] at h
    obtain ⟨a, g1, h1, b, g2, h2, _, rfl⟩ := h
    have e1 := uGen_count h1
    have e2 := ih h2
    rw [accesses, List.countP_cons]
    rw [accesses] at e2
    omega

theorem checkGen_kinds {lib : CmpLib} {c : RamCfg} {g : RNet} {ops : List MOp} (h3 : 3 ≤ g.ram.step) (h64 : g.ram.step < 2 ^ 64)
    (hm : g.macs.length = g.ram.step) (h : checkGen lib c g = some ops) : ∀ is, MOp.mulN is ∈ ops → is.length = 5 := by
  simp only [checkGen, Option.bind_eq_bind, Option.bind_eq_some_iff, Option.some.injEq, Prod.exists] at h
  obtain ⟨_, chk, _, ps, _, se, hse, rfl⟩ := h
  have hk := setEqOps_kinds (by rw [List.length_range']) hm h3 h64 hse
  intro is his
  simp only [List.mem_append, List.mem_map, List.mem_cons, reduceCtorEq, and_false, exists_const, false_or] at his
  rcases his with his | his
  · obtain ⟨_, _, h⟩ := his
  · exact (hk _ his).2 is rfl

/-! ### from runs to the plain program -/

theorem UOp.same_widths {c : RamCfg} {o o' : UOp} (h : UOp.same o o') (hw : o.Widths c) : o'.Widths c := by
  unfold UOp.same at h
  split at h
  · trivial
  · rw [← h]; exact hw

theorem UOp.same_plain {o o' : UOp} (h : UOp.same o o') (hw : o.Plain) : o'.Plain := by
  unfold UOp.same at h
  split at h
  · trivial
  · rw [← h]; exact hw

theorem UTraceStep.log {c : RamCfg} {u u' : UPlain} {o : UOp} (h : UTraceStep c u o u') : u.log <+: u'.log := by
  cases o <;> simp only [UTraceStep] at h
  case bool => obtain ⟨b, _, rfl⟩ := h; exact List.prefix_refl _
  case read => obtain ⟨_, _, _, _, rfl⟩ := h; exact List.prefix_append _ _
  case write => obtain ⟨_, _, _, _, rfl⟩ := h; exact List.prefix_append _ _
  case access => obtain ⟨_, _, _, _, _, _, _, _, rfl⟩ := h; exact List.prefix_append _ _

theorem UTrace.log {c : RamCfg} {u u' : UPlain} {os : List UOp} (h : UTrace c u os u') : u.log <+: u'.log := by
  induction h with
  | nil => exact List.prefix_refl _
  | cons h1 _ ih => exact h1.log.trans ih

/-- A run whose reads return the latest write, of addresses written before, is the plain program. -/
theorem UTrace.plain {c : RamCfg} {u u' : UPlain} {os : List UOp} (h : UTrace c u os u') (hw : ∀ o ∈ os, o.Widths c) (hp : ∀ o ∈ os, o.Plain)
    (hr : ReadsLastWrite u'.log) (hf : WrittenFirst u'.log) : uplainOps c u os = some u' := by
  unfold uplainOps
  induction h with
  | nil => rfl
  | @cons u u1 u2 o os h1 h2 ih =>
    rw [List.foldlM_cons]
    have : uplainStep c u o = some u1 := by
      have w := hw o (by simp)
      have p := hp o (by simp)
      have hl := h2.log
      cases o with
      | bool o =>
        obtain ⟨b, hb, rfl⟩ := h1
        simp only [uplainStep, hb, Option.map_some]
      | read ix =>
        obtain ⟨ib, v, hib, hv, rfl⟩ := h1
        have hi := bitsNum_lt ib
        have w' : ix.length = c.isz := w
        rw [pick_length hib, w'] at hi
        obtain ⟨t, ht⟩ := hl
        simp only [UPlain.push, List.append_assoc, List.cons_append, List.nil_append] at ht
        have hg : u2.log[u.log.length]? = some ⟨bitsNum ib, false, v⟩ := by
          rw [← ht, List.getElem?_append_right (le_refl _), Nat.sub_self, List.getElem?_cons_zero]
        have htk : u2.log.take u.log.length = u.log := by rw [← ht, List.take_left']; rfl
        obtain ⟨v1, hv1⟩ := hf _ _ hg rfl
        have := hr _ _ hg rfl v1 hv1
        rw [htk] at hv1
        simp only at hv1 this
        subst this
        simp only [uplainStep, hib, Option.bind_eq_bind, Option.bind_some, hv1, Option.getD_some]
        rw [if_pos ⟨by omega, hi⟩]
      | write ix vs =>
        obtain ⟨ib, vb, hib, hvb, rfl⟩ := h1
        have hi := bitsNum_lt ib
        have hv := bitsNum_lt vb
        obtain ⟨w1, w2⟩ : ix.length = c.isz ∧ vs.length = c.vsz := w
        rw [pick_length hib, w1] at hi
        rw [pick_length hvb, w2] at hv
        simp only [uplainStep, hib, hvb, Option.bind_eq_bind, Option.bind_some]
        rw [if_pos ⟨by omega, hi, by omega, hv⟩]
      | access => exact absurd p id
    rw [this]
    exact ih (fun o ho => hw o (by simp [ho])) (fun o ho => hp o (by simp [ho])) hr hf

theorem forall₂_all {α : Type} {R : α → α → Prop} {P : α → Prop} (hR : ∀ a b, R a b → P a → P b) {l l' : List α} (h : List.Forall₂ R l l')
    (hp : ∀ a ∈ l, P a) : ∀ b ∈ l', P b := by
  induction h with
  | nil => intro b hb; cases hb
  | cons h1 _ ih =>
    intro b hb
    rcases List.mem_cons.1 hb with rfl | hb
    · exact hR _ _ h1 (hp _ (by simp))
    · exact ih (fun a ha => hp a (by simp [ha])) b hb

/-! ### the extra bit of a row -/

theorem row_top {c : RamCfg} {n k : Nat} {rows : List RamEnt} {W : List Bool} (h : RowsAt c n rows W) {e : RamEnt} (he : rows[k]? = some e)
    (hw : e.Wide c) (ht : W[n + k * rowW c + (rowW c - 1)]? ≠ some true) : e.idx < 2 ^ c.isz := by
  obtain ⟨_, _, _, hi⟩ := h k e he
  have hd : (rowIdx c n k).drop c.isz = [n + k * rowW c + (rowW c - 1)] := by
    rw [rowIdx, List.drop_range', rowW]
    simp only [Nat.add_sub_cancel_left, Nat.mul_one]
    rw [show List.range' (n + k * (c.vsz + (1 + (c.ssz + (c.isz + 1)))) + c.vsz + 1 + c.ssz + c.isz) 1 =
      [n + k * (c.vsz + (1 + (c.ssz + (c.isz + 1)))) + c.vsz + 1 + c.ssz + c.isz] from rfl]
    congr 1
    omega
  have hs : rowIdx c n k = (rowIdx c n k).take c.isz ++ [n + k * rowW c + (rowW c - 1)] := by rw [← hd, List.take_append_drop]
  have ht1 := pick_take c.isz hi
  obtain ⟨x, hx⟩ : ∃ x, W[n + k * rowW c + (rowW c - 1)]? = some x := by
    cases hW : W[n + k * rowW c + (rowW c - 1)]? with
    | some x => exact ⟨x, rfl⟩
    | none =>
      exfalso
      rw [hs, pick, List.mapM_append] at hi
      simp [hW] at hi
  have h2 : pick W (rowIdx c n k) = some ((bitsOf (c.isz + 1) e.idx).take c.isz ++ [x]) := by
    rw [hs]
    exact pick_append_idx ht1 (by rw [pick_cons, hx]; rfl)
  rw [hi, Option.some.injEq] at h2
  have h3 := congrArg (fun l => l[c.isz]?) h2
  rw [List.getElem?_append_right (by rw [List.length_take, bitsOf_length]; omega), List.length_take, bitsOf_length, min_eq_left (by omega), Nat.sub_self] at h3
  simp only [bitsOf, List.getElem?_map, List.getElem?_range (Nat.lt_succ_self c.isz), Option.map_some, List.getElem?_cons_zero, Option.some.injEq] at h3
  have hx0 : x = false := by
    cases x with
    | false => rfl
    | true => exact absurd hx ht
  rw [hx0] at h3
  by_contra hcon
  have hlt := hw.1
  have : e.idx.testBit c.isz = true := by
    rw [Nat.testBit_eq_decide_div_mod_eq, decide_eq_true_eq]
    have : e.idx / 2 ^ c.isz = 1 := by
      apply Nat.div_eq_of_lt_le
      · omega
      · rw [pow_succ] at hlt; omega
    rw [this]
  rw [this] at h3
  cases h3

end EmpZk
