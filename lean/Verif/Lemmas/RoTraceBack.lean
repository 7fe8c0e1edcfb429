/-
Instructions of the generator with other inputs are a run of a program with a read-only memory, call by call, with what its checks show (for C106).
-/
import Verif.Lemmas.RoTraceRun
import Verif.Props.MixSound
import Verif.Props.RoNet
import Verif.Props.RoRam

namespace EmpZk

section
variable {F : Type} [Field F] [PackField F] [DecidableEq F]

/-- What one check shows on plain values, for any values returned by the memory and any sorted rows. -/
theorem ro_verdict {lib : CmpLib} (hl : lib.Good) (hno : lib.NoIn) {c : RoCfg} (hc : c.isz ≤ 64 ∧ c.vsz ≤ 64) {mem : List Nat}
    (hd : mem.length ≤ 2 ^ c.isz) (hv : ∀ v ∈ mem, v < 2 ^ c.vsz) {g g' : RoNet} {u : VTr} {s s' : MPlain F} (h : VSim c mem g u s)
    (h64 : mem.length + u.since.length < 2 ^ 64) {ops ops' : List MOp} (hg : roCheckGen lib c g = some (ops, g'))
    (hs : List.Forall₂ MOp.same ops ops') {ch : Nat → F} (hrun : mplainOps ch s ops' = some s') :
    ∃ rb, anyBits mem.length u.since rb ∧ 3 ≤ mem.length + u.since.length ∧ VSim c mem g' (u.check rb) s' ∧
      ∀ ws fw rs, s'.bp.wires <+: ws → s'.fs <+: fw → s'.rs <+: rs → (∀ x ∈ rb, x = true) →
        ExtraBit c ws g ∨ BadPoint fw rs g ∨ ReadsRight mem u.since := by
  have hlist := h.list
  obtain ⟨rows0, rops, tail, q1, q2, rfl, q4, q5, q6⟩ := vsim_check (F := F) hl hno hc h.macsLen (by omega) hg
  obtain ⟨a, b, rfl, s1, s2⟩ := same_split hs
  rw [same_eq s2 (fun o ho => (q5 o ho).1)] at hrun
  obtain ⟨rows, r1, r2, r3⟩ := roRows_same rows0 q1 s1
  obtain ⟨rops', t, t1, t2⟩ := q6 mem u s h rows (by omega) r2
  rw [r3, Option.some.injEq] at t1
  subst t1
  obtain ⟨fs', t3, t4⟩ := t2 ch
  rw [t3] at hrun
  split at hrun
  case isFalse => cases hrun
  case isTrue hprod =>
  rw [Option.some.injEq] at hrun
  have hsim := t4 hprod
  rw [hrun] at hsim
  refine ⟨roBits c rows, ?_, by omega, hsim, ?_⟩
  · rw [anyBits, roBits_length]; omega
  intro ws fw rs hws hfw hrs hall
  subst hrun
  simp only at hws hfw hrs
  have hnf := h.nf
  have hrl : rows.length = g.st.list.length := by omega
  have hin : ∀ l : List RoEnt, (l.map (fun e => (wordF (roPacked c e) : F))) = (l.map (roPacked c)).map wordF := by
    intro l; rw [List.map_map]; rfl
  obtain ⟨y, rfl⟩ := hfw
  have hS : ((s.fs ++ (rows.map (fun e => (wordF (roPacked c e) : F)) ++ fs') ++ y).drop g.nf).take g.st.list.length =
      rows.map (fun e => wordF (roPacked c e)) := by
    rw [List.append_assoc, List.drop_left' hnf, List.append_assoc, List.take_left' (by rw [List.length_map, hrl])]
  by_cases hx : ExtraBit c ws g
  · exact .inl hx
  by_cases hperm : (rows.map (fun e => (wordF (roPacked c e) : F))).Perm ((roRows 0 mem ++ u.since).map (fun e => wordF (roPacked c e)))
  · refine .inr (.inr ?_)
    have hlt : ∀ l : List RoEnt, ∀ n ∈ l.map (roPacked c), n < 2 ^ 128 := by
      intro l n hn
      obtain ⟨e, _, rfl⟩ := List.mem_map.1 hn
      exact roPacked_lt hc e
    have htop : ∀ e ∈ rows, e.idx < 2 ^ c.isz ∧ e.val < 2 ^ c.vsz := by
      intro e he
      obtain ⟨k, hk⟩ := List.mem_iff_getElem?.1 he
      have hkl := (List.getElem?_eq_some_iff.1 hk).1
      obtain ⟨z, hz⟩ := hws
      have hat : RoRowsAt c g.bits.length rows ws := by
        rw [← hz, ← List.append_assoc, List.append_assoc, h.len]
        exact (roRowsAt_flatMap c _ rows).app _
      exact ⟨ro_top hat hk (r2 e he) (fun h => hx ⟨k, by omega, h⟩), (r2 e he).2⟩
    rw [hin, hin] at hperm
    have hcond : roCond c rows = true := by
      rw [← roBits_all, List.all_eq_true]
      exact hall
    exact (C51_partial c hc mem hd hv u.since rows h.fits htop hcond (perm_wordF (hlt rows) (hlt _) hperm)).1
  · refine .inr (.inl ⟨ch g.nr, (roRows 0 mem ++ u.since).map (fun e => wordF (roPacked c e)), ?_, ?_, ?_, ?_⟩)
    · obtain ⟨z, rfl⟩ := hrs
      rw [List.append_assoc, List.getElem?_append_right (by rw [h.nr]), h.nr, Nat.sub_self]
      rfl
    · exact pick_append _ (pick_append _ h.macs)
    · rw [hS]; exact hprod
    · rw [hS]; exact hperm

/-! ### call by call -/

theorem check_true {u : VTr} {rb outs : List Bool} (ho : (u.check rb).bp.outs <+: outs) (hm : ∀ i ∈ (u.check rb).marks, outs[i]? = some true) :
    ∀ x ∈ rb, x = true := by
  intro x hx
  obtain ⟨j, hj⟩ := List.mem_iff_getElem?.1 hx
  have hjl := (List.getElem?_eq_some_iff.1 hj).1
  have h1 := hm (u.bp.outs.length + j) (by
    simp only [VTr.check, List.mem_append, List.mem_range'_1]
    exact .inr ⟨by omega, by omega⟩)
  obtain ⟨y, rfl⟩ := ho
  simp only [VTr.check] at h1
  rw [List.append_assoc, List.getElem?_append_right (by omega), Nat.add_sub_cancel_left, List.getElem?_append_left hjl, hj, Option.some.injEq] at h1
  exact h1

/-- One call: the replaced instructions are a call of the program. -/
theorem vsim_back {lib : CmpLib} (hl : lib.Good) (hno : lib.NoIn) {c : RoCfg} (hc : c.isz ≤ 64 ∧ c.vsz ≤ 64) {mem : List Nat}
    (hd : mem.length ≤ 2 ^ c.isz) (hd60 : mem.length < 2 ^ 60) (hv : ∀ v ∈ mem, v < 2 ^ c.vsz) {g g' : RoNet} {u : VTr} {s s' : MPlain F}
    (h : VSim c mem g u s) (hlt : u.since.length < 8 * mem.length) {o : VOp} (hw : o.Widths c) {ops ops' : List MOp}
    (hgen : vGen lib c g o = some (ops, g')) (hs : List.Forall₂ MOp.same ops ops') {ch : Nat → F} (hrun : mplainOps ch s ops' = some s') :
    ∃ o' u', VOp.same o o' ∧ VTraceStep c mem.length (anyBits mem.length) u o' u' ∧ VSim c mem g' u' s' ∧ u'.since.length < 8 * mem.length ∧
      ∀ ws fw rs outs, s'.bp.wires <+: ws → s'.fs <+: fw → s'.rs <+: rs → s'.bp.outs <+: outs → (∀ i ∈ u'.marks, outs[i]? = some true) →
        (∃ site, roSite c g o = some site ∧ (ExtraBit c ws site ∨ BadPoint fw rs site)) ∨ (ReadsRight mem u.done → ReadsRight mem u'.done) := by
  cases o with
  | bool o =>
    simp only [vGen, Option.bind_eq_bind, Option.bind_eq_some_iff, Option.some.injEq, Prod.mk.injEq, Prod.exists] at hgen
    obtain ⟨o1, g1, h1, rfl, rfl⟩ := hgen
    obtain ⟨k, rfl, hk⟩ := same_bools (l := [o1]) hs
    obtain ⟨o1', rfl⟩ : ∃ o', k = [o'] := by
      cases hk with
      | cons _ h2 => cases h2; exact ⟨_, rfl⟩
    have hoo : BOp.same o1 o1' := by cases hk with | cons h1 _ => exact h1
    rw [mplain_bools] at hrun
    simp only [List.foldlM_cons, List.foldlM_nil, Option.bind_eq_bind, Option.map_eq_some_iff, Option.bind_eq_some_iff] at hrun
    obtain ⟨b, ⟨b', hb, hb2⟩, rfl⟩ := hrun
    have hbb : b' = b := by simpa using hb2
    subst hbb
    have hren : o.rename g.uw = some o1 := by
      simp only [vBool, Option.bind_eq_bind, Option.bind_eq_some_iff, Option.some.injEq, Prod.mk.injEq] at h1
      obtain ⟨_, h1, _, _, rfl, _⟩ := h1
      exact h1
    obtain ⟨o', k1, k2⟩ := rename_back hren hoo
    obtain ⟨ub, hub⟩ := rename_defined (pick_length h.uw).symm k2
    obtain ⟨o2, b2, l1, _, l3, l4⟩ := vsim_bool h h1 k1 hub
    rw [k2, Option.some.injEq] at l1
    subst l1
    rw [hb, Option.some.injEq] at l3
    subst l3
    exact ⟨.bool o', { u with bp := ub }, k1, ⟨ub, hub, rfl⟩, l4, hlt, fun ws fw rs outs _ _ _ _ _ => .inr id⟩
  | read ix =>
    simp only [vGen, Option.bind_eq_bind, Option.bind_eq_some_iff, Prod.exists] at hgen
    obtain ⟨a, g1, h1, hgen⟩ := hgen
    obtain ⟨v0, ws, rfl, hpush⟩ := vsim_push (F := F) hc hw h1
    obtain ⟨ib, hib, hpush⟩ := hpush mem u s h
    have hsite : roSite c g (.read ix) = if g1.st.step = g1.st.mem.length * 8 then some g1 else none := by
      simp only [roSite, h1, Option.bind_eq_bind, Option.bind_some]
    split at hgen
    · rename_i h8
      simp only [Option.bind_eq_some_iff, Option.some.injEq, Prod.mk.injEq, Prod.exists] at hgen
      obtain ⟨b, g2, h2, rfl, rfl⟩ := hgen
      obtain ⟨a', b', rfl, s1, s2⟩ := same_split hs
      obtain ⟨a1, a2, rfl, s3, s4⟩ := same_split s1
      obtain ⟨v, hvv, rfl⟩ := same_inInt s3
      rw [same_eq s4 (by simp [MOp.noIn])] at hrun
      obtain ⟨sm, m1, m2⟩ := hpush v hvv
      rw [mplainOps_append, m1, Option.bind_some] at hrun
      have hst := m2.step
      have hme := m2.mems
      have hsl : (u.push c ⟨bitsNum ib, v⟩).since.length = u.since.length + 1 := by simp [VTr.push]
      obtain ⟨rb, r1, r2, r3, r4⟩ := ro_verdict hl hno hc hd hv m2 (by omega) h2 s2 hrun
      refine ⟨.read ix, (u.push c ⟨bitsNum ib, v⟩).check rb, rfl, ⟨ib, v, hib, hvv, .inr ⟨by omega, rb, r1, rfl⟩⟩, r3, ?_, ?_⟩
      · simp only [VTr.check, List.length_nil]; omega
      · intro ws fw rs outs p1 p2 p3 p4 p5
        rw [r3.outs] at p4
        rcases r4 ws fw rs p1 p2 p3 (check_true p4 p5) with q | q | q
        · exact .inl ⟨g1, by rw [hsite, if_pos h8], .inl q⟩
        · exact .inl ⟨g1, by rw [hsite, if_pos h8], .inr q⟩
        · refine .inr (fun hr e he => ?_)
          rcases List.mem_append.1 he with he | he
          · exact hr e he
          · exact q e he
    · rename_i h8
      simp only [Option.some.injEq, Prod.mk.injEq] at hgen
      obtain ⟨rfl, rfl⟩ := hgen
      obtain ⟨a1, a2, rfl, s3, s4⟩ := same_split hs
      obtain ⟨v, hvv, rfl⟩ := same_inInt s3
      rw [same_eq s4 (by simp [MOp.noIn])] at hrun
      obtain ⟨sm, m1, m2⟩ := hpush v hvv
      rw [m1, Option.some.injEq] at hrun
      subst hrun
      have hst := m2.step
      have hme := m2.mems
      have hsl : (u.push c ⟨bitsNum ib, v⟩).since.length = u.since.length + 1 := by simp [VTr.push]
      exact ⟨.read ix, u.push c ⟨bitsNum ib, v⟩, rfl, ⟨ib, v, hib, hvv, .inl ⟨by omega, rfl⟩⟩, m2, by omega,
        fun ws fw rs outs _ _ _ _ _ => .inr id⟩
  | check =>
    obtain ⟨rb, r1, r2, r3, r4⟩ := ro_verdict hl hno hc hd hv h (by omega) hgen hs hrun
    refine ⟨.check, u.check rb, rfl, ⟨r2, rb, r1, rfl⟩, r3, ?_, ?_⟩
    · simp only [VTr.check, List.length_nil]; omega
    · intro ws fw rs outs p1 p2 p3 p4 p5
      rw [r3.outs] at p4
      rcases r4 ws fw rs p1 p2 p3 (check_true p4 p5) with q | q | q
      · exact .inl ⟨g, rfl, .inl q⟩
      · exact .inl ⟨g, rfl, .inr q⟩
      · refine .inr (fun hr e he => ?_)
        rcases List.mem_append.1 he with he | he
        · exact hr e he
        · exact q e he

theorem VTraceStep.grows {c : RoCfg} {n : Nat} {K : List RoEnt → List Bool → Prop} {u u' : VTr} {o : VOp} (h : VTraceStep c n K u o u') :
    u.marks <+: u'.marks ∧ u.bp.outs <+: u'.bp.outs ∧ (u.done ++ u.since) <+: (u'.done ++ u'.since) := by
  cases o with
  | bool o =>
    obtain ⟨b, hb, rfl⟩ := h
    exact ⟨List.prefix_refl _, (plainRun_grows [o] (by rw [List.foldlM_cons, hb]; rfl)).1, List.prefix_refl _⟩
  | read ix =>
    obtain ⟨ib, v, _, _, ⟨_, rfl⟩ | ⟨_, rb, _, rfl⟩⟩ := h
    · exact ⟨List.prefix_refl _, List.prefix_refl _, by simp [VTr.push]⟩
    · exact ⟨by simp [VTr.push, VTr.check], by simp [VTr.push, VTr.check], by simp [VTr.push, VTr.check]⟩
  | check =>
    obtain ⟨_, rb, _, rfl⟩ := h
    exact ⟨by simp [VTr.check], by simp [VTr.check], by simp [VTr.check]⟩

theorem VTrace.grows {c : RoCfg} {n : Nat} {K : List RoEnt → List Bool → Prop} {u u' : VTr} {os : List VOp} (h : VTrace c n K u os u') :
    u.marks <+: u'.marks ∧ u.bp.outs <+: u'.bp.outs ∧ (u.done ++ u.since) <+: (u'.done ++ u'.since) := by
  induction h with
  | nil => exact ⟨List.prefix_refl _, List.prefix_refl _, List.prefix_refl _⟩
  | cons h1 _ ih => exact ⟨h1.grows.1.trans ih.1, h1.grows.2.1.trans ih.2.1, h1.grows.2.2.trans ih.2.2⟩

theorem vsim_backs {lib : CmpLib} (hl : lib.Good) (hno : lib.NoIn) {c : RoCfg} (hc : c.isz ≤ 64 ∧ c.vsz ≤ 64) {mem : List Nat}
    (hd : mem.length ≤ 2 ^ c.isz) (hd60 : mem.length < 2 ^ 60) (hv : ∀ v ∈ mem, v < 2 ^ c.vsz) (us : List VOp) : ∀ {g g' : RoNet} {u : VTr}
    {s s' : MPlain F} {ops ops' : List MOp}, VSim c mem g u s → u.since.length < 8 * mem.length → (∀ o ∈ us, o.Widths c) →
    vGens lib c g us = some (ops, g') → List.Forall₂ MOp.same ops ops' → ∀ {ch : Nat → F}, mplainOps ch s ops' = some s' →
    ∃ us' u', List.Forall₂ VOp.same us us' ∧ VTrace c mem.length (anyBits mem.length) u us' u' ∧ VSim c mem g' u' s' ∧
      ∀ ws fw rs outs, s'.bp.wires <+: ws → s'.fs <+: fw → s'.rs <+: rs → s'.bp.outs <+: outs → (∀ i ∈ u'.marks, outs[i]? = some true) →
        (∃ site ∈ roSites lib c g us, ExtraBit c ws site ∨ BadPoint fw rs site) ∨ (ReadsRight mem u.done → ReadsRight mem u'.done) := by
  induction us with
  | nil =>
    intro g g' u s s' ops ops' h _ _ hg hs ch hrun
    simp only [vGens, Option.some.injEq, Prod.mk.injEq] at hg
    obtain ⟨rfl, rfl⟩ := hg
    cases hs
    simp only [mplainOps, List.foldlM_nil] at hrun
    cases hrun
    exact ⟨[], u, .nil, .nil u, h, fun _ _ _ _ _ _ _ _ _ => .inr id⟩
  | cons o us ih =>
    intro g g' u s s' ops ops' h hlt hw hg hs ch hrun
    simp only [vGens, Option.bind_eq_bind, Option.bind_eq_some_iff, Option.some.injEq, Prod.mk.injEq, Prod.exists] at hg
    obtain ⟨a, g1, h1, b, g2, h2, rfl, rfl⟩ := hg
    obtain ⟨a', b', rfl, s1, s2⟩ := same_split hs
    rw [mplainOps_append, Option.bind_eq_some_iff] at hrun
    obtain ⟨sm, r1, r2⟩ := hrun
    obtain ⟨o', u1, k1, k2, k3, k4, k5⟩ := vsim_back hl hno hc hd hd60 hv h hlt (hw o (by simp)) h1 s1 r1
    obtain ⟨us', u2, l1, l2, l3, l4⟩ := ih k3 k4 (fun o ho => hw o (by simp [ho])) h2 s2 r2
    refine ⟨o' :: us', u2, .cons k1 l1, .cons k2 l2, l3, fun ws fw rs outs p1 p2 p3 p4 p5 => ?_⟩
    obtain ⟨w1, w2, w3, w4⟩ := mplainOps_grow ch _ r2
    have hsites : roSites lib c g (o :: us) = (roSite c g o).toList ++ roSites lib c g1 us := by simp only [roSites, h1]
    rcases k5 ws fw rs outs (w1.trans p1) (w3.trans p2) (w4.trans p3) (w2.trans p4) (fun i hi => p5 i (l2.grows.1.subset hi)) with ⟨site, q1, q2⟩ | q
    · exact .inl ⟨site, by rw [hsites, q1]; simp, q2⟩
    · rcases l4 ws fw rs outs p1 p2 p3 p4 p5 with ⟨site, q1, q2⟩ | q'
      · exact .inl ⟨site, by rw [hsites]; exact List.mem_append_right _ q1, q2⟩
      · exact .inr (fun hr => q' (q hr))

/-- A run in which all reads were checked and are right is the plain program. -/
theorem VTrace.plain {c : RoCfg} {mem : List Nat} {u u' : VTr} {os : List VOp} (h : VTrace c mem.length (anyBits mem.length) u os u')
    (hw : ∀ o ∈ os, o.Widths c) {outs : List Bool} (ho : u'.bp.outs <+: outs) (hm : ∀ i ∈ u'.marks, outs[i]? = some true)
    (hs : u'.since = []) (hr : ReadsRight mem u'.done) (hi : ∀ e ∈ u'.done, e.idx < mem.length) :
    vplainOps c mem ⟨u.bp, u.since.length⟩ os = some ⟨u'.bp, u'.since.length⟩ := by
  unfold vplainOps
  induction h with
  | nil => rfl
  | @cons u u1 u2 o os h1 h2 ih =>
    rw [List.foldlM_cons]
    have hg := h2.grows
    have ho1 : u1.bp.outs <+: outs := hg.2.1.trans ho
    have hm1 : ∀ i ∈ u1.marks, outs[i]? = some true := fun i hi => hm i (hg.1.subset hi)
    have hd1 : ∀ e ∈ u1.done ++ u1.since, e ∈ u2.done := by
      intro e he
      have := hg.2.2.subset he
      rwa [hs, List.append_nil] at this
    have : vplainStep c mem ⟨u.bp, u.since.length⟩ o = some ⟨u1.bp, u1.since.length⟩ := by
      cases o with
      | bool o =>
        obtain ⟨b, hb, rfl⟩ := h1
        simp only [vplainStep, hb, Option.map_some]
      | read ix =>
        have hwx : ix.length = c.isz := hw (.read ix) (by simp)
        have key : ∀ (ib : List Bool) (v : Nat), pick u.bp.wires ix = some ib → (⟨bitsNum ib, v⟩ : RoEnt) ∈ u1.done ++ u1.since →
            mem[bitsNum ib]? = some v := by
          intro ib v _ he
          have h1 := hd1 _ he
          have h2 := hi _ h1
          simp only at h2
          have h3 := hr _ h1 _ (List.getElem?_eq_getElem h2)
          simp only at h3
          rw [h3]
          exact List.getElem?_eq_getElem h2
        obtain ⟨ib, v, hib, hv, ⟨hne, rfl⟩ | ⟨heq, rb, hrb, rfl⟩⟩ := h1
        · simp only [vplainStep, hib, key ib v hib (by simp [VTr.push]), Option.bind_eq_bind, Option.bind_some]
          rw [if_neg (by omega), if_neg hne]
          simp [VTr.push]
        · simp only [vplainStep, hib, key ib v hib (by simp [VTr.push, VTr.check]), Option.bind_eq_bind, Option.bind_some]
          rw [if_neg (by omega), if_pos heq]
          have ht := check_true ho1 hm1
          have hrl : rb.length = mem.length + (u.since.length + 1) - 1 := by
            rw [anyBits, List.length_append, List.length_singleton] at hrb; omega
          simp only [VTr.push, VTr.check, VPlain.checked, List.length_nil]
          rw [← hrl, List.eq_replicate_of_mem ht, List.length_replicate]
      | check =>
        obtain ⟨h3, rb, hrb, rfl⟩ := h1
        simp only [vplainStep]
        rw [if_pos h3]
        have ht := check_true ho1 hm1
        have hrl : rb.length = mem.length + u.since.length - 1 := by
          rw [anyBits] at hrb; omega
        simp only [VTr.check, VPlain.checked, List.length_nil]
        rw [← hrl, List.eq_replicate_of_mem ht, List.length_replicate]
    rw [this]
    exact ih (fun o ho => hw o (by simp [ho])) ho hm hs hr hi

end
end EmpZk
