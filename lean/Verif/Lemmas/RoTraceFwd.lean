/-
Every run of a program with a read-only memory can be brought about by some inputs (for C106).
-/
import Verif.Lemmas.RoTraceBack

namespace EmpZk

section
variable {F : Type} [Field F] [PackField F] [DecidableEq F]

/-- One check with sorted rows of the prover's choice. -/
theorem vsim_rows {lib : CmpLib} (hl : lib.Good) (hno : lib.NoIn) {c : RoCfg} (hc : c.Ok) {mem : List Nat} {g g' : RoNet} {u : VTr} {s0 : MPlain F}
    (h0 : VSim c mem g u s0) (h64 : mem.length + u.since.length < 2 ^ 64) {ops : List MOp} (hg : roCheckGen lib c g = some (ops, g'))
    {rb : List Bool} (hk : rowBitsOf c mem u.since rb) :
    ∃ ops', List.Forall₂ MOp.same ops ops' ∧ ∀ (ch : Nat → F) (s : MPlain F), VSim c mem g u s →
      ∃ s', mplainOps ch s ops' = some s' ∧ VSim c mem g' (u.check rb) s' := by
  have hlist := h0.list
  obtain ⟨rows, hwide, hperm, rfl⟩ := hk
  have hrl : rows.length = g.st.list.length := by
    have := hperm.length_eq
    rw [List.length_map, List.length_map, List.length_append, roRows_length] at this
    omega
  obtain ⟨rows0, rops, tail, q1, q2, rfl, q4, q5, q6⟩ := vsim_check (F := F) hl hno hc h0.macsLen (by omega) hg
  obtain ⟨rops', r1, r2⟩ := roRowsOps_same (rows' := rows) rows0 q1 (by omega)
  refine ⟨rops' ++ tail, List.rel_append (R := MOp.same) r2 (same_refls _), fun ch s h => ?_⟩
  obtain ⟨rops2, t, t1, t2⟩ := q6 mem u s h rows hrl hwide
  rw [r1, Option.some.injEq] at t1
  subst t1
  obtain ⟨fs', t3, t4⟩ := t2 ch
  have hpw : (rows.map (fun e => (wordF (roPacked c e) : F))).Perm ((roRows 0 mem ++ u.since).map (fun e => wordF (roPacked c e))) := by
    have := hperm.map (wordF (F := F))
    rwa [List.map_map, List.map_map] at this
  have heq := prodAt_perm (ch g.nr) hpw
  rw [if_pos heq] at t3
  exact ⟨_, t3, t4 heq⟩

/-- One call of a run, forwards. -/
theorem vsim_fwd {lib : CmpLib} (hl : lib.Good) (hno : lib.NoIn) {c : RoCfg} (hc : c.Ok) {mem : List Nat}
    (hd60 : mem.length < 2 ^ 60) {g g' : RoNet} {u u' : VTr} {s0 : MPlain F} (h0 : VSim c mem g u s0) (hlt : u.since.length < 8 * mem.length)
    {o o' : VOp} (hw : o.Widths c) {ops : List MOp} (hgen : vGen lib c g o = some (ops, g')) (hs : VOp.same o o')
    (ht : VTraceStep c mem.length (rowBitsOf c mem) u o' u') :
    u'.since.length < 8 * mem.length ∧ ∃ ops', List.Forall₂ MOp.same ops ops' ∧ ∀ (ch : Nat → F) (s : MPlain F), VSim c mem g u s →
      ∃ s', mplainOps ch s ops' = some s' ∧ VSim c mem g' u' s' := by
  cases o with
  | bool o =>
    obtain ⟨o', rfl⟩ : ∃ x, o' = .bool x := by
      cases o' with
      | bool x => exact ⟨x, rfl⟩
      | read _ => cases hs
      | check => cases hs
    simp only [vGen, Option.bind_eq_bind, Option.bind_eq_some_iff, Option.some.injEq, Prod.mk.injEq, Prod.exists] at hgen
    obtain ⟨o1, g1, h1, rfl, rfl⟩ := hgen
    obtain ⟨b, hb, rfl⟩ := ht
    obtain ⟨o1', _, k1, k2, _, _⟩ := vsim_bool h0 h1 hs hb
    refine ⟨hlt, [MOp.bool o1'], .cons k2 .nil, fun ch s h => ?_⟩
    obtain ⟨o2, b', l1, _, l3, l4⟩ := vsim_bool h h1 hs hb
    rw [k1, Option.some.injEq] at l1
    subst l1
    refine ⟨_, ?_, l4⟩
    show mplainOps ch s ([o1'].map MOp.bool) = _
    rw [mplain_bools]
    simp only [List.foldlM_cons, List.foldlM_nil, l3, Option.bind_eq_bind, Option.bind_some]
    rfl
  | read ix =>
    have he : o' = .read ix := by
      cases o' with
      | bool x => cases hs
      | read _ => cases hs; rfl
      | check => cases hs
    subst he
    simp only [vGen, Option.bind_eq_bind, Option.bind_eq_some_iff, Prod.exists] at hgen
    obtain ⟨a, g1, h1, hgen⟩ := hgen
    obtain ⟨v0, ws, rfl, hpush⟩ := vsim_push (F := F) hc hw h1
    obtain ⟨ib, v, hib, hv, ht⟩ := ht
    obtain ⟨ib', hib', hpush0⟩ := hpush mem u s0 h0
    rw [hib, Option.some.injEq] at hib'
    subst hib'
    obtain ⟨s1, _, m2⟩ := hpush0 v hv
    have hst := m2.step
    have hme := m2.mems
    have hsl : (u.push c ⟨bitsNum ib, v⟩).since.length = u.since.length + 1 := by simp [VTr.push]
    have hpre : List.Forall₂ MOp.same (inInt c.vsz v0 ++ [MOp.pack ws]) (inInt c.vsz v ++ [MOp.pack ws]) :=
      List.rel_append (R := MOp.same) (inInt_same _ _ _) (same_refls _)
    have hrun : ∀ (ch : Nat → F) (s : MPlain F), VSim c mem g u s →
        ∃ s', mplainOps ch s (inInt c.vsz v ++ [MOp.pack ws]) = some s' ∧ VSim c mem g1 (u.push c ⟨bitsNum ib, v⟩) s' := by
      intro ch s h
      obtain ⟨ib2, hib2, hp⟩ := hpush mem u s h
      rw [hib, Option.some.injEq] at hib2
      subst hib2
      obtain ⟨s', p1, p2⟩ := hp v hv
      exact ⟨s', p1 ch, p2⟩
    split at hgen
    · rename_i h8
      simp only [Option.bind_eq_some_iff, Option.some.injEq, Prod.mk.injEq, Prod.exists] at hgen
      obtain ⟨b, g2, h2, rfl, rfl⟩ := hgen
      obtain ⟨hne, _⟩ | ⟨_, rb, hk, rfl⟩ := ht
      · omega
      obtain ⟨b', q1, q2⟩ := vsim_rows hl hno hc m2 (by omega) h2 hk
      refine ⟨?_, _, List.rel_append (R := MOp.same) hpre q1, fun ch s h => ?_⟩
      · simp only [VTr.check, List.length_nil]; omega
      · obtain ⟨s1, p1, p2⟩ := hrun ch s h
        obtain ⟨s2, p3, p4⟩ := q2 ch s1 p2
        exact ⟨s2, by rw [mplainOps_append, p1, Option.bind_some, p3], p4⟩
    · rename_i h8
      simp only [Option.some.injEq, Prod.mk.injEq] at hgen
      obtain ⟨rfl, rfl⟩ := hgen
      obtain ⟨_, rfl⟩ | ⟨heq, _⟩ := ht
      · exact ⟨by omega, _, hpre, hrun⟩
      · omega
  | check =>
    have he : o' = .check := by
      cases o' with
      | bool x => cases hs
      | read _ => cases hs
      | check => rfl
    subst he
    obtain ⟨_, rb, hk, rfl⟩ := ht
    obtain ⟨b', q1, q2⟩ := vsim_rows hl hno hc h0 (by omega) hgen hk
    refine ⟨?_, b', q1, q2⟩
    simp only [VTr.check, List.length_nil]; omega

theorem vsim_fwds {lib : CmpLib} (hl : lib.Good) (hno : lib.NoIn) {c : RoCfg} (hc : c.Ok) {mem : List Nat} (hd60 : mem.length < 2 ^ 60)
    (us : List VOp) : ∀ {us' : List VOp} {g g' : RoNet} {u u' : VTr} {s0 : MPlain F} {ops : List MOp}, VSim c mem g u s0 →
    u.since.length < 8 * mem.length → (∀ o ∈ us, o.Widths c) → vGens lib c g us = some (ops, g') → List.Forall₂ VOp.same us us' →
    VTrace c mem.length (rowBitsOf c mem) u us' u' →
    ∃ ops', List.Forall₂ MOp.same ops ops' ∧ ∀ (ch : Nat → F) (s : MPlain F), VSim c mem g u s →
      ∃ s', mplainOps ch s ops' = some s' ∧ VSim c mem g' u' s' := by
  induction us with
  | nil =>
    intro us' g g' u u' s0 ops h _ _ hg hs ht
    cases hs
    cases ht
    simp only [vGens, Option.some.injEq, Prod.mk.injEq] at hg
    obtain ⟨rfl, rfl⟩ := hg
    exact ⟨[], .nil, fun ch s h => ⟨s, rfl, h⟩⟩
  | cons o us ih =>
    intro us' g g' u u' s0 ops h hlt hw hg hs ht
    simp only [vGens, Option.bind_eq_bind, Option.bind_eq_some_iff, Option.some.injEq, Prod.mk.injEq, Prod.exists] at hg
    obtain ⟨a, g1, h1, b, g2, h2, rfl, rfl⟩ := hg
    cases hs with
    | cons hs1 hs2 =>
      cases ht with
      | cons ht1 ht2 =>
        obtain ⟨k1, a', k2, k3⟩ := vsim_fwd hl hno hc hd60 h hlt (hw o (by simp)) h1 hs1 ht1
        obtain ⟨s1, _, h1⟩ := k3 (fun _ => 0) s0 h
        obtain ⟨b', l1, l2⟩ := ih h1 k1 (fun o ho => hw o (by simp [ho])) h2 hs2 ht2
        refine ⟨a' ++ b', List.rel_append (R := MOp.same) k2 l1, fun ch s h => ?_⟩
        obtain ⟨s2, p1, p2⟩ := k3 ch s h
        obtain ⟨s3, p3, p4⟩ := l2 ch s2 p2
        exact ⟨s3, by rw [mplainOps_append, p1, Option.bind_some, p3], p4⟩

omit [DecidableEq F] in
/-- The instructions after the memory, forwards. -/
theorem vsim_post {c : RoCfg} {mem : List Nat} (post : List BOp) : ∀ {g : RoNet} {u : VTr} {s : MPlain F} {post1 post' : List BOp} {b : Plain},
    VSim c mem g u s → vBools g post = some post1 → List.Forall₂ BOp.same post post' → post'.foldlM plainStep u.bp = some b →
    ∃ post1', List.Forall₂ BOp.same post1 post1' ∧ ∀ s' : MPlain F, VSim c mem g u s' →
      ∃ b', post1'.foldlM plainStep s'.bp = some b' ∧ b'.outs = b.outs ∧ b'.claims = b.claims := by
  induction post with
  | nil =>
    intro g u s post1 post' b h hg hs hr
    simp only [vBools, Option.some.injEq] at hg
    subst hg
    cases hs
    rw [List.foldlM_nil] at hr
    cases hr
    exact ⟨[], .nil, fun s' h => ⟨s'.bp, rfl, h.outs, h.claims⟩⟩
  | cons o post ih =>
    intro g u s post1 post' b h hg hs hr
    simp only [vBools, Option.bind_eq_bind, Option.bind_eq_some_iff, Option.some.injEq, Prod.exists] at hg
    obtain ⟨o1, g1, h1, p1, h2, rfl⟩ := hg
    cases hs with
    | @cons _ o' _ post2 hs1 hs2 =>
      rw [List.foldlM_cons, Option.bind_eq_bind, Option.bind_eq_some_iff] at hr
      obtain ⟨b1, hb1, hr⟩ := hr
      obtain ⟨o1', _, k1, k2, _, k4⟩ := vsim_bool h h1 hs1 hb1
      obtain ⟨post1', l1, l2⟩ := ih k4 h2 hs2 hr
      refine ⟨o1' :: post1', .cons k2 l1, fun s' h' => ?_⟩
      obtain ⟨o2, b', m1, _, m3, m4⟩ := vsim_bool h' h1 hs1 hb1
      rw [k1, Option.some.injEq] at m1
      subst m1
      obtain ⟨b2, n1, n2⟩ := l2 _ m4
      exact ⟨b2, by rw [List.foldlM_cons, m3]; exact n1, n2⟩

end
end EmpZk
