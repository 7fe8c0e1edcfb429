/-
Programs with a read-only memory when input bits are replaced: `init`, the instructions afterwards, and what the generator keeps true.
-/
import Verif.Lemmas.RoTraceSim

namespace EmpZk

/-! ### the generator -/

/-- What holds of the generator's state for `n` elements. -/
structure GInv (n : Nat) (g : RoNet) : Prop where
  macs : g.macs.length = g.st.list.length
  list : g.st.list.length = n + g.st.step
  mems : g.st.mem.length = n
  le : g.st.step ≤ 8 * n

theorem vBool_inv {n : Nat} {g g' : RoNet} {o o1 : BOp} (h : GInv n g) (hg : vBool g o = some (o1, g')) : GInv n g' ∧ g'.st = g.st := by
  simp only [vBool, Option.bind_eq_bind, Option.bind_eq_some_iff, Option.some.injEq, Prod.mk.injEq] at hg
  obtain ⟨_, _, p, _, rfl, rfl⟩ := hg
  exact ⟨⟨h.macs, h.list, h.mems, h.le⟩, rfl⟩

theorem vPush_inv {c : RoCfg} {n : Nat} {g g' : RoNet} {ix : List Nat} {ops : List MOp} (h : GInv n g) (hlt : g.st.step < 8 * n)
    (hg : vPush c g ix = some (ops, g')) : GInv n g' ∧ ∀ o ∈ ops, ∀ is, o ≠ .mulN is := by
  simp only [vPush, Option.bind_eq_bind, Option.bind_eq_some_iff, Option.some.injEq, Prod.mk.injEq, Prod.exists] at hg
  obtain ⟨iw, _, ib0, _, st, v0, hst, ws, _, rfl, rfl⟩ := hg
  simp only [roPush, Option.bind_eq_bind, Option.bind_eq_some_iff, Option.some.injEq, Prod.mk.injEq] at hst
  obtain ⟨x, _, w, _, rfl, _⟩ := hst
  refine ⟨⟨?_, ?_, h.mems, ?_⟩, ?_⟩
  · simp [h.macs]
  · simp only [List.length_append, List.length_singleton, h.list]; omega
  · simp only; omega
  · intro o ho is
    rw [List.mem_append, List.mem_singleton] at ho
    rcases ho with ho | rfl
    · rw [inInt, List.mem_map] at ho
      obtain ⟨b, _, rfl⟩ := ho
      intro h; cases h
    · intro h; cases h

theorem roRowsOps_noMul {c : RoCfg} {n : Nat} (rows : List RoEnt) : ∀ {k : Nat} {ops : List MOp}, roRowsOps c n k rows = some ops →
    ∀ o ∈ ops, ∀ is, o ≠ .mulN is := by
  induction rows with
  | nil => intro k ops h; rw [roRowsOps, Option.some.injEq] at h; subst h; intro o ho; cases ho
  | cons e rows ih =>
    intro k ops h
    simp only [roRowsOps, Option.bind_eq_bind, Option.bind_eq_some_iff, Option.some.injEq] at h
    obtain ⟨ws, _, r, hr, rfl⟩ := h
    intro o ho is
    rw [List.mem_append, List.mem_append, List.mem_cons] at ho
    rcases ho with ho | ho | rfl | ho
    · rw [inInt, List.mem_map] at ho
      obtain ⟨b, _, rfl⟩ := ho
      intro h; cases h
    · rw [inInt, List.mem_map] at ho
      obtain ⟨b, _, rfl⟩ := ho
      intro h; cases h
    · intro h; cases h
    · exact ih hr o ho is

theorem roCheckGen_inv {lib : CmpLib} {c : RoCfg} {n : Nat} (hn : n < 2 ^ 60) (h0 : 0 < n) {g g' : RoNet} {ops : List MOp}
    (h : GInv n g) (hg : roCheckGen lib c g = some (ops, g')) : GInv n g' ∧ g'.st.step = 0 ∧ ∀ is, MOp.mulN is ∈ ops → is.length = 5 := by
  have hli := h.list
  have hle := h.le
  have hme := h.mems
  simp only [roCheckGen, Option.bind_eq_bind, Option.bind_eq_some_iff, Prod.exists] at hg
  obtain ⟨st, chk, hchk, hg⟩ := hg
  split at hg
  · simp at hg
  simp only [Option.bind_eq_some_iff, Option.some.injEq, Prod.mk.injEq] at hg
  obtain ⟨rops, hrops, se, hse, b, hb, rfl, rfl⟩ := hg
  rw [roCheck] at hchk
  split at hchk
  · simp at hchk
  simp only [Option.bind_eq_bind, Option.bind_some, Option.bind_eq_some_iff] at hchk
  obtain ⟨gs, hgs, hchk⟩ := hchk
  split at hchk
  · simp at hchk
  simp only [Option.bind_some, Option.some.injEq, Prod.mk.injEq] at hchk
  obtain ⟨rfl, rfl⟩ := hchk
  have h3 : 3 ≤ g.st.list.length := by
    by_contra h3
    rw [bchGroups_none (w := 4) (by decide) (by omega)] at hgs
    cases hgs
  refine ⟨⟨?_, ?_, h.mems, by simp⟩, rfl, ?_⟩
  · simp only [List.length_take, h.macs]
  · simp only [List.length_take, hme]; omega
  · intro is his
    rw [List.mem_append, List.mem_append, List.mem_cons] at his
    rcases his with his | his | his | his
    · exact absurd rfl (roRowsOps_noMul _ hrops _ his is)
    · obtain ⟨b, _, hb⟩ := List.mem_map.1 his
      cases hb
    · cases his
    · obtain ⟨o', ho', he⟩ := List.mem_map.1 his
      exact (accLast_kinds (setEqOps_kinds (by simp) h.macs h3 (by omega) hse o' ho')).2 is he

theorem vGen_inv {lib : CmpLib} {c : RoCfg} {n : Nat} (hn : n < 2 ^ 60) (h0 : 0 < n) {g g' : RoNet} {o : VOp} {ops : List MOp}
    (h : GInv n g) (hlt : g.st.step < 8 * n) (hg : vGen lib c g o = some (ops, g')) :
    GInv n g' ∧ g'.st.step < 8 * n ∧ ∀ is, MOp.mulN is ∈ ops → is.length = 5 := by
  cases o with
  | bool o =>
    simp only [vGen, Option.bind_eq_bind, Option.bind_eq_some_iff, Option.some.injEq, Prod.mk.injEq, Prod.exists] at hg
    obtain ⟨o1, g1, h1, rfl, rfl⟩ := hg
    obtain ⟨k1, k2⟩ := vBool_inv h h1
    exact ⟨k1, by rw [k2]; exact hlt, fun is his => by simp at his⟩
  | read ix =>
    simp only [vGen, Option.bind_eq_bind, Option.bind_eq_some_iff, Prod.exists] at hg
    obtain ⟨a, g1, h1, hg⟩ := hg
    obtain ⟨k1, k2⟩ := vPush_inv h hlt h1
    have hle := k1.le
    have hme := k1.mems
    split at hg
    · simp only [Option.bind_eq_some_iff, Option.some.injEq, Prod.mk.injEq, Prod.exists] at hg
      obtain ⟨b, g2, h2, rfl, rfl⟩ := hg
      obtain ⟨l1, l2, l3⟩ := roCheckGen_inv hn h0 k1 h2
      refine ⟨l1, by omega, fun is his => ?_⟩
      rcases List.mem_append.1 his with his | his
      · exact absurd rfl (k2 _ his is)
      · exact l3 is his
    · rename_i hne
      simp only [Option.some.injEq, Prod.mk.injEq] at hg
      obtain ⟨rfl, rfl⟩ := hg
      rw [hme] at hne
      exact ⟨k1, by omega, fun is his => absurd rfl (k2 _ his is)⟩
  | check =>
    obtain ⟨l1, l2, l3⟩ := roCheckGen_inv hn h0 h hg
    exact ⟨l1, by omega, l3⟩

theorem vGens_inv {lib : CmpLib} {c : RoCfg} {n : Nat} (hn : n < 2 ^ 60) (h0 : 0 < n) (us : List VOp) : ∀ {g g' : RoNet} {ops : List MOp},
    GInv n g → g.st.step < 8 * n → vGens lib c g us = some (ops, g') → ∀ is, MOp.mulN is ∈ ops → is.length = 5 := by
  induction us with
  | nil =>
    intro g g' ops _ _ hg is his
    simp only [vGens, Option.some.injEq, Prod.mk.injEq] at hg
    rw [← hg.1] at his
    cases his
  | cons o us ih =>
    intro g g' ops h hlt hg is his
    simp only [vGens, Option.bind_eq_bind, Option.bind_eq_some_iff, Option.some.injEq, Prod.mk.injEq, Prod.exists] at hg
    obtain ⟨a, g1, h1, b, g2, h2, rfl, rfl⟩ := hg
    obtain ⟨k1, k2, k3⟩ := vGen_inv hn h0 h hlt h1
    rcases List.mem_append.1 his with his | his
    · exact k3 is his
    · exact ih k1 k2 h2 is his

theorem roRows_concat (l : List Nat) : ∀ (i x : Nat), roRows i (l ++ [x]) = roRows i l ++ [⟨i + l.length, x⟩] := by
  induction l with
  | nil => intro i x; rfl
  | cons y l ih =>
    intro i x
    rw [List.cons_append, roRows, roRows, ih, List.cons_append, List.length_cons, Nat.add_right_comm, Nat.add_assoc]

/-! ### init -/

theorem vInit_inv {c : RoCfg} (ds : List (List Nat)) : ∀ {i : Nat} {g g' : RoNet} {ops : List MOp}, vInit c i g ds = some (ops, g') →
    g'.macs.length = g.macs.length + ds.length ∧ g'.st.list.length = g.st.list.length + ds.length ∧ g'.st.mem.length = g.st.mem.length + ds.length ∧
      g'.st.step = g.st.step ∧ (∀ d ∈ ds, d.length = c.vsz) ∧ (∀ o ∈ ops, o.noIn = true) ∧ ∀ o ∈ ops, ∀ is, o ≠ .mulN is := by
  induction ds with
  | nil =>
    intro i g g' ops h
    simp only [vInit, Option.some.injEq, Prod.mk.injEq] at h
    obtain ⟨rfl, rfl⟩ := h
    simp
  | cons d ds ih =>
    intro i g g' ops h
    simp only [vInit, Option.bind_eq_bind, Option.bind_eq_some_iff] at h
    obtain ⟨vs, hvs, vb, _, h⟩ := h
    split at h
    · simp at h
    rename_i hl
    simp only [Option.bind_eq_some_iff, Option.some.injEq, Prod.mk.injEq, Prod.exists] at h
    obtain ⟨st, hst, ws, _, b, g2, h2, rfl, rfl⟩ := h
    simp only [roInitFrom, Option.bind_eq_bind, Option.bind_eq_some_iff, Option.some.injEq] at hst
    obtain ⟨w, _, rfl⟩ := hst
    obtain ⟨k1, k2, k3, k4, k5, k6, k7⟩ := ih h2
    simp only [List.length_append, List.length_singleton] at k1 k2 k3
    simp only [List.length_cons]
    refine ⟨by omega, by omega, by omega, k4, ?_, ?_, ?_⟩
    · intro x hx
      rcases List.mem_cons.1 hx with rfl | hx
      · rw [← pick_length hvs]; omega
      · exact k5 x hx
    · intro o ho
      rw [List.mem_append, List.mem_cons] at ho
      rcases ho with ho | rfl | ho
      · exact noIn_pubInt _ _ o ho
      · rfl
      · exact k6 o ho
    · intro o ho is
      rw [List.mem_append, List.mem_cons] at ho
      rcases ho with ho | rfl | ho
      · rw [pubInt, List.mem_map] at ho
        obtain ⟨b, _, rfl⟩ := ho
        intro h; cases h
      · intro h; cases h
      · exact k7 o ho is

section
variable {F : Type} [Field F] [BlockField F] [DecidableEq F]

theorem vsim_init {c : RoCfg} (hc : c.Ok) (ds : List (List Nat)) : ∀ {mem : List Nat} {g g' : RoNet} {u : VTr} {s : MPlain F} {ops : List MOp},
    VSim c mem g u s → u.since = [] → mem.length + ds.length ≤ 2 ^ c.isz → vInit c mem.length g ds = some (ops, g') →
    ∃ vbs s', ds.mapM (pick u.bp.wires) = some vbs ∧ (∀ ch : Nat → F, mplainOps ch s ops = some s') ∧
      VSim c (mem ++ vbs.map bitsNum) g' u s' := by
  induction ds with
  | nil =>
    intro mem g g' u s ops h _ _ hg
    simp only [vInit, Option.some.injEq, Prod.mk.injEq] at hg
    obtain ⟨rfl, rfl⟩ := hg
    exact ⟨[], s, rfl, fun ch => rfl, by simpa using h⟩
  | cons d ds ih =>
    intro mem g g' u s ops h hsi hlen hg
    simp only [List.length_cons] at hlen
    simp only [vInit, Option.bind_eq_bind, Option.bind_eq_some_iff] at hg
    obtain ⟨vs, hvs, vb0, _, hg⟩ := hg
    split at hg
    · simp at hg
    rename_i hvl
    simp only [ne_eq, not_not] at hvl
    simp only [Option.bind_eq_some_iff, Option.some.injEq, Prod.mk.injEq, Prod.exists] at hg
    obtain ⟨st, hst, ws, hws, b, g2, h2, rfl, rfl⟩ := hg
    simp only [roInitFrom, Option.bind_eq_bind, Option.bind_eq_some_iff, Option.some.injEq] at hst
    obtain ⟨w, _, rfl⟩ := hst
    have hul : u.bp.wires.length = g.uw.length := pick_length h.uw
    obtain ⟨vb, hvb⟩ := pick_of_length hul.symm hvs
    have hvbs : pick s.bp.wires vs = some vb := by rw [pick_pick h.uw hvs]; exact hvb
    rw [roPackWires, if_pos ⟨by simp, by omega⟩, Option.some.injEq] at hws
    set s1 : MPlain F := ⟨{ s.bp with wires := s.bp.wires ++ bitsOf (c.isz + 1) mem.length },
      s.fs ++ [wordF (roPacked c ⟨mem.length, bitsNum vb⟩)], s.rs⟩ with hs1
    have hm : mem.length < 2 ^ (c.isz + 1) := by rw [pow_succ]; omega
    have hrun : ∀ ch : Nat → F, mplainOps ch s (pubInt (c.isz + 1) mem.length ++ [MOp.pack ws]) = some s1 := by
      intro ch
      rw [← hws, mplainOps_append, mplain_pubInt, Option.bind_some, mplainOps_cons,
        mplain_roPack hc (ib := bitsOf (c.isz + 1) mem.length) (vb := vb)
          (by
            have := pick_range' s.bp.wires (bitsOf (c.isz + 1) mem.length)
            rw [bitsOf_length] at this
            show pick (s.bp.wires ++ bitsOf (c.isz + 1) mem.length) _ = _
            rw [h.len]; exact this)
          (by show pick (s.bp.wires ++ bitsOf (c.isz + 1) mem.length) vs = _; exact pick_append _ hvbs)
          (by simp) (by omega) ch, Option.bind_some, bitsNum_bitsOf, Nat.mod_eq_of_lt hm]
      rfl
    have hs1' : VSim c (mem ++ [bitsNum vb]) { g with bits := g.bits ++ bitsOf (c.isz + 1) mem.length, nf := g.nf + 1, st := ⟨g.st.mem ++ [bitsNum vb0], g.st.list ++ [w],
      g.st.log ++ [⟨mem.length % 2 ^ (c.isz + 1), bitsNum vb0 % 2 ^ c.vsz⟩], g.st.step⟩, macs := g.macs ++ [g.nf] } u s1 := by
      refine ⟨?_, ?_, h.outs, h.claims, by simp [hs1, h.nf], h.nr, ?_, ?_, ?_, h.step, h.fits⟩
      · simp only [hs1, List.length_append, h.len]
      · exact pick_append _ h.uw
      · have hmc := h.macs
        rw [hsi, List.append_nil] at hmc ⊢
        rw [roRows_concat, List.map_append, Nat.zero_add]
        refine pick_append_idx (pick_append _ hmc) ?_
        rw [pick_cons, ← h.nf, List.getElem?_concat_length]
        rfl
      · simp only [List.length_append, List.length_singleton, h.list]; omega
      · simp only [List.length_append, List.length_singleton, h.mems]
    obtain ⟨vbs, s', k1, k2, k3⟩ := ih (mem := mem ++ [bitsNum vb]) hs1' hsi (by simp only [List.length_append, List.length_singleton]; omega)
      (by simp only [List.length_append, List.length_singleton]; exact h2)
    refine ⟨vb :: vbs, s', by rw [List.mapM_cons, hvb, k1]; rfl, fun ch => ?_, ?_⟩
    · have : pubInt (c.isz + 1) mem.length ++ MOp.pack ws :: b = (pubInt (c.isz + 1) mem.length ++ [MOp.pack ws]) ++ b := by simp
      rw [this, mplainOps_append, hrun ch, Option.bind_some, k2]
    · simpa using k3

/-! ### after the memory -/

omit [DecidableEq F] in
theorem vsim_bools {c : RoCfg} {mem : List Nat} (post : List BOp) : ∀ {g : RoNet} {u : VTr} {s : MPlain F} {post1 post1' : List BOp} {b' : Plain},
    VSim c mem g u s → vBools g post = some post1 → List.Forall₂ BOp.same post1 post1' → post1'.foldlM plainStep s.bp = some b' →
    ∃ post' b, List.Forall₂ BOp.same post post' ∧ post'.foldlM plainStep u.bp = some b ∧ b.outs = b'.outs ∧ b.claims = b'.claims := by
  induction post with
  | nil =>
    intro g u s post1 post1' b' h hg hs hr
    simp only [vBools, Option.some.injEq] at hg
    subst hg
    cases hs
    rw [List.foldlM_nil] at hr
    cases hr
    exact ⟨[], u.bp, .nil, rfl, h.outs.symm, h.claims.symm⟩
  | cons o post ih =>
    intro g u s post1 post1' b' h hg hs hr
    simp only [vBools, Option.bind_eq_bind, Option.bind_eq_some_iff, Option.some.injEq, Prod.exists] at hg
    obtain ⟨o1, g1, h1, r, h2, rfl⟩ := hg
    cases hs with
    | @cons _ o1' _ l' q1 q2 =>
      rw [List.foldlM_cons] at hr
      simp only [Option.bind_eq_bind, Option.bind_eq_some_iff] at hr
      obtain ⟨b1, r1, r2⟩ := hr
      have hren : o.rename g.uw = some o1 := by
        simp only [vBool, Option.bind_eq_bind, Option.bind_eq_some_iff, Option.some.injEq, Prod.mk.injEq] at h1
        obtain ⟨_, h1, _, _, rfl, _⟩ := h1
        exact h1
      obtain ⟨o', k1, k2⟩ := rename_back hren q1
      obtain ⟨b, hb⟩ := rename_defined (pick_length h.uw).symm k2
      obtain ⟨o2, b2, l1, _, l3, l4⟩ := vsim_bool h h1 k1 hb
      rw [k2, Option.some.injEq] at l1
      subst l1
      rw [r1, Option.some.injEq] at l3
      subst l3
      obtain ⟨post', bb, m1, m2, m3, m4⟩ := ih l4 h2 q2 r2
      exact ⟨o' :: post', bb, .cons k1 m1, by rw [List.foldlM_cons, hb]; exact m2, m3, m4⟩

end
end EmpZk
