/-
The calls of a program with a read-only memory, one by one.
-/
import Verif.Lemmas.RoNet

namespace EmpZk

/-- A state between the two parts of a read: the invariant, except that the number of reads since the last check may have reached its limit. -/
structure RoMid (c : RoCfg) (data : List Nat) (st : RoState) : Prop where
  mem : st.mem = data
  list : st.list = st.log.map (roPacked c)
  pre : st.log.take data.length = roRows 0 data
  step : st.log.length = data.length + st.step
  le : st.step ≤ data.length * 8
  vals : ∀ e ∈ st.log, data[e.idx]? = some e.val

theorem RoInv.mid {c : RoCfg} {data : List Nat} {st : RoState} (h : RoInv c data st) : RoMid c data st :=
  ⟨h.mem, h.list, h.pre, h.step, Nat.le_of_lt h.le, h.vals⟩

theorem RoMid.inv {c : RoCfg} {data : List Nat} {st : RoState} (h : RoMid c data st) (hl : st.step ≠ data.length * 8) : RoInv c data st :=
  ⟨h.mem, h.list, h.pre, h.step, by have := h.le; omega, h.vals⟩

theorem roPush_mid {c : RoCfg} (hc : c.Ok) {data : List Nat} (hd : data.length ≤ 2 ^ c.isz) (hv : ∀ v ∈ data, v < 2 ^ c.vsz) {st : RoState}
    (h : RoInv c data st) {i v : Nat} (hi : data[i]? = some v) :
    ∃ st', roPush c st i = some (st', v) ∧ RoMid c data st' ∧ st'.step = st.step + 1 ∧ st'.log = st.log ++ [⟨i, v⟩] := by
  obtain ⟨hil, rfl⟩ := List.getElem?_eq_some_iff.1 hi
  have hfit : RoEnt.Fits c ⟨i, data[i]⟩ := ⟨by simp only; omega, hv _ (List.getElem_mem _)⟩
  have hpk := roPackU_eq hc hfit
  simp only at hpk
  have hst := h.step
  have hle := h.le
  unfold roPush
  simp only [h.mem, hi, hpk, Option.bind_eq_bind, Option.bind_some, Nat.mod_eq_of_lt hfit.1, Nat.mod_eq_of_lt hfit.2]
  refine ⟨_, rfl, ⟨rfl, ?_, ?_, ?_, ?_, ?_⟩, rfl, rfl⟩
  · simp [h.list]
  · simp only
    rw [List.take_append_of_le_length (by omega), h.pre]
  · simp; omega
  · simp only; omega
  · intro e he
    rcases List.mem_append.1 he with he | he
    · exact h.vals e he
    · rw [List.mem_singleton.1 he]; exact hi

/-- What holds of the generator's state alone. -/
structure VG (c : RoCfg) (mem : List Nat) (g : RoNet) (u : VPlain) : Prop where
  inv : RoMid c mem g.st
  since : g.st.step = u.since
  uw : pick g.bits g.uw = some u.bp.wires
  macs : g.macs.length = g.st.log.length

section
variable {F : Type} [Field F] [BlockField F] [DecidableEq F]

/-- The plain session agrees with the generator and with the program. -/
structure VS (c : RoCfg) (g : RoNet) (u : VPlain) (s : MPlain F) : Prop where
  wires : s.bp.wires = g.bits
  outs : s.bp.outs = u.bp.outs
  claims : s.bp.claims = u.bp.claims
  nf : s.fs.length = g.nf
  nr : s.rs.length = g.nr
  macs : pick s.fs g.macs = some (g.st.log.map (fun e => wordF (roPacked c e)))

/-- A call whose instructions `ops` take the generator from `g` to `g'` and the program from `u` to `u'`. -/
def VStep (F : Type) [Field F] [BlockField F] [DecidableEq F] (c : RoCfg) (g g' : RoNet) (u u' : VPlain) (ops : List MOp) : Prop :=
  ∀ (ch : Nat → F) (s : MPlain F), VS c g u s → ∃ s', mplainOps ch s ops = some s' ∧ VS c g' u' s'

theorem VStep.trans {c : RoCfg} {g g1 g2 : RoNet} {u u1 u2 : VPlain} {a b : List MOp} (h1 : VStep F c g g1 u u1 a) (h2 : VStep F c g1 g2 u1 u2 b) :
    VStep F c g g2 u u2 (a ++ b) := by
  intro ch s hs
  obtain ⟨s1, k1, k2⟩ := h1 ch s hs
  obtain ⟨s2, k3, k4⟩ := h2 ch s1 k2
  exact ⟨s2, by rw [mplainOps_append, k1, Option.bind_some, k3], k4⟩

/-! ### boolean instructions -/

omit [Field F] [BlockField F] [DecidableEq F] in
theorem vBool_eq {c : RoCfg} {mem : List Nat} {g : RoNet} {u : VPlain} (h : VG c mem g u) {o : BOp} {b : Plain}
    (ho : plainStep u.bp o = some b) :
    ∃ o' g' t os cs, vBool g o = some (o', g') ∧ VG c mem g' { u with bp := b } ∧ g'.bits = g.bits ++ t ∧
      b = ⟨u.bp.wires ++ t, u.bp.outs ++ os, u.bp.claims ++ cs⟩ ∧ g'.nf = g.nf ∧ g'.nr = g.nr ∧ g'.st = g.st ∧ g'.macs = g.macs ∧
      ∀ outs claims, plainStep ⟨g.bits, outs, claims⟩ o' = some ⟨g.bits ++ t, outs ++ os, claims ++ cs⟩ := by
  obtain ⟨o', t, os, cs, h1, h2, h3⟩ := rename_step h.uw ho
  refine ⟨o', { g with bits := g.bits ++ t, uw := g.uw ++ List.range' g.bits.length ((g.bits ++ t).length - g.bits.length) }, t, os, cs, ?_, ?_, rfl, h2,
    rfl, rfl, rfl, rfl, h3⟩
  · simp only [vBool, h1, h3, Option.bind_eq_bind, Option.bind_some]
  · refine ⟨h.inv, h.since, ?_, h.macs⟩
    show pick (g.bits ++ t) (g.uw ++ List.range' g.bits.length ((g.bits ++ t).length - g.bits.length)) = some b.wires
    rw [h2, List.length_append, Nat.add_sub_cancel_left]
    exact pick_snoc h.uw t

theorem vstep_bool {lib : CmpLib} {c : RoCfg} {mem : List Nat} {g : RoNet} {u u' : VPlain} (h : VG c mem g u) {o : BOp}
    (ho : vplainStep c mem u (.bool o) = some u') :
    ∃ ops g', vGen lib c g (.bool o) = some (ops, g') ∧ VG c mem g' u' ∧ VStep F c g g' u u' ops := by
  simp only [vplainStep, Option.map_eq_some_iff] at ho
  obtain ⟨b, hb, rfl⟩ := ho
  obtain ⟨o', g', t, os, cs, h1, h2, h3, h4, h5, h6, h7, h8, h9⟩ := vBool_eq h hb
  refine ⟨[MOp.bool o'], g', by simp only [vGen, h1, Option.bind_eq_bind, Option.bind_some], h2, fun ch s hs => ?_⟩
  refine ⟨{ s with bp := ⟨g.bits ++ t, s.bp.outs ++ os, s.bp.claims ++ cs⟩ }, ?_, ?_⟩
  · rw [mplainOps_cons]
    have : plainStep s.bp o' = some ⟨g.bits ++ t, s.bp.outs ++ os, s.bp.claims ++ cs⟩ := by rw [← h9, ← hs.wires]
    simp only [mplainStep, this, Option.map_some, Option.bind_some]
    rfl
  · refine ⟨h3.symm, ?_, ?_, by rw [h5]; exact hs.nf, by rw [h6]; exact hs.nr, by rw [h7, h8]; exact hs.macs⟩
    · rw [h4, ← hs.outs]
    · rw [h4, ← hs.claims]

/-! ### a check -/

theorem vstep_check {lib : CmpLib} (hl : lib.Good) {c : RoCfg} (hc : c.Ok) {mem : List Nat} (hd : mem.length ≤ 2 ^ c.isz) (hdd : mem.length < 2 ^ 60)
    (hv : ∀ v ∈ mem, v < 2 ^ c.vsz) {g : RoNet} {u : VPlain} (h : VG c mem g u) (h3 : 3 ≤ mem.length + u.since) (h0 : 0 < mem.length) :
    ∃ ops g', roCheckGen lib c g = some (ops, g') ∧ VG c mem g' (u.checked (mem.length + u.since)) ∧ RoInv c mem g'.st ∧
      VStep F c g g' u (u.checked (mem.length + u.since)) ops := by
  have hst := h.inv.step
  have hle := h.inv.le
  have hsi := h.since
  have hll : g.st.list.length = g.st.log.length := by rw [h.inv.list, List.length_map]
  obtain ⟨chk, k1, ⟨k2, k3, k4⟩, k5, k6, k7⟩ := roCheck_good hc hd hv g.st h.inv.mem h.inv.list h.inv.vals (by omega) (by omega) (by omega)
  have hfit : ∀ e ∈ chk.rows, e.Fits c := by
    intro e he
    have := h.inv.vals e (k6.mem_iff.1 he)
    obtain ⟨h1, h2⟩ := List.getElem?_eq_some_iff.1 this
    exact ⟨by omega, by rw [← h2]; exact hv _ (List.getElem_mem _)⟩
  have hrl : chk.rows.length = g.st.list.length := by rw [k6.length_eq, hll]
  set m := g.st.list.length with hm
  obtain ⟨se, hse⟩ := setEqOps_some (n := g.nf + m) (k := g.nr) (as := List.range' g.nf m) (bs := g.macs) (step := m) (by simp)
    (by rw [h.macs, hll]) (by omega) (by omega)
  obtain ⟨rows, r1, r2⟩ := roRowsOps_run (F := F) hc (n := g.bits.length) chk.rows 0 (fun e he => (hfit e he).wide')
  have hlen : (g.bits ++ chk.rows.flatMap (roRowBits c)).length = g.bits.length + m * roW c := by
    rw [List.length_append, flatMap_roRowBits_length, hrl]
  have hround : ∀ o cl, ∃ t, (roRounds lib c g.bits.length (List.range (m - 1)) (g.bits.length + m * roW c)).foldlM plainStep
      ⟨g.bits ++ chk.rows.flatMap (roRowBits c), o, cl⟩ =
        some ⟨g.bits ++ chk.rows.flatMap (roRowBits c) ++ t, o ++ List.replicate (m - 1) true, cl⟩ := by
    intro o cl
    have := roRounds_run hl (cl := cl) (base := g.bits.length) hfit (List.range (m - 1)) (o := o) (W := g.bits ++ chk.rows.flatMap (roRowBits c))
      (roRowsAt_flatMap _ _ _) (fun i hi => roCond_pairs (k7.symm.trans k2) i (by rw [List.mem_range] at hi; omega))
    rwa [hlen, List.length_range] at this
  obtain ⟨t, ht⟩ := hround [] []
  set q := roRounds lib c g.bits.length (List.range (m - 1)) (g.bits.length + m * roW c) with hq
  set W2 := g.bits ++ chk.rows.flatMap (roRowBits c) ++ t with hW2
  have hround2 : ∀ o cl, q.foldlM plainStep ⟨g.bits ++ chk.rows.flatMap (roRowBits c), o, cl⟩ = some ⟨W2, o ++ List.replicate (m - 1) true, cl⟩ := by
    intro o cl
    obtain ⟨t', ht'⟩ := hround o cl
    obtain ⟨b2, h1, h2⟩ := fold_wires q o cl ht
    rw [ht', Option.some.injEq] at h1
    have h2' : b2.wires = W2 := h2
    rw [← h1] at h2'
    rw [ht']
    simp only at h2'
    rw [h2']
  have hinv : RoInv c mem ⟨mem, g.st.list.take mem.length, g.st.log.take mem.length, 0⟩ := by
    refine ⟨rfl, ?_, ?_, ?_, ?_, ?_⟩
    · simp only [h.inv.list, List.map_take]
    · simp only [List.take_take, Nat.min_self]; exact h.inv.pre
    · simp only [h.inv.pre, roRows_length, Nat.add_zero]
    · simp only; omega
    · intro e he; exact h.inv.vals e (List.mem_of_mem_take he)
  refine ⟨rows ++ (q.map MOp.bool ++ MOp.sync :: se.map MOp.accLast),
    ⟨W2, g.uw, g.nf + m + se.countP MOp.makes, g.nr + 1, ⟨mem, g.st.list.take mem.length, g.st.log.take mem.length, 0⟩, g.macs.take g.st.mem.length⟩,
    ?_, ⟨hinv.mid, rfl, ?_, ?_⟩, hinv, fun ch s hs => ?_⟩
  · simp only [roCheckGen, k1, k2, Option.bind_eq_bind, Option.bind_some, ← hm, ← hq, r1, hse, ht]
    rw [if_neg (by simp)]
  · show pick W2 g.uw = some u.bp.wires
    rw [hW2, List.append_assoc]
    exact pick_append _ h.uw
  · simp only [List.length_take, h.macs, h.inv.mem]
  · -- the session
    have hs1 := r2 ch s (by rw [hs.wires]; omega)
    have hb : q.foldlM plainStep { s.bp with wires := s.bp.wires ++ chk.rows.flatMap (roRowBits c) } =
        some ⟨W2, s.bp.outs ++ List.replicate (m - 1) true, s.bp.claims⟩ := by
      rw [hs.wires]; exact hround2 _ _
    set s2 : MPlain F := ⟨⟨W2, s.bp.outs ++ List.replicate (m - 1) true, s.bp.claims⟩, s.fs ++ chk.rows.map (fun e => wordF (roPacked c e)), s.rs⟩ with hs2
    obtain ⟨ops, t', hops, hrun⟩ := mplain_setEq ch (s := s2) (as := List.range' g.nf m) (bs := g.macs) (us := chk.rows.map (fun e => wordF (roPacked c e)))
      (vs := g.st.log.map (fun e => wordF (roPacked c e))) (step := m)
      (by
        have := pick_range' s.fs (chk.rows.map (fun e => (wordF (roPacked c e) : F)))
        rw [List.length_map, hrl, hs.nf] at this
        exact this)
      (pick_append _ hs.macs) (by simp) (by rw [h.macs, hll]) (by omega) (by omega)
    have hl2 : s2.fs.length = g.nf + m := by simp only [hs2, List.length_append, List.length_map, hs.nf, hrl]
    have hl3 : s2.rs.length = g.nr := hs.nr
    rw [hl2, hl3, hse, Option.some.injEq] at hops
    subst hops
    have hperm : (chk.rows.map (fun e => (wordF (roPacked c e) : F))).Perm (g.st.log.map (fun e => wordF (roPacked c e))) := k6.map _
    rw [if_pos (prodAt_perm _ hperm)] at hrun
    have hmk := mplainOps_makes ch se hrun
    refine ⟨{ s2 with fs := s2.fs ++ t', rs := s2.rs ++ [ch s2.rs.length] }, ?_, ?_⟩
    · rw [mplainOps_append, hs1, Option.bind_some, mplainOps_append, mplain_bools, hb, Option.map_some, Option.bind_some, mplainOps_cons]
      simp only [mplainStep, Option.bind_some]
      rw [mplainOps_accLast]
      exact hrun
    · refine ⟨rfl, ?_, hs.claims, ?_, ?_, ?_⟩
      · simp only [hs2, VPlain.checked, hs.outs]
        rw [show m = mem.length + u.since by omega]
      · rw [hmk, hl2]
      · simp only [List.length_append, List.length_singleton, hl3]
      · simp only [h.inv.mem, ← List.map_take]
        refine pick_append _ (pick_append _ ?_)
        have := pick_take mem.length hs.macs
        rwa [List.map_take]

/-! ### reads -/

theorem vstep_push {c : RoCfg} (hc : c.Ok) {mem : List Nat} (hd : mem.length ≤ 2 ^ c.isz) (hv : ∀ v ∈ mem, v < 2 ^ c.vsz) {g : RoNet} {u : VPlain}
    (h : VG c mem g u) (hi : RoInv c mem g.st) {ix : List Nat} {ib : List Bool} {v : Nat} (hb : pick u.bp.wires ix = some ib)
    (hm : mem[bitsNum ib]? = some v) (hx : c.isz ≤ ix.length) :
    ∃ ops g', vPush c g ix = some (ops, g') ∧ VG c mem g' ⟨{ u.bp with wires := u.bp.wires ++ bitsOf c.vsz v }, u.since + 1⟩ ∧
      VStep F c g g' u ⟨{ u.bp with wires := u.bp.wires ++ bitsOf c.vsz v }, u.since + 1⟩ ops := by
  have hvl : v < 2 ^ c.vsz := hv v (List.mem_of_getElem? hm)
  have hul : u.bp.wires.length = g.uw.length := pick_length h.uw
  have hix : ∀ i ∈ ix, i < g.uw.length := by
    rw [← hul]
    clear hx hm
    induction ix generalizing ib with
    | nil => intro i hi; simp at hi
    | cons j ix ih =>
      rw [pick_cons] at hb
      simp only [Option.bind_eq_some_iff, Option.map_eq_some_iff] at hb
      obtain ⟨a, ha, r, hr, rfl⟩ := hb
      intro i hi
      rcases List.mem_cons.1 hi with rfl | hi
      · exact (List.getElem?_eq_some_iff.1 ha).1
      · exact ih hr i hi
  obtain ⟨iw, hiw, hil, _⟩ := pick_some g.uw ix hix
  have hib : pick g.bits iw = some ib := by rw [pick_pick h.uw hiw]; exact hb
  obtain ⟨st', p1, p2, p3, p4⟩ := roPush_mid hc hd hv hi hm
  have hpw : roPackWires c iw (List.range' g.bits.length c.vsz) = some ((List.range' g.bits.length c.vsz).take c.vsz ++ iw.take c.isz) := by
    rw [roPackWires, if_pos ⟨by omega, by simp⟩]
  refine ⟨_, ⟨g.bits ++ bitsOf c.vsz v, g.uw ++ List.range' g.bits.length c.vsz, g.nf + 1, g.nr, st', g.macs ++ [g.nf]⟩,
    by simp only [vPush, hiw, hib, p1, hpw, Option.bind_eq_bind, Option.bind_some]; rfl, ⟨p2, ?_, ?_, ?_⟩, fun ch s hs => ?_⟩
  · simp only [p3, h.since]
  · have := pick_snoc h.uw (bitsOf c.vsz v)
    rwa [bitsOf_length] at this
  · simp only [List.length_append, h.macs, p4, List.length_singleton]
  · refine ⟨⟨{ s.bp with wires := s.bp.wires ++ bitsOf c.vsz v }, s.fs ++ [wordF (roPacked c ⟨bitsNum ib, bitsNum (bitsOf c.vsz v)⟩)], s.rs⟩, ?_, ?_⟩
    · rw [mplainOps_append, mplain_inInt, Option.bind_some, mplainOps_cons,
        mplain_roPack hc (ib := ib) (vb := bitsOf c.vsz v)
          (by show pick (s.bp.wires ++ bitsOf c.vsz v) iw = _; rw [hs.wires]; exact pick_append _ hib)
          (by
            have := pick_range' g.bits (bitsOf c.vsz v)
            rw [bitsOf_length] at this
            show pick (s.bp.wires ++ bitsOf c.vsz v) _ = _
            rw [hs.wires]; exact this)
          (by omega) (by simp) ch, Option.bind_some]
      rfl
    · refine ⟨by simp only [hs.wires], hs.outs, hs.claims, by simp [hs.nf], hs.nr, ?_⟩
      simp only [p4, List.map_append]
      refine pick_append_idx (pick_append _ hs.macs) ?_
      rw [pick_cons, ← hs.nf, List.getElem?_concat_length, bitsNum_bitsOf, Nat.mod_eq_of_lt hvl]
      rfl

/-! ### programs -/

theorem vstep_one {lib : CmpLib} (hl : lib.Good) {c : RoCfg} (hc : c.Ok) {mem : List Nat} (hd : mem.length ≤ 2 ^ c.isz) (hdd : mem.length < 2 ^ 60)
    (h0 : 0 < mem.length) (hv : ∀ v ∈ mem, v < 2 ^ c.vsz) {g : RoNet} {u u' : VPlain} (h : VG c mem g u) (hi : RoInv c mem g.st) {o : VOp}
    (ho : vplainStep c mem u o = some u') :
    ∃ ops g', vGen lib c g o = some (ops, g') ∧ VG c mem g' u' ∧ RoInv c mem g'.st ∧ VStep F c g g' u u' ops := by
  cases o with
  | bool o =>
    simp only [vplainStep, Option.map_eq_some_iff] at ho
    obtain ⟨b, hb, rfl⟩ := ho
    obtain ⟨ops, g', h1, h2, h3⟩ := vstep_bool (F := F) (lib := lib) (u' := { u with bp := b }) h (o := o) (by simp [vplainStep, hb])
    refine ⟨ops, g', h1, h2, ?_, h3⟩
    obtain ⟨o', g2, t, os, cs, k1, _, _, _, _, _, k7, _⟩ := vBool_eq h hb
    simp only [vGen, k1, Option.bind_eq_bind, Option.bind_some, Option.some.injEq, Prod.mk.injEq] at h1
    rw [← h1.2, k7]
    exact hi
  | read ix =>
    simp only [vplainStep, Option.bind_eq_bind, Option.bind_eq_some_iff] at ho
    obtain ⟨ib, hib, v, hmv, ho⟩ := ho
    split at ho
    · cases ho
    · rename_i hx
      obtain ⟨a, g1, h1, h2, h3⟩ := vstep_push (F := F) hc hd hv h hi hib hmv (by omega)
      have hmem := h2.inv.mem
      have hsi := h2.since
      simp only at hsi
      split at ho
      · rename_i h8
        rw [Option.some.injEq] at ho
        obtain ⟨b, g2, k1, k2, k3, k4⟩ := vstep_check (F := F) hl hc hd hdd hv h2 (by simp only; omega) h0
        refine ⟨a ++ b, g2, ?_, ?_, k3, ?_⟩
        · simp only [vGen, h1, k1, Option.bind_eq_bind, Option.bind_some]
          rw [if_pos (by rw [hmem, hsi]; omega)]
        · rw [← ho]; exact k2
        · rw [← ho]; exact h3.trans k4
      · rename_i h8
        rw [Option.some.injEq] at ho
        subst ho
        refine ⟨a, g1, ?_, h2, h2.inv.inv (by rw [hsi]; omega), h3⟩
        simp only [vGen, h1, Option.bind_eq_bind, Option.bind_some]
        rw [if_neg (by rw [hmem, hsi]; omega)]
  | check =>
    simp only [vplainStep] at ho
    split at ho
    · rename_i h3
      rw [Option.some.injEq] at ho
      obtain ⟨b, g2, k1, k2, k3, k4⟩ := vstep_check (F := F) hl hc hd hdd hv h h3 h0
      subst ho
      exact ⟨b, g2, k1, k2, k3, k4⟩
    · cases ho

theorem vstep_all {lib : CmpLib} (hl : lib.Good) {c : RoCfg} (hc : c.Ok) {mem : List Nat} (hd : mem.length ≤ 2 ^ c.isz) (hdd : mem.length < 2 ^ 60)
    (h0 : 0 < mem.length) (hv : ∀ v ∈ mem, v < 2 ^ c.vsz) (us : List VOp) : ∀ {g : RoNet} {u u' : VPlain}, VG c mem g u → RoInv c mem g.st →
    vplainOps c mem u us = some u' →
    ∃ ops g', vGens lib c g us = some (ops, g') ∧ VG c mem g' u' ∧ VStep F c g g' u u' ops := by
  induction us with
  | nil =>
    intro g u u' h _ hu
    rw [vplainOps, List.foldlM_nil] at hu
    cases hu
    exact ⟨[], g, rfl, h, fun ch s hs => ⟨s, rfl, hs⟩⟩
  | cons o us ih =>
    intro g u u' h hi hu
    rw [vplainOps, List.foldlM_cons] at hu
    simp only [Option.bind_eq_bind, Option.bind_eq_some_iff] at hu
    obtain ⟨u1, h1, h2⟩ := hu
    obtain ⟨a, g1, k1, k2, k3, k4⟩ := vstep_one (F := F) hl hc hd hdd h0 hv h hi h1
    obtain ⟨b, g2, l1, l2, l3⟩ := ih k2 k3 h2
    exact ⟨a ++ b, g2, by simp only [vGens, k1, l1, Option.bind_eq_bind, Option.bind_some], l2, k4.trans l3⟩

omit [Field F] [BlockField F] [DecidableEq F] in
/-- The instructions after the memory is gone. -/
theorem vBools_run {c : RoCfg} {mem : List Nat} (post : List BOp) : ∀ {g : RoNet} {u : VPlain} {b : Plain}, VG c mem g u →
    post.foldlM plainStep u.bp = some b →
    ∃ post' b', vBools g post = some post' ∧ post'.foldlM plainStep ⟨g.bits, u.bp.outs, u.bp.claims⟩ = some b' ∧ b'.outs = b.outs ∧ b'.claims = b.claims := by
  induction post with
  | nil =>
    intro g u b _ hb
    rw [List.foldlM_nil] at hb
    cases hb
    exact ⟨[], _, rfl, rfl, rfl, rfl⟩
  | cons o post ih =>
    intro g u b h hb
    rw [List.foldlM_cons] at hb
    simp only [Option.bind_eq_bind, Option.bind_eq_some_iff] at hb
    obtain ⟨b1, h1, h2⟩ := hb
    obtain ⟨o', g', t, os, cs, k1, k2, k3, k4, _, _, _, _, k9⟩ := vBool_eq h h1
    obtain ⟨post', b', l1, l2, l3, l4⟩ := ih (u := { u with bp := b1 }) k2 h2
    refine ⟨o' :: post', b', by simp only [vBools, k1, l1, Option.bind_eq_bind, Option.bind_some], ?_, l3, l4⟩
    rw [List.foldlM_cons, k9]
    simp only [Option.bind_eq_bind, Option.bind_some]
    rw [← k3, ← l2, k4]

/-- `init`. -/
theorem vInit_run {c : RoCfg} (hc : c.Ok) (ds : List (List Nat)) : ∀ {i : Nat} {g : RoNet} {u : VPlain} {vbs : List (List Bool)},
    pick g.bits g.uw = some u.bp.wires → ds.mapM (pick u.bp.wires) = some vbs → (∀ d ∈ ds, d.length = c.vsz) → i + ds.length ≤ 2 ^ c.isz →
    ∃ ops g', vInit c i g ds = some (ops, g') ∧ g'.st = ⟨g.st.mem ++ vbs.map bitsNum, g.st.list ++ (roRows i (vbs.map bitsNum)).map (roPacked c),
        g.st.log ++ roRows i (vbs.map bitsNum), g.st.step⟩ ∧ pick g'.bits g'.uw = some u.bp.wires ∧ g'.macs.length = g.macs.length + ds.length ∧
      VStep F c g g' u u ops := by
  induction ds with
  | nil =>
    intro i g u vbs h1 h2 _ _
    rw [List.mapM_nil] at h2
    cases h2
    exact ⟨[], g, rfl, by simp [roRows], h1, rfl, fun ch s hs => ⟨s, rfl, hs⟩⟩
  | cons d ds ih =>
    intro i g u vbs h1 h2 hd hi
    rw [List.mapM_cons] at h2
    simp only [Option.bind_eq_bind, Option.bind_eq_some_iff, Option.pure_def, Option.some.injEq] at h2
    obtain ⟨vb, hvb, vbs', hvbs, rfl⟩ := h2
    simp only [List.length_cons] at hi
    have hdl := hd d (by simp)
    have hul : u.bp.wires.length = g.uw.length := pick_length h1
    have hdx : ∀ i ∈ d, i < g.uw.length := by
      rw [← hul]
      clear hd hdl
      induction d generalizing vb with
      | nil => intro i hi; simp at hi
      | cons j d ih =>
        rw [pick_cons] at hvb
        simp only [Option.bind_eq_some_iff, Option.map_eq_some_iff] at hvb
        obtain ⟨a, ha, r, hr, rfl⟩ := hvb
        intro i hi
        rcases List.mem_cons.1 hi with rfl | hi
        · exact (List.getElem?_eq_some_iff.1 ha).1
        · exact ih r hr i hi
    obtain ⟨vs, hvs, hvl, _⟩ := pick_some g.uw d hdx
    have hb : pick g.bits vs = some vb := by rw [pick_pick h1 hvs]; exact hvb
    have hvbl : vb.length = c.vsz := by rw [pick_length hvb, hdl]
    have hlt : bitsNum vb < 2 ^ c.vsz := by rw [← hvbl]; exact bitsNum_lt vb
    have hst := roInitFrom_eq hc [bitsNum vb] i g.st (by simp only [List.length_singleton]; omega) (by simpa using hlt)
    simp only [roRows, List.map_cons, List.map_nil] at hst
    have hpw : roPackWires c (List.range' g.bits.length (c.isz + 1)) vs = some (vs.take c.vsz ++ (List.range' g.bits.length (c.isz + 1)).take c.isz) := by
      rw [roPackWires, if_pos ⟨by simp, by omega⟩]
    set g1 : RoNet := ⟨g.bits ++ bitsOf (c.isz + 1) i, g.uw, g.nf + 1, g.nr, ⟨g.st.mem ++ [bitsNum vb], g.st.list ++ [roPacked c ⟨i, bitsNum vb⟩],
      g.st.log ++ [⟨i, bitsNum vb⟩], g.st.step⟩, g.macs ++ [g.nf]⟩ with hg1
    obtain ⟨b, g', k1, k2, k3, k4, k5⟩ := ih (i := i + 1) (g := g1) (u := u) (pick_append _ h1) hvbs (fun d h => hd d (by simp [h])) (by omega)
    refine ⟨pubInt (c.isz + 1) i ++ MOp.pack (vs.take c.vsz ++ (List.range' g.bits.length (c.isz + 1)).take c.isz) :: b, g', ?_, ?_, k3, ?_, ?_⟩
    · simp only [vInit, hvs, hb, hst, hpw, Option.bind_eq_bind, Option.bind_some]
      rw [if_neg (by omega)]
      rw [← hg1, k1]
      rfl
    · rw [k2]
      simp only [hg1, List.map_cons, roRows, List.append_assoc, List.cons_append, List.nil_append]
    · rw [k4]; simp only [hg1, List.length_append, List.length_cons, List.length_nil]; omega
    · have hstep : VStep F c g g1 u u (pubInt (c.isz + 1) i ++ [MOp.pack (vs.take c.vsz ++ (List.range' g.bits.length (c.isz + 1)).take c.isz)]) := by
        intro ch s hs
        refine ⟨⟨{ s.bp with wires := s.bp.wires ++ bitsOf (c.isz + 1) i }, s.fs ++ [wordF (roPacked c ⟨bitsNum (bitsOf (c.isz + 1) i), bitsNum vb⟩)], s.rs⟩, ?_, ?_⟩
        · rw [mplainOps_append, mplain_pubInt, Option.bind_some, mplainOps_cons,
            mplain_roPack hc (ib := bitsOf (c.isz + 1) i) (vb := vb)
              (by
                have := pick_range' g.bits (bitsOf (c.isz + 1) i)
                rw [bitsOf_length] at this
                show pick (s.bp.wires ++ bitsOf (c.isz + 1) i) _ = _
                rw [hs.wires]; exact this)
              (by show pick (s.bp.wires ++ bitsOf (c.isz + 1) i) vs = _; rw [hs.wires]; exact pick_append _ hb)
              (by simp) (by omega) ch, Option.bind_some]
          rfl
        · refine ⟨by simp only [hs.wires, hg1], hs.outs, hs.claims, by simp [hs.nf, hg1], hs.nr, ?_⟩
          simp only [hg1, List.map_append]
          refine pick_append_idx (pick_append _ hs.macs) ?_
          have hil : i < 2 ^ (c.isz + 1) := lt_of_lt_of_le (show i < 2 ^ c.isz by omega) (Nat.pow_le_pow_right (by decide) (by omega))
          rw [pick_cons, ← hs.nf, List.getElem?_concat_length, bitsNum_bitsOf, Nat.mod_eq_of_lt hil]
          rfl
      have := hstep.trans k5
      rwa [List.append_assoc] at this

end
end EmpZk
