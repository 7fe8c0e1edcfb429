/-
Runs of programs with a memory of several words per cell and their instructions with replaced inputs.
-/
import Verif.Spec.ExtTrace
import Verif.Lemmas.ExtCheckNet
import Verif.Lemmas.RamTraceCheck
import Verif.Lemmas.RamSound

namespace EmpZk

theorem xrowsOfLog_concat (l : List (Acc (List Nat))) (e : Acc (List Nat)) :
    xrowsOfLog (l ++ [e]) = xrowsOfLog l ++ [⟨e.idx, l.length, e.op, e.val⟩] := by
  rw [xrowsOfLog, List.mapIdx_concat]; rfl

theorem xrowsOfLog_length (l : List (Acc (List Nat))) : (xrowsOfLog l).length = l.length := by simp [xrowsOfLog]

theorem xrowsOfLog_acc (l : List (Acc (List Nat))) : (xrowsOfLog l).map RowOf.acc = l := by
  apply List.ext_getElem
  · simp [xrowsOfLog]
  · intro i h1 h2
    simp [xrowsOfLog, RowOf.acc]

theorem xrowsOfLog_step (l : List (Acc (List Nat))) (i : Nat) (h : i < (xrowsOfLog l).length) : (xrowsOfLog l)[i].step = i := by simp [xrowsOfLog]

theorem mapM_pick_of_length {α β : Type} {l : List α} {k : List β} (hl : l.length = k.length) : ∀ {gs : List (List Nat)} {es : List (List α)},
    gs.mapM (pick l) = some es → ∃ fs, gs.mapM (pick k) = some fs := by
  intro gs
  induction gs with
  | nil => intro es _; exact ⟨[], rfl⟩
  | cons g gs ih =>
    intro es h
    rw [List.mapM_cons] at h
    simp only [Option.bind_eq_bind, Option.bind_eq_some_iff, Option.pure_def, Option.some.injEq] at h
    obtain ⟨a, h1, as, h2, _⟩ := h
    obtain ⟨f, hf⟩ := pick_of_length hl h1
    obtain ⟨fs, hfs⟩ := ih h2
    exact ⟨f :: fs, by rw [List.mapM_cons, hf, hfs]; rfl⟩

theorem same_inInts {w : Nat} : ∀ {xs : List Nat} {l : List MOp}, List.Forall₂ MOp.same (xs.flatMap (inInt w)) l →
    ∃ vs : List Nat, vs.length = xs.length ∧ (∀ v ∈ vs, v < 2 ^ w) ∧ l = vs.flatMap (inInt w) := by
  intro xs
  induction xs with
  | nil => intro l h; cases h; exact ⟨[], rfl, by simp, rfl⟩
  | cons x xs ih =>
    intro l h
    rw [List.flatMap_cons] at h
    obtain ⟨a, b, rfl, h1, h2⟩ := same_split h
    obtain ⟨v, hv, rfl⟩ := same_inInt h1
    obtain ⟨vs, k1, k2, rfl⟩ := ih h2
    refine ⟨v :: vs, by simp [k1], ?_, by rw [List.flatMap_cons]⟩
    intro y hy
    rcases List.mem_cons.1 hy with rfl | hy
    · exact hv
    · exact k2 y hy

theorem inInts_same (w : Nat) : ∀ (xs ys : List Nat), xs.length = ys.length →
    List.Forall₂ MOp.same (xs.flatMap (inInt w)) (ys.flatMap (inInt w))
  | [], [], _ => .nil
  | x :: xs, y :: ys, h => by
    rw [List.flatMap_cons, List.flatMap_cons]
    exact List.rel_append (R := MOp.same) (inInt_same w x y) (inInts_same w xs ys (by simpa using h))
  | [], _ :: _, h => by simp at h
  | _ :: _, [], h => by simp at h

theorem extRead_facts {c : RxCfg} {st st' : ExtState} {i : Nat} {vs : List Nat} (h : extRead c st i = some (st', vs)) :
    st'.step = st.step + 1 ∧ vs.length = c.words := by
  simp only [extRead, Option.bind_eq_bind, Option.bind_eq_some_iff, Option.some.injEq, Prod.mk.injEq] at h
  obtain ⟨cell, _, w, _, vals, hv, rfl, rfl⟩ := h
  refine ⟨rfl, ?_⟩
  rw [mapM_len hv, List.length_range]

theorem extWrite_step {c : RxCfg} {st st' : ExtState} {i : Nat} {vs : List Nat} (h : extWrite c st i vs = some st') : st'.step = st.step + 1 := by
  simp only [extWrite, Option.bind_eq_bind, Option.bind_eq_some_iff, Option.some.injEq] at h
  obtain ⟨_, _, _, _, _, _, rfl⟩ := h
  rfl

section
variable {F : Type} [Field F] [BlockField F]

/-- The blocks of the rows of a log. -/
def rowBlocks (rows : List ExtEnt) : List (List F) := rows.map (fun e => (extRow e).map wordF)

/-- The generator (on some values), a run of the program with arbitrary reads, and the plain session of the replaced instructions. -/
structure XCSim (c : RxCfg) (g : XNet) (u : XPlain) (s : MPlain F) : Prop where
  bp : s.bp = u.bp
  bits : g.bits.length = u.bp.wires.length
  nf : g.nf = s.fs.length
  step : g.st.step = u.log.length
  macs : g.macs.mapM (pick s.fs) = some (rowBlocks (xrowsOfLog u.log))
  fs : s.fs = (rowBlocks (xrowsOfLog u.log)).flatten
  rs : s.rs = []
  fits : ∀ e ∈ u.log, e.idx < 2 ^ c.isz ∧ e.val.length = c.words ∧ ∀ v ∈ e.val, v < 2 ^ 64

variable [DecidableEq F]

/-- The end of each call. -/
theorem xcsim_acc {c : RxCfg} (hc : c.Ok) {g : XNet} {u : XPlain} {s : MPlain F} (h : XCSim c g u s) {st : ExtState} {e : Acc (List Nat)}
    (hr : st.step = g.st.step + 1) (hstep : u.log.length < 2 ^ c.ssz) {new fl gb : List Bool} {ops : List MOp} {ix : List Nat}
    {vs : List (List Nat)} {op : Nat} {ib : List Bool} {vbs : List (List Bool)} {ps : List (List (Nat × List Nat))}
    (hg : gb.length = new.length + (c.ssz + fl.length))
    (hops : ∀ ch, mplainOps ch s ops = some { s with bp := { s.bp with wires := s.bp.wires ++ (new ++ (bitsOf c.ssz u.log.length ++ fl)) } })
    (hi : pick (s.bp.wires ++ (new ++ (bitsOf c.ssz u.log.length ++ fl))) ix = some ib)
    (hv : vs.mapM (pick (s.bp.wires ++ (new ++ (bitsOf c.ssz u.log.length ++ fl)))) = some vbs)
    (ho : (s.bp.wires ++ (new ++ (bitsOf c.ssz u.log.length ++ fl)))[op]? = some e.op)
    (li : ix.length = c.isz) (lw : vs.length = c.words) (lv : ∀ v ∈ vs, v.length ≤ 64) (ei : bitsNum ib = e.idx) (ev : vbs.map bitsNum = e.val)
    (hps : xPack ix vs (List.range' (g.bits.length + new.length) c.ssz) op = some ps) :
    ∃ s', XCSim c ⟨g.bits ++ gb, g.nf + ps.length, st, g.macs ++ [List.range' g.nf ps.length]⟩ (u.push c e new fl) s' ∧
      ∀ ch, mplainOps ch s (ops ++ ps.map MOp.packAt) = some s' := by
  have hn : g.bits.length = s.bp.wires.length := by rw [h.bits, h.bp]
  obtain ⟨c1, c2, c3⟩ := hc
  have hw : 1 ≤ c.words := by unfold RxCfg.words; omega
  obtain ⟨ps', p1, p2, p3⟩ := mplain_xpack (s := { s with bp := { s.bp with wires := s.bp.wires ++ (new ++ (bitsOf c.ssz u.log.length ++ fl)) } })
    (ix := ix) (vs := vs) (st := List.range' (g.bits.length + new.length) c.ssz) (op := op) (ib := ib) (vbs := vbs)
    (sb := bitsOf c.ssz u.log.length) (ob := e.op) hi hv
    (by
      show pick (s.bp.wires ++ (new ++ (bitsOf c.ssz u.log.length ++ fl))) _ = _
      rw [← List.append_assoc]
      exact pick_mid _ _ _ (by rw [List.length_append, hn]) (bitsOf_length _ _).symm)
    ho (by omega) (by omega) lv (by simpa using c2)
  rw [hps, Option.some.injEq] at p1
  subst p1
  rw [ei, ev, bitsNum_bitsOf, Nat.mod_eq_of_lt hstep] at p3
  have hvl : e.val.length = c.words := by rw [← ev, List.length_map, mapM_len hv, lw]
  have hlen : (extRow ⟨e.idx, u.log.length, e.op, e.val⟩).length = ps.length := by rw [extRow_length hw hvl, p2, lw]
  have hidx : e.idx < 2 ^ c.isz := by
    have := bitsNum_lt ib
    rwa [pick_length hi, li, ei] at this
  refine ⟨⟨{ s.bp with wires := s.bp.wires ++ (new ++ (bitsOf c.ssz u.log.length ++ fl)) },
    s.fs ++ (extRow ⟨e.idx, u.log.length, e.op, e.val⟩).map wordF, s.rs⟩, ?_, fun ch => ?_⟩
  · refine ⟨?_, ?_, ?_, ?_, ?_, ?_, h.rs, ?_⟩
    · rw [XPlain.push, h.bp]
    · have := h.bits
      simp only [XPlain.push, List.length_append, bitsOf_length, hg]; omega
    · simp only [List.length_append, List.length_map, hlen, h.nf]
    · simp [XPlain.push, hr, h.step]
    · simp only [XPlain.push, xrowsOfLog_concat, rowBlocks, List.map_append]
      refine mapM_snoc (mapM_pick_append _ h.macs) ?_
      have := pick_range' s.fs ((extRow ⟨e.idx, u.log.length, e.op, e.val⟩).map (wordF : Nat → F))
      rw [List.length_map, hlen, ← h.nf] at this
      exact this
    · simp only [XPlain.push, xrowsOfLog_concat, rowBlocks, List.map_append, List.flatten_append, h.fs]
      simp
    · intro x hx
      simp only [XPlain.push, List.mem_append, List.mem_singleton] at hx
      rcases hx with hx | rfl
      · exact h.fits x hx
      · exact ⟨hidx, hvl, by rw [← ev]; exact mapM_pick_small hv lv⟩
  · rw [mplainOps_append, hops, Option.bind_some, p3]

omit [DecidableEq F] in
theorem xcsim_bool {c : RxCfg} {g g' : XNet} {u : XPlain} {s : MPlain F} (h : XCSim c g u s) {o o' : BOp} (hoo : BOp.same o o') {ops : List MOp}
    (hgen : xGen c g (.bool o) = some (ops, g')) {b : Plain} (hb : plainStep u.bp o' = some b) :
    ops = [MOp.bool o] ∧ XCSim c g' { u with bp := b } { s with bp := b } := by
  simp only [xGen, Option.bind_eq_bind, Option.bind_eq_some_iff, Option.some.injEq, Prod.mk.injEq] at hgen
  obtain ⟨p, hp, rfl, rfl⟩ := hgen
  exact ⟨rfl, rfl, plainStep_len hoo h.bits hp hb, h.nf, h.step, h.macs, h.fs, h.rs, h.fits⟩

/-- A read that returns `v`. -/
theorem xcsim_read {c : RxCfg} (hc : c.Ok) {g : XNet} {u : XPlain} {s : MPlain F} (h : XCSim c g u s) (hlen : u.log.length < 2 ^ c.ssz)
    {ix : List Nat} (hw : ix.length = c.isz) {st : ExtState} (hst : st.step = g.st.step + 1) {v v0 : List Nat} (hv : v.length = c.words)
    (hv0 : v0.length = c.words) (hvf : ∀ w ∈ v, w < 2 ^ 64) {ib : List Bool} (hib : pick u.bp.wires ix = some ib) {ps : List (List (Nat × List Nat))}
    (hps : xPack ix (wordWires g.bits.length c.words) (List.range' (g.bits.length + 64 * c.words) c.ssz) (g.bits.length + 64 * c.words + c.ssz) = some ps) :
    ∃ s', XCSim c ⟨g.bits ++ (v0.flatMap (bitsOf 64) ++ (bitsOf c.ssz g.st.step ++ [false])), g.nf + ps.length, st, g.macs ++ [List.range' g.nf ps.length]⟩
        (u.push c ⟨bitsNum ib, false, v⟩ (v.flatMap (bitsOf 64)) [false]) s' ∧
      ∀ ch, mplainOps ch s (v.flatMap (inInt 64) ++ (pubInt c.ssz g.st.step ++ (MOp.bool (.pub false) :: ps.map MOp.packAt))) = some s' := by
  have hn : g.bits.length = s.bp.wires.length := by rw [h.bits, h.bp]
  have hwl : (v.flatMap (bitsOf 64)).length = 64 * c.words := by rw [flatMap_bits64_length, hv]
  obtain ⟨s', k1, k2⟩ := xcsim_acc hc h hst hlen (e := ⟨bitsNum ib, false, v⟩) (new := v.flatMap (bitsOf 64)) (fl := [false])
    (gb := v0.flatMap (bitsOf 64) ++ (bitsOf c.ssz g.st.step ++ [false]))
    (ops := v.flatMap (inInt 64) ++ (pubInt c.ssz g.st.step ++ [MOp.bool (.pub false)])) (ix := ix) (vs := wordWires g.bits.length c.words)
    (op := g.bits.length + 64 * c.words + c.ssz) (ib := ib) (vbs := v.map (bitsOf 64)) (ps := ps)
    (by simp only [List.length_append, bitsOf_length, flatMap_bits64_length, hv, hv0])
    (by
      intro ch
      rw [mplainOps_append, mplain_inInts, Option.bind_some, mplainOps_append, mplain_pubInt, Option.bind_some, mplainOps_cons, h.step]
      simp only [mplainStep, plainStep, Option.map_some, Option.bind_some, List.append_assoc]
      rfl)
    (by rw [h.bp]; exact pick_append _ hib)
    (by rw [hn, ← hv]; exact pick_words _ _ _)
    (by
      rw [← List.append_assoc, ← List.append_assoc]
      have : g.bits.length + 64 * c.words + c.ssz = (s.bp.wires ++ v.flatMap (bitsOf 64) ++ bitsOf c.ssz u.log.length).length := by
        simp only [List.length_append, bitsOf_length, hn, hwl]
      rw [this, List.getElem?_concat_length])
    hw (by simp [wordWires])
    (by
      intro w hw
      simp only [wordWires, List.mem_map] at hw
      obtain ⟨j, _, rfl⟩ := hw
      simp)
    rfl (map_bitsNum_bits64 hvf) (by rw [hwl]; exact hps)
  refine ⟨s', k1, fun ch => ?_⟩
  have := k2 ch
  simp only [List.append_assoc, List.cons_append, List.nil_append] at this
  exact this

/-- A write. -/
theorem xcsim_write {c : RxCfg} (hc : c.Ok) {g : XNet} {u : XPlain} {s : MPlain F} (h : XCSim c g u s) (hlen : u.log.length < 2 ^ c.ssz)
    {ix : List Nat} {vs : List (List Nat)} (hw : ix.length = c.isz) (hw2 : vs.length = c.words) (hw3 : ∀ w ∈ vs, w.length ≤ 64) {st : ExtState}
    (hst : st.step = g.st.step + 1) {ib : List Bool} (hib : pick u.bp.wires ix = some ib) {vbs : List (List Bool)}
    (hvb : vs.mapM (pick u.bp.wires) = some vbs) {ps : List (List (Nat × List Nat))}
    (hps : xPack ix vs (List.range' g.bits.length c.ssz) (g.bits.length + c.ssz) = some ps) :
    ∃ s', XCSim c ⟨g.bits ++ (bitsOf c.ssz g.st.step ++ [true]), g.nf + ps.length, st, g.macs ++ [List.range' g.nf ps.length]⟩
        (u.push c ⟨bitsNum ib, true, vbs.map bitsNum⟩ [] [true]) s' ∧
      ∀ ch, mplainOps ch s (pubInt c.ssz g.st.step ++ (MOp.bool (.pub true) :: ps.map MOp.packAt)) = some s' := by
  have hn : g.bits.length = s.bp.wires.length := by rw [h.bits, h.bp]
  obtain ⟨s', k1, k2⟩ := xcsim_acc hc h hst hlen (e := ⟨bitsNum ib, true, vbs.map bitsNum⟩) (new := []) (fl := [true])
    (gb := bitsOf c.ssz g.st.step ++ [true])
    (ops := pubInt c.ssz g.st.step ++ [MOp.bool (.pub true)]) (ix := ix) (vs := vs)
    (op := g.bits.length + c.ssz) (ib := ib) (vbs := vbs) (ps := ps)
    (by simp only [List.length_append, bitsOf_length, List.length_nil, Nat.zero_add])
    (by
      intro ch
      rw [mplainOps_append, mplain_pubInt, Option.bind_some, mplainOps_cons, h.step]
      simp only [mplainStep, plainStep, Option.map_some, Option.bind_some, List.append_assoc, List.nil_append]
      rfl)
    (by rw [h.bp]; exact pick_append _ hib)
    (by rw [h.bp]; exact mapM_pick_append _ hvb)
    (by
      rw [List.nil_append, ← List.append_assoc]
      have : g.bits.length + c.ssz = (s.bp.wires ++ bitsOf c.ssz u.log.length).length := by
        simp only [List.length_append, bitsOf_length, hn]
      rw [this, List.getElem?_concat_length])
    hw hw2 hw3 rfl rfl (by rw [List.length_nil, Nat.add_zero]; exact hps)
  refine ⟨s', k1, fun ch => ?_⟩
  have := k2 ch
  simp only [List.append_assoc, List.cons_append, List.nil_append] at this
  exact this

omit [Field F] [BlockField F] [DecidableEq F] in
theorem noIn_tail (w n : Nat) (b : Bool) (ps : List (List (Nat × List Nat))) :
    ∀ o ∈ pubInt w n ++ (MOp.bool (.pub b) :: ps.map MOp.packAt), o.noIn = true := by
  intro o ho
  rcases List.mem_append.1 ho with ho | ho
  · exact noIn_pubInt _ _ o ho
  · rcases List.mem_cons.1 ho with rfl | ho
    · rfl
    · obtain ⟨p, _, rfl⟩ := List.mem_map.1 ho
      rfl

/-- One call. -/
theorem xcsim_step {c : RxCfg} (hc : c.Ok) {g g' : XNet} {u : XPlain} {s : MPlain F} (h : XCSim c g u s) (hlen : u.log.length < 2 ^ c.ssz)
    {o : XOp} (hw : o.Widths c) {ops ops' : List MOp} (hgen : xGen c g o = some (ops, g')) (hs : List.Forall₂ MOp.same ops ops')
    {ch : Nat → F} {s' : MPlain F} (hrun : mplainOps ch s ops' = some s') :
    ∃ o' u', XOp.same o o' ∧ XTraceStep c u o' u' ∧ XCSim c g' u' s' := by
  cases o with
  | bool o =>
    have hops : ops = [MOp.bool o] := by
      simp only [xGen, Option.bind_eq_bind, Option.bind_eq_some_iff, Option.some.injEq, Prod.mk.injEq] at hgen
      obtain ⟨p, _, rfl, _⟩ := hgen
      rfl
    subst hops
    obtain ⟨k, rfl, hk⟩ := same_bools (l := [o]) hs
    obtain ⟨o', rfl⟩ : ∃ o', k = [o'] := by
      cases hk with
      | cons _ h2 => cases h2; exact ⟨_, rfl⟩
    have hoo : BOp.same o o' := by cases hk with | cons h1 _ => exact h1
    rw [mplain_bools] at hrun
    simp only [List.foldlM_cons, List.foldlM_nil, Option.bind_eq_bind, Option.map_eq_some_iff, Option.bind_eq_some_iff] at hrun
    obtain ⟨b, ⟨b', hb, hb2⟩, rfl⟩ := hrun
    have hbb : b' = b := by simpa using hb2
    subst hbb
    rw [h.bp] at hb
    exact ⟨.bool o', { u with bp := b' }, hoo, ⟨b', hb, rfl⟩, (xcsim_bool h hoo hgen hb).2⟩
  | read ix =>
    simp only [xGen, Option.bind_eq_bind, Option.bind_eq_some_iff, Option.some.injEq, Prod.mk.injEq, Prod.exists] at hgen
    obtain ⟨ib0, hib0, st, v0, hr, ps, hps, rfl, rfl⟩ := hgen
    obtain ⟨f1, f2⟩ := extRead_facts hr
    obtain ⟨a1, a2, rfl, q1, q2⟩ := same_split hs
    obtain ⟨v, hvl, hv, rfl⟩ := same_inInts q1
    have := same_eq q2 (noIn_tail _ _ _ _)
    subst this
    obtain ⟨ib, hib⟩ := pick_of_length h.bits hib0
    obtain ⟨s1, k1, k2⟩ := xcsim_read hc h hlen hw f1 (v := v) (v0 := v0) (by omega) f2 hv hib hps
    rw [k2 ch, Option.some.injEq] at hrun
    subst hrun
    exact ⟨.read ix, _, rfl, ⟨ib, v, hib, hvl.trans f2, hv, rfl⟩, k1⟩
  | write ix vs =>
    simp only [xGen, Option.bind_eq_bind, Option.bind_eq_some_iff, Option.some.injEq, Prod.mk.injEq] at hgen
    obtain ⟨ib0, hib0, vb0, hvb0, st, hr, ps, hps, rfl, rfl⟩ := hgen
    have := same_eq hs (noIn_tail _ _ _ _)
    subst this
    obtain ⟨ib, hib⟩ := pick_of_length h.bits hib0
    obtain ⟨vb, hvb⟩ := mapM_pick_of_length h.bits hvb0
    obtain ⟨s1, k1, k2⟩ := xcsim_write hc h hlen hw.1 hw.2.1 hw.2.2 (extWrite_step hr) hib hvb hps
    rw [k2 ch, Option.some.injEq] at hrun
    subst hrun
    exact ⟨.write ix vs, _, rfl, ⟨ib, vb, hib, hvb, rfl⟩, k1⟩

omit [Field F] [BlockField F] [DecidableEq F] in
theorem xGen_count {c : RxCfg} {g g' : XNet} {o : XOp} {ops : List MOp} (h : xGen c g o = some (ops, g')) :
    g'.st.step = g.st.step + (if o.isMem then 1 else 0) := by
  cases o <;> simp only [xGen, Option.bind_eq_bind, Option.bind_eq_some_iff, Option.some.injEq, Prod.mk.injEq, Prod.exists] at h
  case bool => obtain ⟨p, _, _, rfl⟩ := h; rfl
  case read => obtain ⟨_, _, _, _, hr, _, _, _, rfl⟩ := h; exact (extRead_facts hr).1
  case write => obtain ⟨_, _, _, _, _, hr, _, _, _, rfl⟩ := h; exact extWrite_step hr

omit [Field F] [BlockField F] [DecidableEq F] in
theorem xGens_count {c : RxCfg} {us : List XOp} : ∀ {g g' : XNet} {ops : List MOp}, xGens c g us = some (ops, g') →
    g'.st.step = g.st.step + xaccesses us := by
  induction us with
  | nil => intro g g' ops h; simp only [xGens, Option.some.injEq, Prod.mk.injEq] at h; obtain ⟨_, rfl⟩ := h; rfl
  | cons o us ih =>
    intro g g' ops h
    simp only [xGens, Option.bind_eq_bind, Option.bind_eq_some_iff, Option.some.injEq, Prod.mk.injEq, Prod.exists] at h
    obtain ⟨a, g1, h1, b, g2, h2, _, rfl⟩ := h
    have e1 := xGen_count h1
    have e2 := ih h2
    rw [xaccesses, List.countP_cons]
    rw [xaccesses] at e2
    omega

/-- All calls. -/
theorem xcsim_steps {c : RxCfg} (hc : c.Ok) (h1s : 1 ≤ c.ssz) {ch : Nat → F} {us : List XOp} : ∀ {g g' : XNet} {u : XPlain} {s s' : MPlain F} {ops ops' : List MOp},
    XCSim c g u s → g'.st.step ≤ 2 ^ (c.ssz - 1) → (∀ o ∈ us, o.Widths c) → xGens c g us = some (ops, g') → List.Forall₂ MOp.same ops ops' →
    mplainOps ch s ops' = some s' → ∃ us' u', List.Forall₂ XOp.same us us' ∧ XTrace c u us' u' ∧ XCSim c g' u' s' := by
  induction us with
  | nil =>
    intro g g' u s s' ops ops' h _ _ hgen hs hrun
    simp only [xGens, Option.some.injEq, Prod.mk.injEq] at hgen
    obtain ⟨rfl, rfl⟩ := hgen
    cases hs
    rw [mplainOps, List.foldlM_nil] at hrun
    cases hrun
    exact ⟨[], u, .nil, .nil u, h⟩
  | cons o us ih =>
    intro g g' u s s' ops ops' h hle hw hgen hs hrun
    simp only [xGens, Option.bind_eq_bind, Option.bind_eq_some_iff, Option.some.injEq, Prod.mk.injEq, Prod.exists] at hgen
    obtain ⟨a, g1, h1, b, g2, h2, rfl, rfl⟩ := hgen
    obtain ⟨a', b', rfl, q1, q2⟩ := same_split hs
    rw [mplainOps_append, Option.bind_eq_some_iff] at hrun
    obtain ⟨s1, r1, r2⟩ := hrun
    have hst := h.step
    have hl2 := xGens_count h2
    have hl1 := xGen_count h1
    have hpow : 2 ^ (c.ssz - 1) < 2 ^ c.ssz := Nat.pow_lt_pow_right (by decide) (by omega)
    obtain ⟨o', u1, k1, k2, k3⟩ := xcsim_step hc h (by omega) (hw o (by simp)) h1 q1 r1
    obtain ⟨us', u', l1, l2, l3⟩ := ih k3 hle (fun x hx => hw x (by simp [hx])) h2 q2 r2
    exact ⟨o' :: us', u', .cons k1 l1, .cons k2 l2, l3⟩

/-- The prover can make every run of the program: inputs for one call. -/
theorem xcsim_fwd {c : RxCfg} (hc : c.Ok) {g g' : XNet} {u u' : XPlain} {s : MPlain F} (h : XCSim c g u s) (hlen : u.log.length < 2 ^ c.ssz)
    {o o' : XOp} (hoo : XOp.same o o') (hw : o.Widths c) {ops : List MOp} (hgen : xGen c g o = some (ops, g')) (ht : XTraceStep c u o' u') :
    ∃ ops' s', List.Forall₂ MOp.same ops ops' ∧ (∀ ch, mplainOps ch s ops' = some s') ∧ XCSim c g' u' s' := by
  cases o with
  | bool o =>
    cases o' with
    | bool o' =>
      obtain ⟨b, hb, rfl⟩ := ht
      obtain ⟨rfl, k⟩ := xcsim_bool h hoo hgen hb
      refine ⟨[MOp.bool o'], { s with bp := b }, .cons hoo .nil, fun ch => ?_, k⟩
      rw [mplainOps_cons]
      simp only [mplainStep, h.bp, hb, Option.map_some, Option.bind_some]
      rfl
    | _ => cases hoo
  | read ix =>
    have : o' = .read ix := by cases o' <;> cases hoo; rfl
    subst this
    obtain ⟨ib, v, hib, hvl, hv, rfl⟩ := ht
    simp only [xGen, Option.bind_eq_bind, Option.bind_eq_some_iff, Option.some.injEq, Prod.mk.injEq, Prod.exists] at hgen
    obtain ⟨ib0, hib0, st, v0, hr, ps, hps, rfl, rfl⟩ := hgen
    obtain ⟨f1, f2⟩ := extRead_facts hr
    obtain ⟨s1, k1, k2⟩ := xcsim_read hc h hlen hw f1 (v := v) (v0 := v0) hvl f2 hv hib hps
    exact ⟨_, s1, List.rel_append (R := MOp.same) (inInts_same _ _ _ (f2.trans hvl.symm)) (same_refls _), k2, k1⟩
  | write ix vs =>
    have : o' = .write ix vs := by cases o' <;> cases hoo; rfl
    subst this
    obtain ⟨ib, vb, hib, hvb, rfl⟩ := ht
    simp only [xGen, Option.bind_eq_bind, Option.bind_eq_some_iff, Option.some.injEq, Prod.mk.injEq] at hgen
    obtain ⟨ib0, hib0, vb0, hvb0, st, hr, ps, hps, rfl, rfl⟩ := hgen
    obtain ⟨s1, k1, k2⟩ := xcsim_write hc h hlen hw.1 hw.2.1 hw.2.2 (extWrite_step hr) hib hvb hps
    exact ⟨_, s1, same_refls _, k2, k1⟩

/-- All calls. -/
theorem xcsim_fwds {c : RxCfg} (hc : c.Ok) (h1s : 1 ≤ c.ssz) {us : List XOp} : ∀ {us' : List XOp} {g g' : XNet} {u u' : XPlain} {s : MPlain F}
    {ops : List MOp}, XCSim c g u s → g'.st.step ≤ 2 ^ (c.ssz - 1) → (∀ o ∈ us, o.Widths c) → xGens c g us = some (ops, g') →
    List.Forall₂ XOp.same us us' → XTrace c u us' u' →
    ∃ ops' s', List.Forall₂ MOp.same ops ops' ∧ (∀ ch, mplainOps ch s ops' = some s') ∧ XCSim c g' u' s' := by
  induction us with
  | nil =>
    intro us' g g' u u' s ops h _ _ hgen hs ht
    simp only [xGens, Option.some.injEq, Prod.mk.injEq] at hgen
    obtain ⟨rfl, rfl⟩ := hgen
    cases hs
    cases ht
    exact ⟨[], s, .nil, fun ch => rfl, h⟩
  | cons o us ih =>
    intro us' g g' u u' s ops h hle hw hgen hs ht
    simp only [xGens, Option.bind_eq_bind, Option.bind_eq_some_iff, Option.some.injEq, Prod.mk.injEq, Prod.exists] at hgen
    obtain ⟨a, g1, h1, b, g2, h2, rfl, rfl⟩ := hgen
    cases hs with
    | cons hoo hs =>
      cases ht with
      | cons t1 t2 =>
        have hst := h.step
        have hl2 := xGens_count h2
        have hl1 := xGen_count h1
        have hpow : 2 ^ (c.ssz - 1) < 2 ^ c.ssz := Nat.pow_lt_pow_right (by decide) (by omega)
        obtain ⟨a', s1, k1, k2, k3⟩ := xcsim_fwd hc h (by omega) hoo (hw o (by simp)) h1 t1
        obtain ⟨b', s2, l1, l2, l3⟩ := ih k3 hle (fun x hx => hw x (by simp [hx])) h2 hs t2
        exact ⟨a' ++ b', s2, List.rel_append (R := MOp.same) k1 l1, fun ch => by rw [mplainOps_append, k2, Option.bind_some, l2], l3⟩

end
end EmpZk
