/-
The calls of a program with a read-only memory when input bits are replaced, one by one.
-/
import Verif.Lemmas.RoTrace

namespace EmpZk

/-! ### boolean instructions -/

theorem lookup_lens {α β : Type} {st : PolyStmt Nat} {l : List α} {k : List β} (hl : l.length = k.length) (h : (st.lookup l).isSome) :
    (st.lookup k).isSome := by
  have e1 : l = (l.zip k).map Prod.fst := by rw [List.map_fst_zip (by omega)]
  have e2 : k = (l.zip k).map Prod.snd := by rw [List.map_snd_zip (by omega)]
  rw [e1, lookup_map] at h
  rw [e2, lookup_map]
  simpa using h

theorem rename_defined {uw : List Nat} {U : Plain} (hl : uw.length = U.wires.length) {o o1 : BOp} (h : o.rename uw = some o1) :
    ∃ U', plainStep U o = some U' := by
  have get : ∀ {i a : Nat}, uw[i]? = some a → ∃ b, U.wires[i]? = some b := by
    intro i a h
    have := (List.getElem?_eq_some_iff.1 h).1
    exact ⟨U.wires[i]'(by omega), List.getElem?_eq_getElem _⟩
  cases o <;> simp only [BOp.rename, Option.bind_eq_bind, Option.bind_eq_some_iff, Option.some.injEq] at h <;>
    simp only [plainStep, Option.bind_eq_bind, Option.bind_eq_some_iff, Option.some.injEq]
  case input => exact ⟨_, rfl⟩
  case pub => exact ⟨_, rfl⟩
  case xor =>
    obtain ⟨a, ha, b, hb, _⟩ := h
    obtain ⟨a', ha'⟩ := get ha
    obtain ⟨b', hb'⟩ := get hb
    exact ⟨_, a', ha', b', hb', rfl⟩
  case not =>
    obtain ⟨a, ha, _⟩ := h
    obtain ⟨a', ha'⟩ := get ha
    exact ⟨_, a', ha', rfl⟩
  case and =>
    obtain ⟨a, ha, b, hb, _⟩ := h
    obtain ⟨a', ha'⟩ := get ha
    obtain ⟨b', hb'⟩ := get hb
    exact ⟨_, a', ha', b', hb', rfl⟩
  case reveal =>
    obtain ⟨a, ha, _⟩ := h
    obtain ⟨a', ha'⟩ := get ha
    exact ⟨_, a', ha', rfl⟩
  case poly s =>
    obtain ⟨t, ht, _⟩ := h
    have := lookup_lens (st := s) hl (by rw [ht]; rfl)
    obtain ⟨r, hr⟩ := Option.isSome_iff_exists.1 this
    exact ⟨_, r, hr, rfl⟩

theorem bsame_refl (o : BOp) : BOp.same o o := by
  unfold BOp.same
  split
  · trivial
  · rfl

theorem bsame_refls (l : List BOp) : List.Forall₂ BOp.same l l := by
  induction l with
  | nil => exact .nil
  | cons o l ih => exact .cons (bsame_refl o) ih

theorem rename_same {uw : List Nat} {o o' o1 o1' : BOp} (h : BOp.same o o') (h1 : o.rename uw = some o1) (h2 : o'.rename uw = some o1') :
    BOp.same o1 o1' := by
  unfold BOp.same at h
  split at h
  · simp only [BOp.rename, Option.some.injEq] at h1 h2
    subst h1 h2
    trivial
  · subst h
    rw [h1, Option.some.injEq] at h2
    subst h2
    exact bsame_refl _

theorem rename_back {uw : List Nat} {o o1 o1' : BOp} (h1 : o.rename uw = some o1) (h : BOp.same o1 o1') :
    ∃ o', BOp.same o o' ∧ o'.rename uw = some o1' := by
  by_cases hi : ∃ b, o = .input b
  · obtain ⟨b, rfl⟩ := hi
    simp only [BOp.rename, Option.some.injEq] at h1
    subst h1
    cases o1' with
    | input b' => exact ⟨.input b', trivial, rfl⟩
    | _ => simp [BOp.same] at h
  · refine ⟨o, bsame_refl _, ?_⟩
    rw [h1, bsame_one h]
    rintro b rfl
    cases o <;> simp only [BOp.rename, Option.bind_eq_bind, Option.bind_eq_some_iff, Option.some.injEq, reduceCtorEq, and_false, exists_false] at h1
    exact hi ⟨_, rfl⟩

section
variable {F : Type} [Field F] [BlockField F]

/-- The generator (on some values), a run of the program with arbitrary reads, and the plain session of the replaced instructions. -/
structure VSim (c : RoCfg) (mem : List Nat) (g : RoNet) (u : VTr) (s : MPlain F) : Prop where
  len : g.bits.length = s.bp.wires.length
  uw : pick s.bp.wires g.uw = some u.bp.wires
  outs : s.bp.outs = u.bp.outs
  claims : s.bp.claims = u.bp.claims
  nf : s.fs.length = g.nf
  nr : s.rs.length = g.nr
  macs : pick s.fs g.macs = some ((roRows 0 mem ++ u.since).map (fun e => wordF (roPacked c e)))
  list : g.st.list.length = mem.length + u.since.length
  mems : g.st.mem.length = mem.length
  step : g.st.step = u.since.length
  fits : ∀ e ∈ u.since, e.Fits c

theorem VSim.macsLen {c : RoCfg} {mem : List Nat} {g : RoNet} {u : VTr} {s : MPlain F} (h : VSim c mem g u s) : g.macs.length = g.st.list.length := by
  have := pick_length h.macs
  rw [List.length_map, List.length_append, roRows_length] at this
  rw [h.list, this]

theorem vsim_bool {c : RoCfg} {mem : List Nat} {g g' : RoNet} {u : VTr} {s : MPlain F} (h : VSim c mem g u s) {o o' o1 : BOp}
    (hg : vBool g o = some (o1, g')) (hoo : BOp.same o o') {b : Plain} (hb : plainStep u.bp o' = some b) :
    ∃ o1' b', o'.rename g.uw = some o1' ∧ BOp.same o1 o1' ∧ plainStep s.bp o1' = some b' ∧ VSim c mem g' { u with bp := b } { s with bp := b' } := by
  simp only [vBool, Option.bind_eq_bind, Option.bind_eq_some_iff, Option.some.injEq, Prod.mk.injEq] at hg
  obtain ⟨_, h1, p, hp, rfl, rfl⟩ := hg
  obtain ⟨o1', t, os, cs, k1, k2, k3⟩ := rename_step h.uw hb
  have hs := rename_same hoo h1 k1
  have hlen := plainStep_len hs (p := ⟨g.bits, [], []⟩) (q := s.bp) h.len hp (k3 s.bp.outs s.bp.claims)
  refine ⟨o1', _, k1, hs, k3 s.bp.outs s.bp.claims, ⟨hlen, ?_, ?_, ?_, h.nf, h.nr, h.macs, h.list, h.mems, h.step, h.fits⟩⟩
  · show pick (s.bp.wires ++ t) (g.uw ++ List.range' g.bits.length (p.wires.length - g.bits.length)) = some b.wires
    rw [hlen, h.len, List.length_append, Nat.add_sub_cancel_left, k2]
    exact pick_snoc h.uw t
  · rw [k2]; simp only [h.outs]
  · rw [k2]; simp only [h.claims]

variable [DecidableEq F]

/-! ### reads -/

theorem vsim_push {c : RoCfg} (hc : c.Ok) {g g' : RoNet} {ix : List Nat} (hx : ix.length = c.isz) {ops : List MOp}
    (hg : vPush c g ix = some (ops, g')) :
    ∃ v0 ws, ops = inInt c.vsz v0 ++ [MOp.pack ws] ∧ ∀ (mem : List Nat) (u : VTr) (s : MPlain F), VSim c mem g u s →
      ∃ ib, pick u.bp.wires ix = some ib ∧ ∀ v, v < 2 ^ c.vsz → ∃ s' : MPlain F,
        (∀ ch : Nat → F, mplainOps ch s (inInt c.vsz v ++ [MOp.pack ws]) = some s') ∧ VSim c mem g' (u.push c ⟨bitsNum ib, v⟩) s' := by
  simp only [vPush, Option.bind_eq_bind, Option.bind_eq_some_iff, Option.some.injEq, Prod.mk.injEq, Prod.exists] at hg
  obtain ⟨iw, hiw, ib0, hib0, st, v0, hst, ws, hws, rfl, rfl⟩ := hg
  simp only [roPush, Option.bind_eq_bind, Option.bind_eq_some_iff, Option.some.injEq, Prod.mk.injEq] at hst
  obtain ⟨x, _, w, _, rfl, _⟩ := hst
  refine ⟨v0, ws, rfl, fun mem u s h => ?_⟩
  have hul : u.bp.wires.length = g.uw.length := pick_length h.uw
  obtain ⟨ib, hib⟩ := pick_of_length hul.symm hiw
  have hibs : pick s.bp.wires iw = some ib := by rw [pick_pick h.uw hiw]; exact hib
  have hil : iw.length = c.isz := by rw [pick_length hiw, hx]
  have hibl : ib.length = c.isz := by rw [pick_length hib, hx]
  rw [roPackWires, if_pos ⟨by omega, by simp⟩, Option.some.injEq] at hws
  refine ⟨ib, hib, fun v hv => ⟨⟨{ s.bp with wires := s.bp.wires ++ bitsOf c.vsz v },
    s.fs ++ [wordF (roPacked c ⟨bitsNum ib, v⟩)], s.rs⟩, fun ch => ?_, ?_⟩⟩
  · rw [← hws, mplainOps_append, mplain_inInt, Option.bind_some, mplainOps_cons,
      mplain_roPack hc (ib := ib) (vb := bitsOf c.vsz v)
        (by show pick (s.bp.wires ++ bitsOf c.vsz v) iw = _; exact pick_append _ hibs)
        (by
          have := pick_range' s.bp.wires (bitsOf c.vsz v)
          rw [bitsOf_length] at this
          show pick (s.bp.wires ++ bitsOf c.vsz v) _ = _
          rw [h.len]; exact this)
        (by omega) (by simp) ch, Option.bind_some, bitsNum_bitsOf, Nat.mod_eq_of_lt hv]
    rfl
  · refine ⟨?_, ?_, h.outs, h.claims, by simp [h.nf], h.nr, ?_, ?_, h.mems, ?_, ?_⟩
    · simp only [List.length_append, bitsOf_length, h.len]
    · simp only [VTr.push]
      have := pick_snoc h.uw (bitsOf c.vsz v)
      rwa [bitsOf_length, ← h.len] at this
    · simp only [VTr.push, ← List.append_assoc]
      rw [List.map_append]
      refine pick_append_idx (pick_append _ h.macs) ?_
      rw [pick_cons, ← h.nf, List.getElem?_concat_length]
      rfl
    · simp only [VTr.push, List.length_append, List.length_singleton, h.list]; omega
    · simp only [VTr.push, List.length_append, List.length_singleton, h.step]
    · intro e he
      simp only [VTr.push, List.mem_append, List.mem_singleton] at he
      rcases he with he | rfl
      · exact h.fits e he
      · exact ⟨hibl ▸ bitsNum_lt ib, hv⟩

/-! ### checks -/

theorem vsim_check {lib : CmpLib} (hl : lib.Good) (hno : lib.NoIn) {c : RoCfg} (hc : c.Ok) {g g' : RoNet}
    (hml : g.macs.length = g.st.list.length) (h64 : g.st.list.length < 2 ^ 64) {ops : List MOp} (hg : roCheckGen lib c g = some (ops, g')) :
    ∃ rows0 rops tail, roRowsOps c g.bits.length 0 rows0 = some rops ∧ rows0.length = g.st.list.length ∧ ops = rops ++ tail ∧
      3 ≤ g.st.list.length ∧ (∀ o ∈ tail, o.noIn = true ∧ ∀ is, o = .mulN is → is.length = 5) ∧
      ∀ (mem : List Nat) (u : VTr) (s : MPlain F), VSim c mem g u s → ∀ rows : List RoEnt, rows.length = g.st.list.length → (∀ e ∈ rows, e.Wide c) →
        ∃ rops' t, roRowsOps c g.bits.length 0 rows = some rops' ∧ ∀ ch : Nat → F, ∃ fs',
          (mplainOps ch s (rops' ++ tail) =
            if prodAt (ch g.nr) (rows.map (fun e => wordF (roPacked c e))) =
                prodAt (ch g.nr) ((roRows 0 mem ++ u.since).map (fun e => wordF (roPacked c e))) then
              some ⟨⟨s.bp.wires ++ (rows.flatMap (roRowBits c) ++ t), s.bp.outs ++ roBits c rows, s.bp.claims⟩,
                s.fs ++ (rows.map (fun e => wordF (roPacked c e)) ++ fs'), s.rs ++ [ch g.nr]⟩
            else none) ∧
          (prodAt (ch g.nr) (rows.map (fun e => wordF (roPacked c e))) =
                prodAt (ch g.nr) ((roRows 0 mem ++ u.since).map (fun e => wordF (roPacked c e))) →
            VSim c mem g' (u.check (roBits c rows))
              ⟨⟨s.bp.wires ++ (rows.flatMap (roRowBits c) ++ t), s.bp.outs ++ roBits c rows, s.bp.claims⟩,
                s.fs ++ (rows.map (fun e => wordF (roPacked c e)) ++ fs'), s.rs ++ [ch g.nr]⟩) := by
  simp only [roCheckGen, Option.bind_eq_bind, Option.bind_eq_some_iff, Prod.exists] at hg
  obtain ⟨st, chk, hchk, hg⟩ := hg
  split at hg
  · simp at hg
  simp only [Option.bind_eq_some_iff, Option.some.injEq, Prod.mk.injEq] at hg
  obtain ⟨rops, hrops, se, hse, b, hb, rfl, rfl⟩ := hg
  set m := g.st.list.length with hm
  rw [roCheck] at hchk
  split at hchk
  · simp at hchk
  simp only [Option.bind_eq_bind, Option.bind_some, Option.bind_eq_some_iff] at hchk
  obtain ⟨gs, hgs, hchk⟩ := hchk
  split at hchk
  · simp at hchk
  simp only [Option.bind_some, Option.some.injEq, Prod.mk.injEq] at hchk
  obtain ⟨rfl, rfl⟩ := hchk
  have h3 : 3 ≤ m := by
    by_contra h3
    rw [bchGroups_none (w := 4) (by decide) (by omega)] at hgs
    cases hgs
  have hrl : ((g.st.list.mergeSort (fun a b => decide (a ≤ b))).map (roUnpackU c)).length = m := by
    rw [List.length_map, List.length_mergeSort]
  set rows0 := (g.st.list.mergeSort (fun a b => decide (a ≤ b))).map (roUnpackU c) with hrows0
  set q := roRounds lib c g.bits.length (List.range (m - 1)) (g.bits.length + m * roW c) with hq
  refine ⟨rows0, rops, q.map MOp.bool ++ MOp.sync :: se.map MOp.accLast, hrops, hrl, rfl, h3, ?_, ?_⟩
  · intro o ho
    rw [List.mem_append, List.mem_cons] at ho
    rcases ho with ho | rfl | ho
    · obtain ⟨b, hb, rfl⟩ := List.mem_map.1 ho
      refine ⟨?_, fun is h => by cases h⟩
      have := roRounds_noIn hno _ _ _ _ b hb
      cases b with
      | input x => exact absurd rfl (this x)
      | _ => rfl
    · exact ⟨rfl, fun is h => by cases h⟩
    · obtain ⟨o', ho', rfl⟩ := List.mem_map.1 ho
      exact accLast_kinds (setEqOps_kinds (by simp) hml h3 (by omega) hse o' ho')
  · intro mem u s h rows hrlen hwide
    have hmm := h.list
    rw [← hm] at hmm
    obtain ⟨rops', r1, r2⟩ := roRowsOps_run (F := F) hc (n := g.bits.length) rows 0 hwide
    have lW : (s.bp.wires ++ rows.flatMap (roRowBits c)).length = g.bits.length + m * roW c := by
      rw [List.length_append, flatMap_roRowBits_length, hrlen, h.len]
    obtain ⟨t, ht⟩ := roRounds_any hl (cl := s.bp.claims) (base := g.bits.length) hwide (m - 1) (k := 0) (o := s.bp.outs)
      (W := s.bp.wires ++ rows.flatMap (roRowBits c)) (by omega) (by rw [h.len]; exact roRowsAt_flatMap _ _ _)
    rw [lW, List.drop_zero, ← List.range_eq_range', ← hq] at ht
    refine ⟨rops', t, r1, fun ch => ?_⟩
    set s2 : MPlain F := ⟨⟨s.bp.wires ++ rows.flatMap (roRowBits c) ++ t, s.bp.outs ++ roBits c rows, s.bp.claims⟩,
      s.fs ++ rows.map (fun e => wordF (roPacked c e)), s.rs⟩ with hs2
    obtain ⟨ops, t', hops, hrun⟩ := mplain_setEq ch (s := s2) (as := List.range' g.nf m) (bs := g.macs) (us := rows.map (fun e => wordF (roPacked c e)))
      (vs := (roRows 0 mem ++ u.since).map (fun e => wordF (roPacked c e))) (step := m)
      (by
        have := pick_range' s.fs (rows.map (fun e => (wordF (roPacked c e) : F)))
        rw [List.length_map, hrlen, h.nf] at this
        exact this)
      (pick_append _ h.macs) (by simp) hml h3 (by omega)
    have hl2 : s2.fs.length = g.nf + m := by simp only [hs2, List.length_append, List.length_map, h.nf, hrlen]
    have hl3 : s2.rs.length = g.nr := h.nr
    rw [hl2, hl3, hse, Option.some.injEq] at hops
    subst hops
    rw [hl3] at hrun
    refine ⟨t', ?_, fun hprod => ?_⟩
    · rw [mplainOps_append, r2 ch s (by rw [h.len]; omega), Option.bind_some, mplainOps_append, mplain_bools]
      have ht' : q.foldlM plainStep { wires := s.bp.wires ++ rows.flatMap (roRowBits c), outs := s.bp.outs, claims := s.bp.claims } = _ := ht
      rw [ht', Option.map_some, Option.bind_some, mplainOps_cons]
      simp only [mplainStep, Option.bind_some]
      rw [mplainOps_accLast]
      rw [← hs2, hrun]
      simp only [hs2, List.append_assoc]
    · rw [if_pos hprod] at hrun
      have hmk := mplainOps_makes ch se hrun
      have hlb := plainRun_len (l := q) (l' := q) (bsame_refls q) (p := ⟨g.bits ++ rows0.flatMap (roRowBits c), [], []⟩)
        (q := ⟨s.bp.wires ++ rows.flatMap (roRowBits c), s.bp.outs, s.bp.claims⟩)
        (by simp only [lW, List.length_append, flatMap_roRowBits_length, hrl]) hb ht
      refine ⟨?_, ?_, ?_, h.claims, ?_, ?_, ?_, ?_, h.mems, rfl, by simp [VTr.check]⟩
      · simp only at hlb ⊢
        rw [hlb, List.append_assoc]
      · exact pick_append _ h.uw
      · simp only [VTr.check, h.outs]
      · rw [hl2] at hmk
        rw [← hmk]
        simp only [hs2, List.append_assoc]
      · simp only [List.length_append, List.length_singleton, h.nr]
      · simp only [VTr.check, List.append_nil]
        refine pick_append _ ?_
        have := pick_take mem.length h.macs
        rw [h.mems, this, ← List.map_take, List.take_left' (roRows_length _ _)]
      · simp only [VTr.check, List.length_nil, Nat.add_zero, List.length_take, h.mems]
        omega

end
end EmpZk
