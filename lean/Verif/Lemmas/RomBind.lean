/-
Helper lemmas for C93: the string from which the challenge is computed determines the committed gates.
-/
import Verif.Lemmas.Rom
import Verif.Lemmas.DigestBind
import Verif.Lemmas.BoolProgress
import Verif.Lemmas.BoolSession

namespace EmpZk

/-! ### lengths of the digests -/

theorem rcvOne_shape {S : Nat} {o : ROp} {r1 r2 r1' r2' : RcvSt} {w1 w2 w1' w2' : List Byte}
    (h1 : rcvOne S r1 w1 o = .ok (r1', w1')) (h2 : rcvOne S r2 w2 o = .ok (r2', w2')) (hp : r1.ptr = r2.ptr)
    (hh : r1.hashed.length = r2.hashed.length) (hd : r1.digests.map List.length = r2.digests.map List.length) :
    r1'.ptr = r2'.ptr ∧ r1'.hashed.length = r2'.hashed.length ∧ r1'.digests.map List.length = r2'.digests.map List.length := by
  cases o with
  | flush =>
    rw [rcvOne_flush] at h1 h2
    injection h1 with h1; injection h1 with h1 _; injection h2 with h2; injection h2 with h2 _
    subst h1; subst h2
    exact ⟨rfl, hh, hd⟩
  | back bs =>
    rw [rcvOne_back] at h1 h2
    injection h1 with h1; injection h1 with h1 _; injection h2 with h2; injection h2 with h2 _
    subst h1; subst h2; exact ⟨rfl, hh, hd⟩
  | hash =>
    rw [rcvOne_hash] at h1 h2
    injection h1 with h1; injection h1 with h1 _; injection h2 with h2; injection h2 with h2 _
    subst h1; subst h2
    refine ⟨rfl, rfl, ?_⟩
    simp [hd, hh]
  | data n =>
    rw [rcvOne_data] at h1 h2
    split at h1
    · cases h1
    split at h2
    · cases h2
    injection h1 with h1; injection h1 with h1 _; injection h2 with h2; injection h2 with h2 _
    subst h1; subst h2; exact ⟨rfl, hh, hd⟩
  | bit =>
    obtain ⟨q1, f1, t1⟩ := rcvOne_bit_ok h1
    obtain ⟨q2, f2, t2⟩ := rcvOne_bit_ok h2
    obtain ⟨_, _, _, _, e1⟩ := rcvTake_facts t1
    obtain ⟨_, _, _, _, e2⟩ := rcvTake_facts t2
    subst e1; subst e2
    rcases rcvFill_facts f1 with ⟨a1, a2, _, rfl⟩ | ⟨a1, rfl, _⟩ <;> rcases rcvFill_facts f2 with ⟨b1, b2, _, rfl⟩ | ⟨b1, rfl, _⟩
    · exact ⟨rfl, by simp [hh, List.length_take, Nat.min_eq_left a2, Nat.min_eq_left b2], hd⟩
    · exact absurd (hp ▸ a1) b1
    · exact absurd (hp ▸ b1) a1
    · exact ⟨by simp [hp], hh, hd⟩

theorem rcvRun_shape {S : Nat} (l : List ROp) : ∀ {r1 r2 r1' r2' : RcvSt} {w1 w2 w1' w2' : List Byte},
    rcvRun S r1 w1 l = .ok (r1', w1') → rcvRun S r2 w2 l = .ok (r2', w2') → r1.ptr = r2.ptr →
    r1.hashed.length = r2.hashed.length → r1.digests.map List.length = r2.digests.map List.length →
    r1'.digests.map List.length = r2'.digests.map List.length := by
  induction l with
  | nil =>
    intro r1 r2 r1' r2' w1 w2 w1' w2' h1 h2 _ _ hd
    simp only [rcvRun] at h1 h2
    injection h1 with h1; injection h1 with h1 _; injection h2 with h2; injection h2 with h2 _
    subst h1; subst h2; exact hd
  | cons o l ih =>
    intro r1 r2 r1' r2' w1 w2 w1' w2' h1 h2 hp hh hd
    obtain ⟨q1, v1, a1, b1⟩ := rcvRun_cons_ok.1 h1
    obtain ⟨q2, v2, a2, b2⟩ := rcvRun_cons_ok.1 h2
    obtain ⟨k1, k2, k3⟩ := rcvOne_shape a1 a2 hp hh hd
    exact ih b1 b2 k1 k2 k3

/-! ### the transcript determines the committed gates -/

section
variable {F : Type} [Field F] [BlockField F]

theorem triples_count (ops : List BOp) : ∀ n, (andTriples n ops).length = ops.countP BOp.isAnd := by
  induction ops with
  | nil => intro n; rfl
  | cons o os ih => intro n; cases o <;> simp [andTriples, ih, BOp.isAnd, List.countP_cons]

theorem polyStmts_nil {ops : List BOp} (h : ∀ p, BOp.poly p ∉ ops) : polyStmts ops = [] := by
  induction ops with
  | nil => rfl
  | cons o os ih =>
    have := ih (fun p hp => h p (List.mem_cons_of_mem _ hp))
    cases o with
    | poly p => exact absurd (List.mem_cons_self ..) (h p)
    | _ => simpa [polyStmts] using this

/-- Equality of what the transcript determines. -/
structure SameC (a b : ComSt F) : Prop where
  wires : a.wires = b.wires
  used : a.used = b.used
  gates : a.gates.length = b.gates.length
  polys : a.polys.length = b.polys.length
  transcript : a.transcript = b.transcript

/-- How the transcript grows. -/
theorem comStep_bit {v : BView F} {c c' : ComSt F} {m : BMsg F} {o : BOp} (h : comStep v c m o = some c') :
    c'.transcript = c.transcript ++ (match o with | .input _ => [m.bit] | .and _ _ => [m.bit] | .reveal _ => [m.bit] | _ => []) := by
  cases o with
  | input b => simp only [comStep, Option.some.injEq] at h; subst h; rfl
  | pub b => simp only [comStep, Option.some.injEq] at h; subst h; simp
  | xor i j =>
    simp only [comStep, Option.bind_eq_bind, Option.bind_eq_some_iff, Option.some.injEq] at h
    obtain ⟨_, _, _, _, rfl⟩ := h; simp
  | not i =>
    simp only [comStep, Option.bind_eq_bind, Option.bind_eq_some_iff, Option.some.injEq] at h
    obtain ⟨_, _, rfl⟩ := h; simp
  | and i j =>
    simp only [comStep, Option.bind_eq_bind, Option.bind_eq_some_iff] at h
    obtain ⟨_, _, _, _, r, hr, h⟩ := h
    have ht : r.transcript = c.transcript := by
      unfold comAndRoom at hr
      split at hr
      · split at hr
        · rw [← Option.some.inj hr]; rfl
        · cases hr
      · rw [← Option.some.inj hr]
    unfold comAndPush at h
    simp only [Option.ite_none_right_eq_some, Option.some.injEq] at h
    obtain ⟨_, rfl⟩ := h
    simp [ht]
  | reveal i =>
    simp only [comStep, Option.bind_eq_bind, Option.bind_eq_some_iff, Option.some.injEq] at h
    obtain ⟨_, _, rfl⟩ := h; rfl
  | poly p =>
    simp only [comStep, Option.bind_eq_bind, Option.bind_eq_some_iff] at h
    obtain ⟨_, _, h⟩ := h
    unfold comPolyPush at h
    simp only [Option.ite_none_right_eq_some, Option.some.injEq] at h
    obtain ⟨_, rfl⟩ := h
    unfold comPolyRoom
    split <;> simp [comPolyCheck]

theorem comRun_bits {v : BView F} (ops : List BOp) : ∀ {c c' : ComSt F} {ms : List (BMsg F)}, comRun v c ops ms = some c' →
    c.transcript <+: c'.transcript := by
  induction ops with
  | nil =>
    intro c c' ms h
    cases ms with
    | nil => rw [← Option.some.inj h]
    | cons => cases h
  | cons o os ih =>
    intro c c' ms h
    cases ms with
    | nil => cases h
    | cons m ms =>
      simp only [comRun, Option.bind_eq_bind, Option.bind_eq_some_iff] at h
      obtain ⟨c1, h1, h2⟩ := h
      refine List.IsPrefix.trans ?_ (ih h2)
      rw [comStep_bit h1]
      exact List.prefix_append _ _

theorem SameC.step {v : BView F} {ch1 ch2 : Nat → List Bool → Nat → F} {a b a' b' : ComSt F} {m1 m2 : BMsg F} {o : BOp} (h : SameC a b)
    (h1 : comStep (v.wc ch1) a m1 o = some a') (h2 : comStep (v.wc ch2) b m2 o = some b') (ht : a'.transcript = b'.transcript) :
    SameC a' b' := by
  obtain ⟨hw, hu, hg, hp, hr⟩ := h
  have e1 := comStep_bit h1
  have e2 := comStep_bit h2
  rw [ht, e2, hr] at e1
  have hb := List.append_cancel_left e1
  cases o with
  | input x =>
    simp only [comStep, Option.some.injEq] at h1 h2; subst h1; subst h2
    simp only [List.cons.injEq, and_true] at hb
    exact ⟨by simp [hw, hu, hb, BView.wc], by simp [hu], hg, hp, ht⟩
  | pub x =>
    simp only [comStep, Option.some.injEq] at h1 h2; subst h1; subst h2
    exact ⟨by simp [hw, BView.wc], hu, hg, hp, ht⟩
  | xor i j =>
    simp only [comStep, Option.bind_eq_bind, Option.bind_eq_some_iff, Option.some.injEq] at h1 h2
    obtain ⟨x1, g1, y1, g2, rfl⟩ := h1
    obtain ⟨x2, g3, y2, g4, rfl⟩ := h2
    rw [← hw, g1] at g3; rw [← hw, g2] at g4
    cases g3; cases g4
    exact ⟨by simp [hw], hu, hg, hp, ht⟩
  | not i =>
    simp only [comStep, Option.bind_eq_bind, Option.bind_eq_some_iff, Option.some.injEq] at h1 h2
    obtain ⟨x1, g1, rfl⟩ := h1
    obtain ⟨x2, g3, rfl⟩ := h2
    rw [← hw, g1] at g3
    cases g3
    exact ⟨by simp [hw], hu, hg, hp, ht⟩
  | and i j =>
    simp only [comStep, Option.bind_eq_bind, Option.bind_eq_some_iff] at h1 h2
    obtain ⟨x1, g1, y1, g2, r1, k1, p1⟩ := h1
    obtain ⟨x2, g3, y2, g4, r2, k2, p2⟩ := h2
    simp only [List.cons.injEq, and_true] at hb
    have hroom : r1.wires = r2.wires ∧ r1.used = r2.used ∧ r1.gates.length = r2.gates.length ∧ r1.polys.length = r2.polys.length := by
      unfold comAndRoom at k1 k2
      rw [hg] at k1
      split at k1
      · rename_i hc
        have hc' : b.gates.length = (v.wc ch2).checkSz := hc
        rw [if_pos hc'] at k2
        split at k1
        · split at k2
          · rw [← Option.some.inj k1, ← Option.some.inj k2]
            exact ⟨hw, by simp [comAndCheck, hu], rfl, hp⟩
          · cases k2
        · cases k1
      · rename_i hc
        have hc' : ¬ b.gates.length = (v.wc ch2).checkSz := hc
        rw [if_neg hc'] at k2
        rw [← Option.some.inj k1, ← Option.some.inj k2]
        exact ⟨hw, hu, hg, hp⟩
    unfold comAndPush at p1 p2
    simp only [Option.ite_none_right_eq_some, Option.some.injEq] at p1 p2
    obtain ⟨_, rfl⟩ := p1
    obtain ⟨_, rfl⟩ := p2
    obtain ⟨q1, q2, q3, q4⟩ := hroom
    exact ⟨by simp [q1, q2, hb, BView.wc], by simp [q2], by simp [q3], q4, ht⟩
  | reveal i =>
    simp only [comStep, Option.bind_eq_bind, Option.bind_eq_some_iff, Option.some.injEq] at h1 h2
    obtain ⟨x1, g1, rfl⟩ := h1
    obtain ⟨x2, g3, rfl⟩ := h2
    exact ⟨hw, hu, hg, hp, ht⟩
  | poly p =>
    simp only [comStep, Option.bind_eq_bind, Option.bind_eq_some_iff] at h1 h2
    obtain ⟨x1, g1, p1⟩ := h1
    obtain ⟨x2, g3, p2⟩ := h2
    unfold comPolyPush at p1 p2
    simp only [Option.ite_none_right_eq_some, Option.some.injEq] at p1 p2
    obtain ⟨_, rfl⟩ := p1
    obtain ⟨_, rfl⟩ := p2
    have hne : a.polys ≠ [] ↔ b.polys ≠ [] := by
      rw [← List.length_pos_iff, ← List.length_pos_iff, hp]
    have hroom : (comPolyRoom (v.wc ch1) a m1.ans).wires = (comPolyRoom (v.wc ch2) b m2.ans).wires ∧
        (comPolyRoom (v.wc ch1) a m1.ans).used = (comPolyRoom (v.wc ch2) b m2.ans).used ∧
        (comPolyRoom (v.wc ch1) a m1.ans).gates.length = (comPolyRoom (v.wc ch2) b m2.ans).gates.length ∧
        (comPolyRoom (v.wc ch1) a m1.ans).polys.length = (comPolyRoom (v.wc ch2) b m2.ans).polys.length := by
      unfold comPolyRoom
      by_cases hc : a.polys.length ≥ (v.wc ch1).polySz ∧ a.polys ≠ []
      · have hc2 : b.polys.length ≥ (v.wc ch2).polySz ∧ b.polys ≠ [] := ⟨hp ▸ hc.1, hne.1 hc.2⟩
        rw [if_pos hc, if_pos hc2]
        exact ⟨hw, by simp [comPolyCheck, hu], hg, rfl⟩
      · have hc2 : ¬ (b.polys.length ≥ (v.wc ch2).polySz ∧ b.polys ≠ []) := fun x => hc ⟨hp ▸ x.1, hne.2 x.2⟩
        rw [if_neg hc, if_neg hc2]
        exact ⟨hw, hu, hg, hp⟩
    obtain ⟨q1, q2, q3, q4⟩ := hroom
    exact ⟨q1, q2, q3, by simp [q4], ht⟩

theorem SameC.run {v : BView F} {ch1 ch2 : Nat → List Bool → Nat → F} (ops : List BOp) : ∀ {a b a' b' : ComSt F} {ms1 ms2 : List (BMsg F)},
    SameC a b → comRun (v.wc ch1) a ops ms1 = some a' → comRun (v.wc ch2) b ops ms2 = some b' → a'.transcript = b'.transcript →
    SameC a' b' := by
  induction ops with
  | nil =>
    intro a b a' b' ms1 ms2 h h1 h2 _
    cases ms1 with
    | cons => cases h1
    | nil =>
      cases ms2 with
      | cons => cases h2
      | nil => rw [← Option.some.inj h1, ← Option.some.inj h2]; exact h
  | cons o os ih =>
    intro a b a' b' ms1 ms2 h h1 h2 ht
    cases ms1 with
    | nil => cases h1
    | cons m1 ms1 =>
      cases ms2 with
      | nil => cases h2
      | cons m2 ms2 =>
        simp only [comRun, Option.bind_eq_bind, Option.bind_eq_some_iff] at h1 h2
        obtain ⟨q1, x1, x2⟩ := h1
        obtain ⟨q2, y1, y2⟩ := h2
        have p1 := comRun_bits _ x2
        have p2 := comRun_bits _ y2
        rw [← ht] at p2
        have hl : q1.transcript.length = q2.transcript.length := by
          rw [comStep_bit x1, comStep_bit y1, h.transcript]
          cases o <;> simp
        exact ih (h.step x1 y1 (prefix_unique p1 p2 hl)) x2 y2 ht

theorem gates_unique {w : List F} {ts : List (Nat × Nat × Nat)} : ∀ {g1 g2 : List (Gate F)}, List.Forall₂ (GateAt w) ts g1 →
    List.Forall₂ (GateAt w) ts g2 → g1 = g2 := by
  induction ts with
  | nil => intro g1 g2 h1 h2; cases h1; cases h2; rfl
  | cons t ts ih =>
    intro g1 g2 h1 h2
    cases h1 with
    | cons a1 b1 =>
      cases h2 with
      | cons a2 b2 =>
        rename_i x1 l1 x2 l2
        rw [ih b1 b2]
        obtain ⟨p1, p2, p3⟩ := a1
        obtain ⟨q1, q2, q3⟩ := a2
        rw [p1] at q1; rw [p2] at q2; rw [p3] at q3
        obtain ⟨c1, c2, c3⟩ := x1
        obtain ⟨d1, d2, d3⟩ := x2
        simp only [Option.some.injEq] at q1 q2 q3
        subst q1; subst q2; subst q3; rfl

/-- A session whose gates fit into one batch, without statements: what is put under check. -/
theorem comSession_one {v : BView F} {ops : List BOp} (hand : 0 < ops.countP BOp.isAnd) (hfit : ops.countP BOp.isAnd ≤ v.checkSz)
    (hpoly : ∀ p, BOp.poly p ∉ ops) {ms : List (BMsg F)} {fin : BFin F} {cs : ComSt F} (h : comSession v ops ms fin = some cs) :
    ∃ c k tr, comRun v ComSt.init ops ms = some c ∧ cs.transcript = c.transcript ∧ c.gates.length = ops.countP BOp.isAnd ∧
      List.Forall₂ (GateAt c.wires) (andTriples 0 ops) c.gates ∧ cs.andLog = [⟨c.gates, v.chal k tr, c.used, fin.andAns⟩] ∧
      ∀ r ∈ cs.polyLog, r.polys = [] := by
  simp only [comSession, Option.bind_eq_bind, Option.bind_eq_some_iff] at h
  obtain ⟨c, h1, h2⟩ := h
  have hlb := comRun_lastBatch h1
  have hr := comRun_rec ops (Rec.init v) h1
  rw [triples_count, lastBatch, if_neg (by omega), Nat.mod_eq_of_lt (by omega)] at hlb
  have hg := hr.gates
  simp only [ComSt.init, List.length_nil, List.nil_append] at hg
  have hlen := hg.length_eq
  rw [triples_count, ComSt.allGates, List.length_append, flatMap_length_const _ hr.full] at hlen
  have hal : c.andLog = [] := by
    cases hx : c.andLog with
    | nil => rfl
    | cons a l =>
      rw [hx, List.length_cons, Nat.add_mul] at hlen
      omega
  have hst : c.stmts = [] := by
    have := hr.stmts
    rw [polyStmts_nil hpoly] at this
    simpa using this
  have hps : c.polys = [] ∧ ∀ r ∈ c.polyLog, r.polys = [] := by
    simp only [ComSt.stmts, List.append_eq_nil_iff, List.flatMap_eq_nil_iff] at hst
    exact ⟨hst.2, hst.1⟩
  have hgl : c.gates ≠ [] := by
    intro e; rw [e] at hlb; simp at hlb
  have hfp : comFinPoly v c fin.polyAns = c := by unfold comFinPoly; rw [if_neg (by simp [hps.1])]
  simp only [comFinalize, comFinAnd, hfp] at h2
  rw [if_pos hgl] at h2
  split at h2
  · rw [← Option.some.inj h2]
    refine ⟨c, c.andBatches, c.transcript, h1, rfl, by omega, ?_, by simp [comAndCheck, hal], hps.2⟩
    rw [ComSt.allGates, hal] at hg
    exact hg
  · cases h2

end
end EmpZk
