/-
Helper lemmas: two executions in which the receiving endpoint computes the same digests deliver the same bits.
-/
import Verif.Lemmas.NetMsgs
import Verif.Spec.LateInput
import Verif.Lemmas.NetRecv
import Verif.Lemmas.BoolNetRun

namespace EmpZk

/-! ### the endpoint -/

theorem rcvOne_grow {S : Nat} {r r' : RcvSt} {w w' : List Byte} {o : ROp} (h1 : rcvOne S r w o = .ok (r', w')) :
    r.bits <+: r'.bits ∧ r.digests <+: r'.digests := by
  cases o with
  | flush =>
    rw [rcvOne_flush] at h1
    injection h1 with h1; injection h1 with h1 _; subst h1; exact ⟨List.prefix_rfl, List.prefix_rfl⟩
  | back bs =>
    rw [rcvOne_back] at h1
    injection h1 with h1; injection h1 with h1 _; subst h1; exact ⟨List.prefix_rfl, List.prefix_rfl⟩
  | hash =>
    rw [rcvOne_hash] at h1
    injection h1 with h1; injection h1 with h1 _; subst h1
    exact ⟨List.prefix_rfl, List.prefix_append _ _⟩
  | data n =>
    rw [rcvOne_data] at h1
    split at h1
    · cases h1
    · injection h1 with h1; injection h1 with h1 _; subst h1
      exact ⟨List.prefix_rfl, List.prefix_rfl⟩
  | bit =>
    obtain ⟨r0, hf, ht⟩ := rcvOne_bit_ok h1
    obtain ⟨c, b, _, _, e⟩ := rcvTake_facts ht
    subst e
    rcases rcvFill_facts hf with ⟨_, _, _, e⟩ | ⟨_, e, _⟩
    · subst e; exact ⟨List.prefix_append _ _, List.prefix_rfl⟩
    · subst e; exact ⟨List.prefix_append _ _, List.prefix_rfl⟩

theorem rcvRun_grow {S : Nat} (l : List ROp) : ∀ {r r' : RcvSt} {w w' : List Byte}, rcvRun S r w l = .ok (r', w') →
    r.bits <+: r'.bits ∧ r.digests <+: r'.digests := by
  induction l with
  | nil =>
    intro r r' w w' h
    simp only [rcvRun] at h
    injection h with h; injection h with h _; subst h; exact ⟨List.prefix_rfl, List.prefix_rfl⟩
  | cons o l ih =>
    intro r r' w w' h
    obtain ⟨r1, w1, h1, h2⟩ := rcvRun_cons_ok.1 h
    have a := rcvOne_grow h1
    have b := ih h2
    exact ⟨a.1.trans b.1, a.2.trans b.2⟩

/-- The first digest of a list of calls. -/
theorem split_hash (l : List ROp) : (∀ o ∈ l, o ≠ .hash) ∨ ∃ a b, l = a ++ .hash :: b ∧ ∀ o ∈ a, o ≠ .hash := by
  induction l with
  | nil => left; simp
  | cons o l ih =>
    by_cases ho : o = .hash
    · right; exact ⟨[], l, by rw [ho]; rfl, by simp⟩
    · rcases ih with h | ⟨a, b, h1, h2⟩
      · left
        intro x hx
        rcases List.mem_cons.1 hx with h' | h'
        · rw [h']; exact ho
        · exact h x h'
      · right
        refine ⟨o :: a, b, by rw [h1]; rfl, ?_⟩
        intro x hx
        rcases List.mem_cons.1 hx with h' | h'
        · rw [h']; exact ho
        · exact h2 x h'

/-- Up to a digest: equal digests, equal bits. -/
theorem rcvRun_upto {S : Nat} (l : List ROp) (hl : ∀ o ∈ l, o ≠ .hash) {r1 r2 r1' r2' : RcvSt} {w1 w2 w1' w2' : List Byte}
    (h1 : rcvRun S r1 w1 (l ++ [.hash]) = .ok (r1', w1')) (h2 : rcvRun S r2 w2 (l ++ [.hash]) = .ok (r2', w2'))
    (p1 : r1.ptr = S ∧ r1.hashed = []) (p2 : r2.ptr = S ∧ r2.hashed = []) (hd : r1'.digests = r2'.digests) :
    (r1'.ptr = S ∧ r1'.hashed = []) ∧ (r2'.ptr = S ∧ r2'.hashed = []) ∧
    ∃ nb, nb.length = rcvBits l ∧ r1'.bits = r1.bits ++ nb ∧ r2'.bits = r2.bits ++ nb := by
  obtain ⟨q1, v1, a1, b1⟩ := (rcvRun_append_ok l [.hash]).1 h1
  obtain ⟨q2, v2, a2, b2⟩ := (rcvRun_append_ok l [.hash]).1 h2
  obtain ⟨x1, y1, e1, f1⟩ := rcvRun_cons_ok.1 b1
  obtain ⟨x2, y2, e2, f2⟩ := rcvRun_cons_ok.1 b2
  rw [rcvOne_hash] at e1 e2
  injection e1 with e1; injection e1 with e1 _; subst e1
  injection e2 with e2; injection e2 with e2 _; subst e2
  simp only [rcvRun] at f1 f2
  injection f1 with f1; injection f1 with f1 _; subst f1
  injection f2 with f2; injection f2 with f2 _; subst f2
  refine ⟨⟨rfl, rfl⟩, ⟨rfl, rfl⟩, ?_⟩
  have hd' := (List.append_inj' hd rfl).2
  simp only [List.cons.injEq, and_true] at hd'
  obtain ⟨nb, k1, k2⟩ := rcvRun_bits l hl a1 a2 hd' (by rw [p1.2, p2.2]) (by rw [p1.1, p2.1]) (fun h => absurd p1.1 h)
  refine ⟨nb, ?_, k1, k2⟩
  have := (rcvRun_counts l a1).1
  rw [k1, List.length_append] at this
  omega

/-- Two runs of the same calls, with the same digests, return the same bits up to the last digest. -/
theorem rcvRun_digests {S : Nat} (t : List ROp) : ∀ (m : Nat) (l : List ROp), l.length = m →
    ∀ {r1 r2 r1' r2' : RcvSt} {w1 w2 w1' w2' : List Byte},
    rcvRun S r1 w1 (l ++ .hash :: t) = .ok (r1', w1') → rcvRun S r2 w2 (l ++ .hash :: t) = .ok (r2', w2') →
    (r1.ptr = S ∧ r1.hashed = []) → (r2.ptr = S ∧ r2.hashed = []) → r1.digests.length = r2.digests.length →
    r1'.digests = r2'.digests →
    ∃ nb, nb.length = rcvBits l ∧ r1.bits ++ nb <+: r1'.bits ∧ r2.bits ++ nb <+: r2'.bits := by
  intro m
  induction m using Nat.strong_induction_on with
  | _ m ih =>
    intro l hm r1 r2 r1' r2' w1 w2 w1' w2' h1 h2 p1 p2 hlen hd
    have one : ∀ a b, l ++ .hash :: t = (a ++ [.hash]) ++ b → (∀ o ∈ a, o ≠ .hash) →
        ∃ s1 s2 v1 v2 nb, rcvRun S s1 v1 b = .ok (r1', w1') ∧ rcvRun S s2 v2 b = .ok (r2', w2') ∧
          (s1.ptr = S ∧ s1.hashed = []) ∧ (s2.ptr = S ∧ s2.hashed = []) ∧ s1.digests.length = s2.digests.length ∧
          nb.length = rcvBits a ∧ s1.bits = r1.bits ++ nb ∧ s2.bits = r2.bits ++ nb := by
      intro a b e ha
      rw [e] at h1 h2
      obtain ⟨s1, v1, a1, b1⟩ := (rcvRun_append_ok _ _).1 h1
      obtain ⟨s2, v2, a2, b2⟩ := (rcvRun_append_ok _ _).1 h2
      have c1 := (rcvRun_counts _ a1).2.2
      have c2 := (rcvRun_counts _ a2).2.2
      have hl' : s1.digests.length = s2.digests.length := by omega
      have g1 := (rcvRun_grow _ b1).2
      have g2 := (rcvRun_grow _ b2).2
      rw [← hd] at g2
      have hds := prefix_unique g1 g2 hl'
      obtain ⟨k1, k2, nb, k3, k4, k5⟩ := rcvRun_upto a ha a1 a2 p1 p2 hds
      exact ⟨s1, s2, v1, v2, nb, b1, b2, k1, k2, hl', k3, k4, k5⟩
    rcases split_hash l with hl | ⟨a, b, hab, ha⟩
    · obtain ⟨s1, s2, v1, v2, nb, b1, b2, _, _, _, k3, k4, k5⟩ := one l t (by simp) hl
      refine ⟨nb, k3, ?_, ?_⟩
      · rw [← k4]; exact (rcvRun_grow _ b1).1
      · rw [← k5]; exact (rcvRun_grow _ b2).1
    · obtain ⟨s1, s2, v1, v2, nb, b1, b2, j1, j2, j3, k3, k4, k5⟩ := one a (b ++ .hash :: t) (by rw [hab]; simp) ha
      obtain ⟨nb', i1, i2, i3⟩ := ih b.length (by rw [← hm, hab]; simp; omega) b rfl b1 b2 j1 j2 j3 hd
      refine ⟨nb ++ nb', ?_, ?_, ?_⟩
      · rw [List.length_append, k3, i1, hab]
        simp [rcvBits]
      · rw [← List.append_assoc, ← k4]; exact i2
      · rw [← List.append_assoc, ← k5]; exact i3

/-! ### the verifier -/

section
variable {F : Type}

/-- Equality of everything in the state of the verifier which is computed from bits. -/
structure SameV (a b : VerSt F) : Prop where
  wires : a.wires = b.wires
  used : a.used = b.used
  gates : a.gates = b.gates
  polys : a.polys = b.polys
  transcript : a.transcript = b.transcript
  digest : a.digest = b.digest
  outs : a.outs = b.outs
  polyB : a.polyBatches = b.polyBatches
  andLog : a.andLog.map AndRec.gates = b.andLog.map AndRec.gates
  polyLog : a.polyLog.map PolyRec.polys = b.polyLog.map PolyRec.polys

theorem SameV.cnt {a b : VerSt F} (h : SameV a b) : a.cnt = b.cnt := by
  simp only [VerSt.cnt, h.used, h.gates, h.polys, h.polyB]

/-- The next `k` bits are the same as well. -/
def SameN (k : Nat) (a b : VerNet F) : Prop :=
  SameV a.st b.st ∧ ∃ nb t1 t2, nb.length = k ∧ a.bits = nb ++ t1 ∧ b.bits = nb ++ t2

/-- The same session with other challenges. -/
abbrev NetEnv.ws (ne : NetEnv F) (sd : List Byte → Nat → F) : NetEnv F := { ne with seeds := sd }

variable {ne : NetEnv F} {sd : List Byte → Nat → F} {k : Nat} {a b a' b' : VerNet F}

theorem SameN.rcot {u n : Nat} (h : SameN (rcvBits (ne.extV u n) + k) a b) (h1 : a.rcot ne u n = some a') (h2 : b.rcot ne u n = some b') :
    SameN k a' b' ∧ a'.st = a.st ∧ b'.st = b.st := by
  obtain ⟨hs, nb, t1, t2, e1, e2, e3⟩ := h
  unfold VerNet.rcot at h1 h2
  simp only [Option.ite_none_left_eq_some, Option.some.injEq] at h1 h2
  obtain ⟨_, rfl⟩ := h1
  obtain ⟨_, rfl⟩ := h2
  refine ⟨⟨hs, nb.drop (rcvBits (ne.extV u n)), t1, t2, by simp [e1], ?_, ?_⟩, rfl, rfl⟩
  · simp only [e2]; rw [List.drop_append_of_le_length (by omega)]
  · simp only [e3]; rw [List.drop_append_of_le_length (by omega)]

theorem SameN.bit {x y : Bool} (h : SameN (1 + k) a b) (h1 : a.bit = some (x, a')) (h2 : b.bit = some (y, b')) :
    SameN k a' b' ∧ a'.st = a.st ∧ b'.st = b.st ∧ x = y := by
  obtain ⟨hs, nb, t1, t2, e1, e2, e3⟩ := h
  cases nb with
  | nil => simp at e1; omega
  | cons c nb =>
    unfold VerNet.bit at h1 h2
    rw [e2] at h1
    rw [e3] at h2
    simp only [List.cons_append, Option.some.injEq, Prod.mk.injEq] at h1 h2
    obtain ⟨rfl, rfl⟩ := h1
    obtain ⟨rfl, rfl⟩ := h2
    exact ⟨⟨hs, nb, t1, t2, by simp at e1; omega, rfl, rfl⟩, rfl, rfl, rfl⟩

theorem SameN.data {x y : List Byte} {n : Nat} (h : SameN k a b) (h1 : a.data n = some (x, a')) (h2 : b.data n = some (y, b')) :
    SameN k a' b' ∧ a'.st = a.st ∧ b'.st = b.st := by
  obtain ⟨hs, nb, t1, t2, e1, e2, e3⟩ := h
  unfold VerNet.data at h1 h2
  split at h1
  · cases h1
  split at h2
  · cases h2
  simp only [Option.some.injEq, Prod.mk.injEq] at h1 h2
  obtain ⟨_, rfl⟩ := h1
  obtain ⟨_, rfl⟩ := h2
  exact ⟨⟨hs, nb, t1, t2, e1, e2, e3⟩, rfl, rfl⟩

theorem SameN.hash {x y : List Byte} (h : SameN k a b) (h1 : a.hash = some (x, a')) (h2 : b.hash = some (y, b')) :
    SameN k a' b' ∧ a'.st = a.st ∧ b'.st = b.st := by
  obtain ⟨hs, nb, t1, t2, e1, e2, e3⟩ := h
  unfold VerNet.hash at h1 h2
  split at h1
  · cases h1
  split at h2
  · cases h2
  simp only [Option.some.injEq, Prod.mk.injEq] at h1 h2
  obtain ⟨_, rfl⟩ := h1
  obtain ⟨_, rfl⟩ := h2
  exact ⟨⟨hs, nb, t1, t2, e1, e2, e3⟩, rfl, rfl⟩

theorem SameN.set {s1 s2 : VerSt F} {c1 c2 : List ROp} (h : SameN k a b) (hs : SameV s1 s2) :
    SameN k { a with st := s1, calls := c1 } { b with st := s2, calls := c2 } := ⟨hs, h.2⟩

theorem SameN.calls {c1 c2 : List ROp} (h : SameN k a b) : SameN k { a with calls := c1 } { b with calls := c2 } := ⟨h.1, h.2⟩

variable [Field F] [BlockField F] [DecidableEq F]

theorem twin_andCheck {e1 e2 : BEnv F} {s1 s2 q1 q2 : VerSt F} (h : SameV s1 s2) {x y : F × F}
    (h1 : verAndCheck e1 s1 x = some q1) (h2 : verAndCheck e2 s2 y = some q2) : SameV q1 q2 ∧ q1.cnt = s1.cnt.andChk := by
  unfold verAndCheck at h1 h2
  split at h1
  · cases h1
  split at h2
  · cases h2
  simp only [Option.some.injEq] at h1 h2
  subst h1; subst h2
  refine ⟨⟨h.wires, by simp [h.used], rfl, h.polys, h.transcript, h.digest, h.outs, h.polyB, ?_, h.polyLog⟩, rfl⟩
  simp [h.andLog, h.gates]

theorem twin_polyCheck {e1 e2 : BEnv F} {s1 s2 : VerSt F} (h : SameV s1 s2) (x y : F × F) :
    SameV (verPolyCheck e1 s1 x) (verPolyCheck e2 s2 y) ∧ (verPolyCheck e1 s1 x).cnt = s1.cnt.polyChk := by
  refine ⟨⟨h.wires, by simp [verPolyCheck, h.used], h.gates, rfl, h.transcript, h.digest, h.outs, by simp [verPolyCheck, h.polyB], h.andLog, ?_⟩, rfl⟩
  simp [verPolyCheck, h.polyLog, h.polys]

omit [Field F] [BlockField F] [DecidableEq F] in
theorem bits_and (c : NetCnt) : rcvBits (andCallsV ne c) = rcvBits (ne.extV c.used 128) := by
  simp [andCallsV, rcvBits]

omit [Field F] [BlockField F] [DecidableEq F] in
theorem bits_poly (c : NetCnt) : rcvBits (polyCallsV ne c) = rcvBits (ne.extV c.used 128) := by
  simp [polyCallsV, rcvBits]

theorem twin_vnAnd (h : SameN (rcvBits (andCallsV ne a.st.cnt) + k) a b) (h1 : vnAndCheck ne a = some a') (h2 : vnAndCheck (ne.ws sd) b = some b') :
    SameN k a' b' ∧ a'.st.cnt = a.st.cnt.andChk := by
  rw [bits_and] at h
  simp only [vnAndCheck, Option.bind_eq_bind, Option.bind_eq_some_iff, Prod.exists] at h1 h2
  obtain ⟨d1, v1, x1, w1, x2, bs1, u1, x3, s1, x4, x5⟩ := h1
  obtain ⟨d2, v2, y1, w2, y2, bs2, u2, y3, s2, y4, y5⟩ := h2
  obtain ⟨r1, r2, r3⟩ := h.hash x1 y1
  have hu : v2.st.used = v1.st.used := r1.1.used.symm
  rw [hu] at y2
  have hv : v1.st.used = a.st.cnt.used := by rw [r2]; rfl
  obtain ⟨r4, r5, r6⟩ := (hv.symm ▸ r1 : SameN (rcvBits (ne.extV v1.st.used 128) + k) v1 v2).rcot x2 y2
  obtain ⟨r7, r8, r9⟩ := r4.data x3 y3
  obtain ⟨r10, r11⟩ := twin_andCheck r7.1 x4 y4
  simp only [Option.some.injEq] at x5 y5
  subst x5; subst y5
  refine ⟨r7.set r10, ?_⟩
  rw [show s1.cnt = _ from r11, r8, r5, r2]

theorem twin_vnPoly (h : SameN (rcvBits (polyCallsV ne a.st.cnt) + k) a b) (h1 : vnPolyCheck ne a = some a') (h2 : vnPolyCheck (ne.ws sd) b = some b') :
    SameN k a' b' ∧ a'.st.cnt = a.st.cnt.polyChk := by
  rw [bits_poly] at h
  simp only [vnPolyCheck, Option.bind_eq_bind, Option.bind_eq_some_iff, Prod.exists] at h1 h2
  obtain ⟨w1, x2, bs1, u1, x3, x5⟩ := h1
  obtain ⟨w2, y2, bs2, u2, y3, y5⟩ := h2
  rw [← h.1.used] at y2
  obtain ⟨r4, r5, r6⟩ := (h.calls).rcot x2 y2
  obtain ⟨r7, r8, r9⟩ := r4.data x3 y3
  simp only [Option.some.injEq] at x5 y5
  subst x5; subst y5
  obtain ⟨r10, r11⟩ := twin_polyCheck (e1 := ne.env [] (ne.e.polySeed a.st.polyBatches)) (e2 := ne.env [] (ne.e.polySeed b.st.polyBatches)) r7.1 (ne.dec2 bs1) (ne.dec2 bs2)
  refine ⟨r7.set r10, ?_⟩
  rw [show (verPolyCheck _ u1.st _).cnt = _ from r11, r8, r5]

theorem twin_andRoom (h : SameN (rcvBits (if a.st.cnt.gates = ne.e.checkSz then andCallsV ne a.st.cnt else []) + k) a b)
    (h1 : vnAndRoom ne a = some a') (h2 : vnAndRoom (ne.ws sd) b = some b') : SameN k a' b' ∧ a'.st.cnt = cntRoomA ne a.st.cnt := by
  have hg : b.st.gates.length = a.st.cnt.gates := by rw [← h.1.gates]; rfl
  unfold vnAndRoom at h1 h2
  rw [hg] at h2
  change (if a.st.cnt.gates = ne.e.checkSz then _ else _) = _ at h1
  unfold cntRoomA
  by_cases hc : a.st.cnt.gates = ne.e.checkSz
  · rw [if_pos hc] at h h1 h2 ⊢
    exact twin_vnAnd h h1 h2
  · rw [if_neg hc] at h h1 h2 ⊢
    cases h1; cases h2
    exact ⟨by simpa [rcvBits] using h, rfl⟩

theorem twin_polyRoom (h : SameN (rcvBits (if a.st.cnt.polys ≥ ne.e.polySz ∧ a.st.cnt.polys ≠ 0 then polyCallsV ne a.st.cnt else []) + k) a b)
    (h1 : vnPolyRoom ne a = some a') (h2 : vnPolyRoom (ne.ws sd) b = some b') : SameN k a' b' ∧ a'.st.cnt = cntRoomP ne a.st.cnt := by
  have hg : a.st.polys = b.st.polys := h.1.polys
  have hz : (a.st.polys.length ≥ ne.e.polySz ∧ a.st.polys ≠ []) ↔ (a.st.cnt.polys ≥ ne.e.polySz ∧ a.st.cnt.polys ≠ 0) := by simp [VerSt.cnt]
  unfold vnPolyRoom at h1 h2
  rw [← hg] at h2
  unfold cntRoomP
  by_cases hc : a.st.cnt.polys ≥ ne.e.polySz ∧ a.st.cnt.polys ≠ 0
  · rw [if_pos hc] at h ⊢
    rw [if_pos (hz.2 hc)] at h1 h2
    exact twin_vnPoly h h1 h2
  · rw [if_neg hc] at h ⊢
    rw [if_neg (fun x => hc (hz.1 x))] at h1 h2
    cases h1; cases h2
    exact ⟨by simpa [rcvBits] using h, rfl⟩

/-- One instruction. -/
theorem twin_netStep {op : BOp} (h : SameN (rcvBits (callsV ne a.st.cnt op) + k) a b) (h1 : netStepV ne a op = some a')
    (h2 : netStepV (ne.ws sd) b op = some b') : SameN k a' b' ∧ a'.st.cnt = cntStep ne a.st.cnt op := by
  cases op with
  | input x =>
    simp only [netStepV, Option.bind_eq_bind, Option.bind_eq_some_iff, Prod.exists] at h1 h2
    obtain ⟨v1, x1, d1, u1, x2, s1, x3, x4⟩ := h1
    obtain ⟨v2, y1, d2, u2, y2, s2, y3, y4⟩ := h2
    rw [← h.1.used] at y1
    rw [show rcvBits (callsV ne a.st.cnt (.input x)) + k = rcvBits (ne.extV a.st.used 1) + (1 + k) by
      rw [callsV, rcvBits_append]; simp [rcvBits, VerSt.cnt]; omega] at h
    obtain ⟨r1, r2, r3⟩ := h.rcot x1 y1
    obtain ⟨r4, r5, r6, rfl⟩ := r1.bit x2 y2
    simp only [verStep, Option.some.injEq] at x3 x4 y3 y4
    subst x3; subst x4; subst y3; subst y4
    have hs := r4.1
    refine ⟨r4.set ⟨by simp [hs.wires, hs.used], by simp [hs.used], hs.gates, hs.polys, by simp [hs.transcript], hs.digest, hs.outs, hs.polyB, hs.andLog, hs.polyLog⟩, ?_⟩
    simp [VerSt.cnt, cntStep, r5, r2]
  | and i j =>
    simp only [netStepV, Option.bind_eq_bind, Option.bind_eq_some_iff, Prod.exists] at h1 h2
    obtain ⟨l1, z1, m1, z2, p1, z3, v1, x1, d1, u1, x2, s1, x3, x4⟩ := h1
    obtain ⟨l2, z4, m2, z5, p2, z6, v2, y1, d2, u2, y2, s2, y3, y4⟩ := h2
    rw [← h.1.wires, z1] at z4
    rw [← h.1.wires, z2] at z5
    cases z4; cases z5
    rw [show rcvBits (callsV ne a.st.cnt (.and i j)) + k = rcvBits (if a.st.cnt.gates = ne.e.checkSz then andCallsV ne a.st.cnt else []) +
      (rcvBits (ne.extV (cntRoomA ne a.st.cnt).used 1) + (1 + k)) by
      rw [callsV, rcvBits_append, rcvBits_append]; simp [rcvBits]; omega] at h
    obtain ⟨r0, rc⟩ := twin_andRoom h z3 z6
    rw [← r0.1.used] at y1
    have hu : (cntRoomA ne a.st.cnt).used = p1.st.used := by rw [← rc]; rfl
    rw [hu] at r0
    obtain ⟨r1, r2, r3⟩ := r0.rcot x1 y1
    obtain ⟨r4, r5, r6, rfl⟩ := r1.bit x2 y2
    have hs := r4.1
    unfold verAndPush at x3 y3
    simp only [Option.ite_none_right_eq_some, Option.some.injEq] at x3 x4 y3 y4
    obtain ⟨_, rfl⟩ := x3
    obtain ⟨_, rfl⟩ := y3
    subst x4; subst y4
    refine ⟨r4.set ⟨by simp [hs.wires, hs.used], by simp [hs.used], by simp [hs.gates, hs.used], hs.polys, by simp [hs.transcript], hs.digest, hs.outs, hs.polyB, hs.andLog, hs.polyLog⟩, ?_⟩
    simp only [cntStep, ← rc]
    simp [VerSt.cnt, r5, r2]
  | reveal i =>
    simp only [netStepV, Option.bind_eq_bind, Option.bind_eq_some_iff, Prod.exists] at h1 h2
    obtain ⟨d1, u1, x2, s1, x3, x4⟩ := h1
    obtain ⟨d2, u2, y2, s2, y3, y4⟩ := h2
    rw [show rcvBits (callsV ne a.st.cnt (.reveal i)) + k = 1 + k by simp [callsV, rcvBits]] at h
    obtain ⟨r4, r5, r6, rfl⟩ := h.bit x2 y2
    have hs := r4.1
    simp only [verStep, Option.bind_eq_bind, Option.bind_eq_some_iff, Option.some.injEq] at x3 x4 y3 y4
    obtain ⟨a1, g1, rfl⟩ := x3
    obtain ⟨a2, g2, rfl⟩ := y3
    rw [← hs.wires, g1] at g2
    cases g2
    subst x4; subst y4
    refine ⟨r4.set ⟨hs.wires, hs.used, hs.gates, hs.polys, by simp [hs.transcript], by simp [hs.digest], by simp [hs.outs], hs.polyB, hs.andLog, hs.polyLog⟩, ?_⟩
    simp [VerSt.cnt, cntStep, r5]
  | poly p =>
    simp only [netStepV, Option.bind_eq_bind, Option.bind_eq_some_iff, Prod.exists] at h1 h2
    obtain ⟨q1, z1, u1, x2, s1, x3, x4⟩ := h1
    obtain ⟨q2, z2, u2, y2, s2, y3, y4⟩ := h2
    rw [← h.1.wires, z1] at z2
    cases z2
    obtain ⟨r0, rc⟩ := twin_polyRoom h x2 y2
    have hs := r0.1
    unfold verPolyPush at x3 y3
    simp only [Option.ite_none_right_eq_some, Option.some.injEq] at x3 x4 y3 y4
    obtain ⟨_, rfl⟩ := x3
    obtain ⟨_, rfl⟩ := y3
    subst x4; subst y4
    refine ⟨r0.set ⟨hs.wires, hs.used, hs.gates, by simp [hs.polys], hs.transcript, hs.digest, hs.outs, hs.polyB, hs.andLog, hs.polyLog⟩, ?_⟩
    simp only [cntStep, ← rc]
    simp [VerSt.cnt]
  | pub x =>
    simp only [netStepV, verStep, Option.bind_eq_bind, Option.bind_some, Option.some.injEq] at h1 h2
    subst h1; subst h2
    have hs := h.1
    exact ⟨⟨⟨by simp [hs.wires], hs.used, hs.gates, hs.polys, hs.transcript, hs.digest, hs.outs, hs.polyB, hs.andLog, hs.polyLog⟩, by simpa [callsV, rcvBits] using h.2⟩, rfl⟩
  | xor i j =>
    simp only [netStepV, verStep, Option.bind_eq_bind, Option.bind_eq_some_iff, Option.some.injEq] at h1 h2
    obtain ⟨s1, ⟨a1, g1, b1, g2, rfl⟩, rfl⟩ := h1
    obtain ⟨s2, ⟨a2, g3, b2, g4, rfl⟩, rfl⟩ := h2
    have hs := h.1
    rw [← hs.wires, g1] at g3
    rw [← hs.wires, g2] at g4
    cases g3; cases g4
    exact ⟨⟨⟨by simp [hs.wires], hs.used, hs.gates, hs.polys, hs.transcript, hs.digest, hs.outs, hs.polyB, hs.andLog, hs.polyLog⟩, by simpa [callsV, rcvBits] using h.2⟩, rfl⟩
  | not i =>
    simp only [netStepV, verStep, Option.bind_eq_bind, Option.bind_eq_some_iff, Option.some.injEq] at h1 h2
    obtain ⟨s1, ⟨a1, g1, rfl⟩, rfl⟩ := h1
    obtain ⟨s2, ⟨a2, g3, rfl⟩, rfl⟩ := h2
    have hs := h.1
    rw [← hs.wires, g1] at g3
    cases g3
    exact ⟨⟨⟨by simp [hs.wires], hs.used, hs.gates, hs.polys, hs.transcript, hs.digest, hs.outs, hs.polyB, hs.andLog, hs.polyLog⟩, by simpa [callsV, rcvBits] using h.2⟩, rfl⟩

/-- A program. -/
theorem twin_netRun (ops : List BOp) : ∀ {a b a' b' : VerNet F} {k : Nat}, SameN (rcvBits (runCallsV ne a.st.cnt ops) + k) a b →
    netRunV ne a ops = some a' → netRunV (ne.ws sd) b ops = some b' → SameN k a' b' ∧ a'.st.cnt = cntRun ne a.st.cnt ops := by
  induction ops with
  | nil =>
    intro a b a' b' k h h1 h2
    cases h1; cases h2
    exact ⟨by simpa [runCallsV, rcvBits] using h, rfl⟩
  | cons o os ih =>
    intro a b a' b' k h h1 h2
    simp only [netRunV, Option.bind_eq_bind, Option.bind_eq_some_iff] at h1 h2
    obtain ⟨u1, x1, x2⟩ := h1
    obtain ⟨u2, y1, y2⟩ := h2
    rw [runCallsV, rcvBits_append, Nat.add_assoc] at h
    obtain ⟨r1, r2⟩ := twin_netStep h x1 y1
    rw [← r2] at r1
    obtain ⟨r3, r4⟩ := ih r1 x2 y2
    exact ⟨r3, by rw [r4, r2]; rfl⟩

/-- `finalize_zk_bool`: nothing depends on the bits any more. -/
theorem twin_netFin (h : SameN k a b) (hp : a.st.polys ≠ [] → rcvBits (polyCallsV ne a.st.cnt) ≤ k) (h1 : netFinV ne a = some a')
    (h2 : netFinV (ne.ws sd) b = some b') : SameV a'.st b'.st := by
  simp only [netFinV, Option.bind_eq_bind, Option.bind_eq_some_iff, Prod.exists] at h1 h2
  obtain ⟨p1, x1, q1, x2, bs1, u1, x3, x4⟩ := h1
  obtain ⟨p2, y1, q2, y2, bs2, u2, y3, y4⟩ := h2
  have hs : SameV p1.st p2.st := by
    unfold vnFinPoly at x1 y1
    rw [← h.1.polys] at y1
    by_cases hc : a.st.polys ≠ []
    · rw [if_pos hc] at x1 y1
      obtain ⟨k', rfl⟩ := Nat.exists_eq_add_of_le (hp hc)
      exact (twin_vnPoly h x1 y1).1.1
    · rw [if_neg hc] at x1 y1
      cases x1; cases y1; exact h.1
  have ht : SameV q1.st q2.st := by
    unfold vnFinAnd at x2 y2
    rw [← hs.gates] at y2
    by_cases hc : p1.st.gates ≠ []
    · rw [if_pos hc] at x2 y2
      simp only [vnAndCheck, Option.bind_eq_bind, Option.bind_eq_some_iff, Prod.exists] at x2 y2
      obtain ⟨d1, v1, z1, w1, z2, b1, g1, z3, s1, z4, z5⟩ := x2
      obtain ⟨d2, v2, z6, w2, z7, b2, g2, z8, s2, z9, z10⟩ := y2
      have e : ∀ {p v w g : VerNet F} {d b : List Byte}, p.hash = some (d, v) → v.rcot ne v.st.used 128 = some w → w.data 32 = some (b, g) →
          g.st = p.st := by
        intro p v w g d b j1 j2 j3
        unfold VerNet.hash at j1
        unfold VerNet.data at j3
        split at j1
        · cases j1
        split at j3
        · cases j3
        simp only [Option.some.injEq, Prod.mk.injEq] at j1 j3
        obtain ⟨_, rfl⟩ := j1
        obtain ⟨_, rfl⟩ := j3
        unfold VerNet.rcot at j2
        simp only [Option.ite_none_left_eq_some, Option.some.injEq] at j2
        obtain ⟨_, rfl⟩ := j2
        rfl
      rw [e z1 z2 z3] at z4
      rw [e z6 z7 z8] at z9
      cases z5; cases z10
      exact (twin_andCheck hs z4 z9).1
    · rw [if_neg hc] at x2 y2
      cases x2; cases y2; exact hs
  have e : ∀ {v g : VerNet F} {b : List Byte}, v.data 32 = some (b, g) → g.st = v.st := by
    intro v g b j3
    unfold VerNet.data at j3
    split at j3
    · cases j3
    simp only [Option.some.injEq, Prod.mk.injEq] at j3
    obtain ⟨_, rfl⟩ := j3
    rfl
  cases x4; cases y4
  simp only
  rw [e x3, e y3]
  have f : ∀ (s : VerSt F) x, SameV (verFinHash ne.e s x) s := by
    intro s x
    unfold verFinHash
    split
    · exact ⟨rfl, rfl, rfl, rfl, rfl, rfl, rfl, rfl, rfl, rfl⟩
    · exact ⟨rfl, rfl, rfl, rfl, rfl, rfl, rfl, rfl, rfl, rfl⟩
  have f1 := f q1.st (ne.decD bs1)
  have f2 := f q2.st (ne.decD bs2)
  exact ⟨f1.wires.trans (ht.wires.trans f2.wires.symm), f1.used.trans (ht.used.trans f2.used.symm), f1.gates.trans (ht.gates.trans f2.gates.symm),
    f1.polys.trans (ht.polys.trans f2.polys.symm), f1.transcript.trans (ht.transcript.trans f2.transcript.symm),
    f1.digest.trans (ht.digest.trans f2.digest.symm), f1.outs.trans (ht.outs.trans f2.outs.symm), f1.polyB.trans (ht.polyB.trans f2.polyB.symm),
    f1.andLog.trans (ht.andLog.trans f2.andLog.symm), f1.polyLog.trans (ht.polyLog.trans f2.polyLog.symm)⟩

omit [Field F] [BlockField F] [DecidableEq F] in
/-- A program with an AND gate has gates in the buffer at its end. -/
theorem gates_pending (ops : List BOp) : ∀ c : NetCnt, (c.gates ≠ 0 ∨ ∃ i j, BOp.and i j ∈ ops) → (cntRun ne c ops).gates ≠ 0 := by
  induction ops with
  | nil =>
    intro c h
    rcases h with h | ⟨i, j, h⟩
    · exact h
    · cases h
  | cons o os ih =>
    intro c h
    show (cntRun ne (cntStep ne c o) os).gates ≠ 0
    apply ih
    cases o with
    | and i j => left; simp [cntStep]
    | poly p =>
      rcases h with h | ⟨i, j, h⟩
      · left
        simp only [cntStep, cntRoomP]
        split
        · exact h
        · exact h
      · simp at h; exact Or.inr ⟨i, j, h⟩
    | _ =>
      rcases h with h | ⟨i, j, h⟩
      · left; exact h
      · simp at h; exact Or.inr ⟨i, j, h⟩

/-- Two executions of a program with an AND gate, with possibly different challenges, in which the endpoint computes the same digests. -/
theorem digests_twin (ops : List BOp) (hand : ∃ i j, BOp.and i j ∈ ops) {S : Nat} {junk1 junk2 W1 W2 w1 w2 : List Byte}
    {c1 c2 : RcvSt} (r1 : rcvRun S (rcvInit S junk1) W1 (sessionCallsV ne ops) = .ok (c1, w1))
    (r2 : rcvRun S (rcvInit S junk2) W2 (sessionCallsV ne ops) = .ok (c2, w2))
    (hd : c1.digests = c2.digests) {V1 V2 : VerNet F}
    (e1 : netSessionV ne ops c1.bits c1.datas c1.digests = some V1)
    (e2 : netSessionV (ne.ws sd) ops c2.bits c2.datas c2.digests = some V2) : SameV V1.st V2.st := by
  have hg := gates_pending (ne := ne) ops ⟨1, 0, 0, 0⟩ (.inr hand)
  let cr := cntRun ne ⟨1, 0, 0, 0⟩ ops
  let pc := if cr.polys ≠ 0 then polyCallsV ne cr else []
  obtain ⟨t, ht⟩ : ∃ t, sessionCallsV ne ops = (ne.extV 0 1 ++ (runCallsV ne ⟨1, 0, 0, 0⟩ ops ++ pc)) ++ .hash :: t := by
    refine ⟨ne.extV (if cr.polys ≠ 0 then cr.polyChk else cr).used 128 ++ [.data 32, .flush, .data 32, .flush], ?_⟩
    simp only [sessionCallsV, finCallsV]
    rw [if_pos hg]
    simp only [andCallsV, List.append_assoc, List.cons_append, List.nil_append]
    rfl
  rw [ht] at r1 r2
  obtain ⟨nb, n1, n2, n3⟩ := rcvRun_digests t _ _ rfl r1 r2 ⟨rfl, rfl⟩ ⟨rfl, rfl⟩ rfl hd
  obtain ⟨t1, n2⟩ := n2
  obtain ⟨t2, n3⟩ := n3
  rw [rcvBits_append, rcvBits_append] at n1
  simp only [netSessionV, Option.bind_eq_bind, Option.bind_eq_some_iff] at e1 e2
  obtain ⟨a0, x1, a1, x2, x3⟩ := e1
  obtain ⟨b0, y1, b1, y2, y3⟩ := e2
  have s0 : SameN (rcvBits (ne.extV 0 1) + (rcvBits (runCallsV ne ⟨1, 0, 0, 0⟩ ops) + rcvBits pc))
      (⟨VerSt.init, c1.bits, c1.datas, c1.digests, []⟩ : VerNet F) ⟨VerSt.init, c2.bits, c2.datas, c2.digests, []⟩ :=
    ⟨⟨rfl, rfl, rfl, rfl, rfl, rfl, rfl, rfl, rfl, rfl⟩, nb, t1, t2, n1, by simpa [rcvInit] using n2.symm, by simpa [rcvInit] using n3.symm⟩
  obtain ⟨s1, z1, _⟩ := s0.rcot x1 y1
  have hc0 : (⟨1, 0, 0, 0⟩ : NetCnt) = a0.st.cnt := by rw [z1]; rfl
  rw [hc0] at s1
  obtain ⟨s2, z2⟩ := twin_netRun (sd := sd) ops s1 x2 y2
  have s3 := twin_netFin (sd := sd) s2 (by
    intro hp
    have : cr.polys ≠ 0 := by
      show (cntRun ne ⟨1, 0, 0, 0⟩ ops).polys ≠ 0
      rw [hc0, ← z2]
      simpa [VerSt.cnt] using hp
    simp only [pc]
    rw [if_pos this, z2, ← hc0]) x3 y3
  exact s3

omit [Field F] [BlockField F] [DecidableEq F] in
/-- Programs whose AND gates fit into one batch cause no check before the end. -/
theorem one_batch_run (h0 : ∀ u n, rcvDigs (ne.extV u n) = 0) (ops : List BOp) : ∀ c : NetCnt,
    c.gates + ops.countP BOp.isAnd ≤ ne.e.checkSz → rcvDigs (runCallsV ne c ops) = 0 := by
  induction ops with
  | nil => intro c _; rfl
  | cons o os ih =>
    intro c h
    rw [List.countP_cons] at h
    rw [runCallsV, rcvDigs_append]
    have hp : ∀ c' : NetCnt, rcvDigs (polyCallsV ne c') = 0 := by
      intro c'; simp only [polyCallsV, rcvDigs_append, h0]; rfl
    cases o with
    | and i j =>
      simp only [BOp.isAnd, if_true] at h
      have hr : cntRoomA ne c = c := by unfold cntRoomA; rw [if_neg (by omega)]
      rw [ih _ (by simp only [cntStep, hr]; omega)]
      simp only [callsV]
      rw [if_neg (by omega)]
      simp only [rcvDigs_append, h0]
      rfl
    | poly p =>
      have hr : (cntRoomP ne c).gates = c.gates := by unfold cntRoomP; split <;> rfl
      rw [ih _ (by simp only [cntStep, hr]; simpa [BOp.isAnd] using h)]
      simp only [callsV]
      split
      · rw [hp]
      · rfl
    | input b => rw [ih _ (by simpa [cntStep, BOp.isAnd] using h)]; simp only [callsV, rcvDigs_append, h0]; rfl
    | pub b => rw [ih _ (by simpa [cntStep, BOp.isAnd] using h)]; rfl
    | xor i j => rw [ih _ (by simpa [cntStep, BOp.isAnd] using h)]; rfl
    | not i => rw [ih _ (by simpa [cntStep, BOp.isAnd] using h)]; rfl
    | reveal i => rw [ih _ (by simpa [cntStep, BOp.isAnd] using h)]; rfl

omit [Field F] [BlockField F] [DecidableEq F] in
theorem one_digest {ops : List BOp} (hand : ∃ i j, BOp.and i j ∈ ops) (hfit : ops.countP BOp.isAnd ≤ ne.e.checkSz)
    (hext : ∀ u n, rcvDigs (ne.extV u n) = 0) : rcvDigs (sessionCallsV ne ops) = 1 := by
  have hg := gates_pending (ne := ne) ops ⟨1, 0, 0, 0⟩ (.inr hand)
  simp only [sessionCallsV, finCallsV]
  rw [if_pos hg]
  rw [rcvDigs_append, rcvDigs_append, one_batch_run hext ops ⟨1, 0, 0, 0⟩ (by simpa using hfit), hext, rcvDigs_append, rcvDigs_append]
  simp only [andCallsV, rcvDigs_append, hext]
  split
  · simp only [polyCallsV, rcvDigs_append, hext]; rfl
  · rfl

end
end EmpZk
