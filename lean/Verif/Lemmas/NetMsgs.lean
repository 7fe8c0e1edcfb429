/-
Helper lemmas: the verifier on the network, with arbitrary bits, byte strings and digests from its endpoint, is the
verifier of the message-level model on messages that do not depend on `Delta`.
-/
import Verif.Lemmas.NetRecv
import Verif.Lemmas.BoolNetRun
import Verif.Lemmas.BoolNetSession
import Verif.Spec.BoolCommit

namespace EmpZk

section
variable {F : Type} [Field F] [BlockField F]

/-- What the verifier's endpoint is going to return. -/
structure Inbox where
  bits : List Bool
  datas : List (List Byte)
  digs : List (List Byte)

/-- There is enough for the calls `l`. -/
def Inbox.has (I : Inbox) (l : List ROp) : Prop :=
  rcvBits l ≤ I.bits.length ∧ rcvDatas l ≤ I.datas.length ∧ rcvDigs l ≤ I.digs.length

/-- What is left after the calls `l`. -/
def Inbox.after (I : Inbox) (l : List ROp) : Inbox :=
  ⟨I.bits.drop (rcvBits l), I.datas.drop (rcvDatas l), I.digs.drop (rcvDigs l)⟩

/-- A verifier with a given inbox. -/
def Inbox.ver (I : Inbox) (s : VerSt F) (calls : List ROp) : VerNet F := ⟨s, I.bits, I.datas, I.digs, calls⟩

theorem rcvBits_append (l l' : List ROp) : rcvBits (l ++ l') = rcvBits l + rcvBits l' := by
  simp only [rcvBits, List.countP_append]
theorem rcvDatas_append (l l' : List ROp) : rcvDatas (l ++ l') = rcvDatas l + rcvDatas l' := by
  simp only [rcvDatas, List.countP_append]
theorem rcvDigs_append (l l' : List ROp) : rcvDigs (l ++ l') = rcvDigs l + rcvDigs l' := by
  simp only [rcvDigs, List.countP_append]

theorem Inbox.after_append (I : Inbox) (l l' : List ROp) : I.after (l ++ l') = (I.after l).after l' := by
  simp only [Inbox.after, rcvBits_append, rcvDatas_append, rcvDigs_append, List.drop_drop]

theorem Inbox.after_nil (I : Inbox) : I.after [] = I := rfl

theorem Inbox.has.append {I : Inbox} {l l' : List ROp} (h : I.has (l ++ l')) : I.has l ∧ (I.after l).has l' := by
  obtain ⟨h1, h2, h3⟩ := h
  rw [rcvBits_append] at h1
  rw [rcvDatas_append] at h2
  rw [rcvDigs_append] at h3
  refine ⟨⟨by omega, by omega, by omega⟩, ?_, ?_, ?_⟩ <;> simp only [Inbox.after, List.length_drop] <;> omega

/-- The environments for all values of `Delta`. -/
def NetEnv.at (ne : NetEnv F) (v : BView F) (d : F) : NetEnv F := { ne with e := v.env d }

variable {ne : NetEnv F} {v : BView F}

theorem callsV_at (c : NetCnt) (op : BOp) (d : F) : callsV (ne.at v d) c op = callsV (ne.at v 0) c op := by
  cases op <;> rfl

theorem runCallsV_at (d : F) (ops : List BOp) : ∀ c : NetCnt, runCallsV (ne.at v d) c ops = runCallsV (ne.at v 0) c ops := by
  induction ops with
  | nil => intro c; rfl
  | cons o os ih =>
    intro c
    have h1 : cntStep (ne.at v d) c o = cntStep (ne.at v 0) c o := by cases o <;> rfl
    simp only [runCallsV, callsV_at, h1, ih]

theorem cntRun_at (d : F) (ops : List BOp) : ∀ c : NetCnt, cntRun (ne.at v d) c ops = cntRun (ne.at v 0) c ops := by
  induction ops with
  | nil => intro c; rfl
  | cons o os ih =>
    intro c
    have h1 : cntStep (ne.at v d) c o = cntStep (ne.at v 0) c o := by cases o <;> rfl
    have e : ∀ x, cntRun (ne.at v x) c (o :: os) = cntRun (ne.at v x) (cntStep (ne.at v x) c o) os := fun _ => rfl
    rw [e, e, h1, ih]

theorem finCallsV_at (c : NetCnt) (d : F) : finCallsV (ne.at v d) c = finCallsV (ne.at v 0) c := rfl

theorem sessionCallsV_at (ops : List BOp) (d : F) : sessionCallsV (ne.at v d) ops = sessionCallsV (ne.at v 0) ops := by
  simp only [sessionCallsV, runCallsV_at d, cntRun_at d, finCallsV_at _ d]
  rfl

/-- The view with given challenges. -/
def BView.wc (v : BView F) (chal : Nat → List Bool → Nat → F) : BView F := { v with chal := chal }

theorem at_wc (d : F) (chal) : (ne.at v d).wc chal = (v.wc chal).env d := rfl

theorem rcot_any {I : Inbox} (s : VerSt F) (calls : List ROp) (used k : Nat) (h : I.has (ne.extV used k)) :
    (I.ver s calls).rcot ne used k = some ((I.after (ne.extV used k)).ver s (calls ++ ne.extV used k)) := by
  obtain ⟨h1, h2, h3⟩ := h
  unfold VerNet.rcot
  have hn : ¬ ((I.ver s calls).bits.length < rcvBits (ne.extV used k) ∨
      (I.ver s calls).datas.length < rcvDatas (ne.extV used k) ∨
      (I.ver s calls).digs.length < rcvDigs (ne.extV used k)) := by push Not; exact ⟨h1, h2, h3⟩
  simp only []
  rw [if_neg hn]
  rfl

omit [Field F] [BlockField F] in
theorem bit_any {I : Inbox} (h : I.has [.bit]) : ∃ b, ∀ (s : VerSt F) (calls : List ROp),
    (I.ver s calls).bit = some (b, (I.after [.bit]).ver s (calls ++ [.bit])) := by
  obtain ⟨bits, datas, digs⟩ := I
  cases bits with
  | nil => exact absurd h.1 (by simp [rcvBits])
  | cons b B => exact ⟨b, fun s calls => rfl⟩

omit [Field F] [BlockField F] in
theorem data_any {I : Inbox} (n : Nat) (h : I.has [.data n]) : ∃ x, ∀ (s : VerSt F) (calls : List ROp),
    (I.ver s calls).data n = some (x, (I.after [.data n]).ver s (calls ++ [.data n])) := by
  obtain ⟨bits, datas, digs⟩ := I
  cases datas with
  | nil => exact absurd h.2.1 (by simp [rcvDatas])
  | cons b B => exact ⟨b, fun s calls => rfl⟩

omit [Field F] [BlockField F] in
theorem hash_any {I : Inbox} (h : I.has [.hash]) : ∃ x, I.digs[0]? = some x ∧ ∀ (s : VerSt F) (calls : List ROp),
    (I.ver s calls).hash = some (x, (I.after [.hash]).ver s (calls ++ [.hash])) := by
  obtain ⟨bits, datas, digs⟩ := I
  cases digs with
  | nil => exact absurd h.2.2 (by simp [rcvDigs])
  | cons b B => exact ⟨b, rfl, fun s calls => rfl⟩

variable [DecidableEq F]

theorem vnAndCheck_any {I : Inbox} (c : NetCnt) (h : I.has (andCallsV (ne.at v 0) c)) :
    ∃ dg a, I.digs[0]? = some dg ∧ ∀ (chal : Nat → List Bool → Nat → F) (s : VerSt F), s.cnt = c →
      (∀ t, chal s.andBatches t = ne.seeds dg) → ∀ d calls,
      vnAndCheck (ne.at v d) (I.ver s calls) = (verAndCheck ((v.wc chal).env d) s a).map (fun s' =>
        (I.after (andCallsV (ne.at v 0) c)).ver s' (calls ++ andCallsV (ne.at v 0) c)) := by
  have h' : I.has ([.hash] ++ (ne.extV c.used 128 ++ [.data 32, .flush])) := by
    rw [← List.append_assoc]; exact h
  obtain ⟨h1, h2⟩ := h'.append
  obtain ⟨h2, h3⟩ := h2.append
  obtain ⟨dg, hd, k1⟩ := hash_any (F := F) h1
  have h3' : Inbox.has ((I.after [.hash]).after (ne.extV c.used 128)) ([.data 32] ++ [.flush]) := h3
  obtain ⟨x, k2⟩ := data_any (F := F) 32 h3'.append.1
  refine ⟨dg, ne.dec2 x, hd, ?_⟩
  intro chal s hs hc d calls
  unfold vnAndCheck
  simp only [k1, Option.bind_eq_bind, Option.bind_some]
  have hu : s.used = c.used := by rw [← hs]; rfl
  have k3 := rcot_any (ne := ne.at v d) s (calls ++ [.hash]) c.used 128 h2
  have e0 : ((I.after [.hash]).ver s (calls ++ [.hash])).st.used = c.used := hu
  rw [e0, k3]
  simp only [Option.bind_some]
  have k4 := k2 s ((calls ++ [.hash]) ++ ne.extV c.used 128)
  have e1 : ((I.after [.hash]).after ((ne.at v d).extV c.used 128)).ver s ((calls ++ [.hash]) ++ (ne.at v d).extV c.used 128) =
    ((I.after [.hash]).after (ne.extV c.used 128)).ver s ((calls ++ [.hash]) ++ ne.extV c.used 128) := rfl
  rw [e1, k4]
  simp only [Option.bind_some]
  have he : verAndCheck ((ne.at v d).env dg 0) s (ne.dec2 x) = verAndCheck ((v.wc chal).env d) s (ne.dec2 x) := by
    unfold verAndCheck
    have e1 : ((ne.at v d).env dg 0).chal s.andBatches s.transcript = ((v.wc chal).env d).chal s.andBatches s.transcript :=
      (hc _).symm
    rw [e1]; rfl
  show (verAndCheck ((ne.at v d).env dg 0) s (ne.dec2 x)).bind _ = _
  rw [he]
  cases verAndCheck ((v.wc chal).env d) s (ne.dec2 x) with
  | none => rfl
  | some s' =>
    have e2 : I.after (andCallsV (ne.at v 0) c) =
        (((I.after [.hash]).after (ne.extV c.used 128)).after [.data 32]) := by
      have : andCallsV (ne.at v 0) c = [.hash] ++ (ne.extV c.used 128 ++ ([.data 32] ++ [.flush])) := by
        simp [andCallsV, NetEnv.at]
      rw [this, Inbox.after_append, Inbox.after_append, Inbox.after_append]
      rfl
    rw [e2]
    simp only [Option.bind_some, Option.map_some, Inbox.ver, andCallsV, List.append_assoc]
    rfl

theorem vnPolyCheck_any {I : Inbox} (c : NetCnt) (h : I.has (polyCallsV (ne.at v 0) c)) :
    ∃ a, ∀ (chal : Nat → List Bool → Nat → F) (s : VerSt F), s.cnt = c → ∀ d calls,
      vnPolyCheck (ne.at v d) (I.ver s calls) = some
        ((I.after (polyCallsV (ne.at v 0) c)).ver (verPolyCheck ((v.wc chal).env d) s a)
          (calls ++ polyCallsV (ne.at v 0) c)) := by
  have h' : I.has ([.back (ne.enc (v.polySeed c.polyB))] ++ (ne.extV c.used 128 ++ [.data 32])) := by
    rw [← List.append_assoc]; exact h
  obtain ⟨_, h2⟩ := h'.append
  have e0 : I.after [.back (ne.enc (v.polySeed c.polyB))] = I := rfl
  rw [e0] at h2
  obtain ⟨h2, h3⟩ := h2.append
  obtain ⟨x, k2⟩ := data_any (F := F) 32 h3
  refine ⟨ne.dec2 x, ?_⟩
  intro chal s hs d calls
  have hu : s.used = c.used := by rw [← hs]; rfl
  have hb : s.polyBatches = c.polyB := by rw [← hs]; rfl
  unfold vnPolyCheck
  have k3 := rcot_any (ne := ne.at v d) s (calls ++ [.back (ne.enc (v.polySeed c.polyB))]) c.used 128 h2
  have e1 : ({ I.ver s calls with calls := (I.ver s calls).calls ++
      [.back ((ne.at v d).enc ((ne.at v d).e.polySeed (I.ver s calls).st.polyBatches))] } : VerNet F) =
      I.ver s (calls ++ [.back (ne.enc (v.polySeed c.polyB))]) := by rw [← hb]; rfl
  have e2 : (I.ver s calls).st.used = c.used := hu
  simp only [e1, e2, k3, Option.bind_eq_bind, Option.bind_some]
  have k4 := k2 s ((calls ++ [.back (ne.enc (v.polySeed c.polyB))]) ++ ne.extV c.used 128)
  have e3 : (I.after ((ne.at v d).extV c.used 128)).ver s
      ((calls ++ [.back (ne.enc (v.polySeed c.polyB))]) ++ (ne.at v d).extV c.used 128) =
      (I.after (ne.extV c.used 128)).ver s ((calls ++ [.back (ne.enc (v.polySeed c.polyB))]) ++ ne.extV c.used 128) := rfl
  rw [e3, k4]
  simp only [Option.bind_some]
  have e4 : I.after (polyCallsV (ne.at v 0) c) = (I.after (ne.extV c.used 128)).after [.data 32] := by
    have : polyCallsV (ne.at v 0) c = [.back (ne.enc (v.polySeed c.polyB))] ++ (ne.extV c.used 128 ++ [.data 32]) := by
      rw [← List.append_assoc]; rfl
    rw [this, Inbox.after_append, Inbox.after_append, e0]
  rw [e4]
  simp only [Inbox.ver, polyCallsV, List.append_assoc]
  rfl

/-! ### one instruction -/

theorem vnAndRoom_any {I : Inbox} (c : NetCnt)
    (h : I.has (if c.gates = v.checkSz then andCallsV (ne.at v 0) c else [])) :
    ∃ dg a, (c.gates = v.checkSz → I.digs[0]? = some dg) ∧ ∀ (chal : Nat → List Bool → Nat → F) (s : VerSt F), s.cnt = c →
      (c.gates = v.checkSz → ∀ t, chal s.andBatches t = ne.seeds dg) → ∀ d calls,
      vnAndRoom (ne.at v d) (I.ver s calls) = (verAndRoom ((v.wc chal).env d) s a).map (fun s' =>
        (I.after (if c.gates = v.checkSz then andCallsV (ne.at v 0) c else [])).ver s'
          (calls ++ (if c.gates = v.checkSz then andCallsV (ne.at v 0) c else []))) := by
  by_cases hf : c.gates = v.checkSz
  · simp only [if_pos hf] at h ⊢
    obtain ⟨dg, a, h1, h2⟩ := vnAndCheck_any c h
    refine ⟨dg, a, fun _ => h1, ?_⟩
    intro chal s hs hc d calls
    have hg : s.gates.length = v.checkSz := by rw [← hf, ← hs]; rfl
    unfold vnAndRoom verAndRoom
    rw [if_pos (show (I.ver s calls).st.gates.length = (ne.at v d).e.checkSz from hg),
      if_pos (show s.gates.length = ((v.wc chal).env d).checkSz from hg)]
    exact h2 chal s hs (hc hf) d calls
  · simp only [if_neg hf]
    refine ⟨[], (0, 0), fun h => absurd h hf, ?_⟩
    intro chal s hs _ d calls
    have hg : ¬ s.gates.length = v.checkSz := by
      intro he; apply hf; rw [← he, ← hs]; rfl
    unfold vnAndRoom verAndRoom
    rw [if_neg (show ¬ (I.ver s calls).st.gates.length = (ne.at v d).e.checkSz from hg),
      if_neg (show ¬ s.gates.length = ((v.wc chal).env d).checkSz from hg)]
    simp [Inbox.after_nil]

theorem vnPolyRoom_any {I : Inbox} (c : NetCnt)
    (h : I.has (if c.polys ≥ v.polySz ∧ c.polys ≠ 0 then polyCallsV (ne.at v 0) c else [])) :
    ∃ a, ∀ (chal : Nat → List Bool → Nat → F) (s : VerSt F), s.cnt = c → ∀ d calls,
      vnPolyRoom (ne.at v d) (I.ver s calls) = some
        ((I.after (if c.polys ≥ v.polySz ∧ c.polys ≠ 0 then polyCallsV (ne.at v 0) c else [])).ver
          (verPolyRoom ((v.wc chal).env d) s a)
          (calls ++ (if c.polys ≥ v.polySz ∧ c.polys ≠ 0 then polyCallsV (ne.at v 0) c else []))) := by
  by_cases hf : c.polys ≥ v.polySz ∧ c.polys ≠ 0
  · simp only [if_pos hf] at h ⊢
    obtain ⟨a, h2⟩ := vnPolyCheck_any c h
    refine ⟨a, ?_⟩
    intro chal s hs d calls
    have hg : s.polys.length ≥ v.polySz ∧ s.polys ≠ [] := by
      rw [← hs] at hf; exact ⟨hf.1, (ne_nil_iff_length _).2 hf.2⟩
    unfold vnPolyRoom verPolyRoom
    rw [if_pos (show (I.ver s calls).st.polys.length ≥ (ne.at v d).e.polySz ∧ (I.ver s calls).st.polys ≠ [] from hg),
      if_pos (show s.polys.length ≥ ((v.wc chal).env d).polySz ∧ s.polys ≠ [] from hg)]
    exact h2 chal s hs d calls
  · simp only [if_neg hf]
    refine ⟨(0, 0), ?_⟩
    intro chal s hs d calls
    have hg : ¬ (s.polys.length ≥ v.polySz ∧ s.polys ≠ []) := by
      rw [← hs] at hf; exact fun h => hf ⟨h.1, (ne_nil_iff_length _).1 h.2⟩
    unfold vnPolyRoom verPolyRoom
    rw [if_neg (show ¬ ((I.ver s calls).st.polys.length ≥ (ne.at v d).e.polySz ∧ (I.ver s calls).st.polys ≠ []) from hg),
      if_neg (show ¬ (s.polys.length ≥ ((v.wc chal).env d).polySz ∧ s.polys ≠ []) from hg)]
    simp [Inbox.after_nil]

theorem netStepV_any {I : Inbox} (c : NetCnt) (op : BOp) (h : I.has (callsV (ne.at v 0) c op)) :
    ∃ dg m, (dueA (ne.at v 0) c op = true → I.digs[0]? = some dg) ∧
      ∀ (chal : Nat → List Bool → Nat → F) (s : VerSt F), s.cnt = c →
      (dueA (ne.at v 0) c op = true → ∀ t, chal s.andBatches t = ne.seeds dg) → ∀ d calls,
      netStepV (ne.at v d) (I.ver s calls) op = (verStep ((v.wc chal).env d) s m op).map (fun s' =>
        (I.after (callsV (ne.at v 0) c op)).ver s' (calls ++ callsV (ne.at v 0) c op)) := by
  cases op with
  | input b =>
    have h' : I.has (ne.extV c.used 1 ++ [.bit]) := h
    obtain ⟨h1, h2⟩ := h'.append
    obtain ⟨b', k⟩ := bit_any (F := F) h2
    refine ⟨[], ⟨b', 0, 0⟩, fun hh => (by cases hh), ?_⟩
    intro chal s hs _ d calls
    have hu : s.used = c.used := by rw [← hs]; rfl
    have k3 := rcot_any (ne := ne.at v d) s calls c.used 1 h1
    have e2 : (I.ver s calls).st.used = c.used := hu
    simp only [netStepV, e2, k3, Option.bind_eq_bind, Option.bind_some]
    have e3 : (I.after ((ne.at v d).extV c.used 1)).ver s (calls ++ (ne.at v d).extV c.used 1) =
      (I.after (ne.extV c.used 1)).ver s (calls ++ ne.extV c.used 1) := rfl
    rw [e3, k]
    simp only [Option.bind_some]
    show some _ = some _
    have e4 : I.after (callsV (ne.at v 0) c (.input b)) = (I.after (ne.extV c.used 1)).after [.bit] :=
      Inbox.after_append _ _ _
    rw [e4]
    simp only [callsV, Inbox.ver, List.append_assoc]
    rfl
  | pub b =>
    refine ⟨[], ⟨false, 0, 0⟩, fun hh => (by cases hh), ?_⟩
    intro chal s hs _ d calls
    simp [netStepV, verStep, callsV, Inbox.after_nil, Inbox.ver, NetEnv.at, BView.env, BView.wc]
  | xor i j =>
    refine ⟨[], ⟨false, 0, 0⟩, fun hh => (by cases hh), ?_⟩
    intro chal s hs _ d calls
    have he : verStep (ne.at v d).e (I.ver s calls).st ⟨false, 0, 0⟩ (.xor i j) =
      verStep ((v.wc chal).env d) s ⟨false, 0, 0⟩ (.xor i j) := rfl
    simp only [netStepV, he, Option.bind_eq_bind]
    cases verStep ((v.wc chal).env d) s ⟨false, 0, 0⟩ (.xor i j) with
    | none => rfl
    | some r => simp [callsV, Inbox.after_nil, Inbox.ver]
  | not i =>
    refine ⟨[], ⟨false, 0, 0⟩, fun hh => (by cases hh), ?_⟩
    intro chal s hs _ d calls
    have he : verStep (ne.at v d).e (I.ver s calls).st ⟨false, 0, 0⟩ (.not i) =
      verStep ((v.wc chal).env d) s ⟨false, 0, 0⟩ (.not i) := rfl
    simp only [netStepV, he, Option.bind_eq_bind]
    cases verStep ((v.wc chal).env d) s ⟨false, 0, 0⟩ (.not i) with
    | none => rfl
    | some r => simp [callsV, Inbox.after_nil, Inbox.ver]
  | reveal i =>
    obtain ⟨b', k⟩ := bit_any (F := F) (I := I) h
    refine ⟨[], ⟨b', 0, 0⟩, fun hh => (by cases hh), ?_⟩
    intro chal s hs _ d calls
    simp only [netStepV, k, Option.bind_eq_bind, Option.bind_some]
    have he : verStep (ne.at v d).e ((I.after [.bit]).ver s (calls ++ [.bit])).st ⟨b', 0, 0⟩ (.reveal i) =
      verStep ((v.wc chal).env d) s ⟨b', 0, 0⟩ (.reveal i) := rfl
    rw [he]
    cases verStep ((v.wc chal).env d) s ⟨b', 0, 0⟩ (.reveal i) with
    | none => rfl
    | some r => simp [callsV, Inbox.ver]
  | and i j =>
    have h' : I.has ((if c.gates = v.checkSz then andCallsV (ne.at v 0) c else []) ++
      (ne.extV (cntRoomA (ne.at v 0) c).used 1 ++ [.bit])) := h
    obtain ⟨h1, h2⟩ := h'.append
    obtain ⟨h2, h3⟩ := h2.append
    obtain ⟨dg, a, k1, k2⟩ := vnAndRoom_any c h1
    obtain ⟨b', k3⟩ := bit_any (F := F) h3
    refine ⟨dg, ⟨b', a⟩, fun hh => k1 (of_decide_eq_true hh), ?_⟩
    intro chal s hs hc d calls
    simp only [netStepV, verStep, Option.bind_eq_bind]
    have ew : (I.ver s calls).st.wires = s.wires := rfl
    rw [ew]
    cases s.wires[i]? with
    | none => rfl
    | some x =>
      cases s.wires[j]? with
      | none => rfl
      | some y =>
        simp only [Option.bind_some]
        rw [k2 chal s hs (fun hf => hc (decide_eq_true hf)) d calls]
        cases hr : verAndRoom ((v.wc chal).env d) s a with
        | none => rfl
        | some r =>
          simp only [Option.map_some, Option.bind_some]
          have hcnt := (verAndRoom_cnt (ne := ne.at v d) (chal := chal) hr).1
          have hu : r.used = (cntRoomA (ne.at v 0) c).used := by
            have : r.cnt.used = (cntRoomA (ne.at v d) s.cnt).used := by rw [hcnt]
            rw [hs] at this
            exact this
          generalize hI : (if c.gates = v.checkSz then andCallsV (ne.at v 0) c else []) = lr at *
          have k4 := rcot_any (ne := ne.at v d) r (calls ++ lr) (cntRoomA (ne.at v 0) c).used 1 h2
          have e2 : ((I.after lr).ver r (calls ++ lr)).st.used = (cntRoomA (ne.at v 0) c).used := hu
          rw [e2, k4]
          simp only [Option.bind_some]
          have e3 : ((I.after lr).after ((ne.at v d).extV (cntRoomA (ne.at v 0) c).used 1)).ver r
              ((calls ++ lr) ++ (ne.at v d).extV (cntRoomA (ne.at v 0) c).used 1) =
              ((I.after lr).after (ne.extV (cntRoomA (ne.at v 0) c).used 1)).ver r
                ((calls ++ lr) ++ ne.extV (cntRoomA (ne.at v 0) c).used 1) := rfl
          rw [e3, k3]
          simp only [Option.bind_some]
          have he : verAndPush (ne.at v d).e
              ((((I.after lr).after (ne.extV (cntRoomA (ne.at v 0) c).used 1)).after [.bit]).ver r
                ((calls ++ lr) ++ ne.extV (cntRoomA (ne.at v 0) c).used 1 ++ [.bit])).st x y b' =
              verAndPush ((v.wc chal).env d) r x y b' := rfl
          rw [he]
          cases verAndPush ((v.wc chal).env d) r x y b' with
          | none => rfl
          | some q =>
            have e4 : I.after (callsV (ne.at v 0) c (.and i j)) =
                ((I.after lr).after (ne.extV (cntRoomA (ne.at v 0) c).used 1)).after [.bit] := by
              have : callsV (ne.at v 0) c (.and i j) = lr ++ (ne.extV (cntRoomA (ne.at v 0) c).used 1 ++ [.bit]) := by
                rw [← hI]; rfl
              rw [this, Inbox.after_append, Inbox.after_append]
            have e5 : callsV (ne.at v 0) c (.and i j) = lr ++ (ne.extV (cntRoomA (ne.at v 0) c).used 1 ++ [.bit]) := by
              rw [← hI]; rfl
            rw [e4, e5]
            simp only [Option.bind_some, Option.map_some, Inbox.ver, List.append_assoc]
  | poly p =>
    obtain ⟨a, k⟩ := vnPolyRoom_any (ne := ne) (v := v) (I := I) c h
    refine ⟨[], ⟨false, a⟩, fun hh => (by cases hh), ?_⟩
    intro chal s hs _ d calls
    simp only [netStepV, verStep, Option.bind_eq_bind]
    have ew : (I.ver s calls).st.wires = s.wires := rfl
    rw [ew]
    cases p.lookup s.wires with
    | none => rfl
    | some q =>
      simp only [Option.bind_some]
      rw [k chal s hs d calls]
      simp only [Option.bind_some]
      have he : ∀ (J : Inbox) (st : VerSt F) cl, verPolyPush (ne.at v d).e (J.ver st cl).st q =
        verPolyPush ((v.wc chal).env d) st q := fun _ _ _ => rfl
      rw [he]
      cases verPolyPush ((v.wc chal).env d) (verPolyRoom ((v.wc chal).env d) s a) q with
      | none => rfl
      | some r => rfl

/-! ### programs and sessions -/

omit [DecidableEq F] in
theorem rcvDigs_due (c : NetCnt) (op : BOp) (h : dueA (ne.at v 0) c op = true) : 1 ≤ rcvDigs (callsV (ne.at v 0) c op) := by
  cases op with
  | and i j =>
    have hf : c.gates = (ne.at v 0).e.checkSz := of_decide_eq_true h
    simp only [callsV, if_pos hf, andCallsV, rcvDigs_append]
    have : rcvDigs [.hash] = 1 := rfl
    omega
  | _ => cases h

theorem netRunV_any (ops : List BOp) : ∀ {I : Inbox} (c : NetCnt), I.has (runCallsV (ne.at v 0) c ops) →
    ∃ (ms : List (BMsg F)) (ds : List (List Byte)), ms.length = ops.length ∧ ds.Sublist (I.digs.take (rcvDigs (runCallsV (ne.at v 0) c ops))) ∧
      ∀ (chal : Nat → List Bool → Nat → F) (s : VerSt F), s.cnt = c →
      (∀ i dg, ds[i]? = some dg → ∀ t, chal (s.andBatches + i) t = ne.seeds dg) → ∀ d calls,
      netRunV (ne.at v d) (I.ver s calls) ops = (verRun ((v.wc chal).env d) s ops ms).map (fun s' =>
        (I.after (runCallsV (ne.at v 0) c ops)).ver s' (calls ++ runCallsV (ne.at v 0) c ops)) ∧
      ∀ s', verRun ((v.wc chal).env d) s ops ms = some s' →
        s'.cnt = cntRun (ne.at v 0) c ops ∧ s'.andBatches = s.andBatches + ds.length := by
  induction ops with
  | nil =>
    intro I c _
    refine ⟨[], [], rfl, List.nil_sublist _, ?_⟩
    intro chal s hs _ d calls
    refine ⟨by simp [netRunV, verRun, runCallsV, Inbox.after_nil], ?_⟩
    intro s' h'
    have := (Option.some.inj h').symm
    subst this
    exact ⟨hs, rfl⟩
  | cons o os ih =>
    intro I c h
    have h' : I.has (callsV (ne.at v 0) c o ++ runCallsV (ne.at v 0) (cntStep (ne.at v 0) c o) os) := h
    obtain ⟨h1, h2⟩ := h'.append
    obtain ⟨dg, m, k1, k2⟩ := netStepV_any (ne := ne) (v := v) c o h1
    obtain ⟨ms, ds, l1, l2, l3⟩ := ih _ h2
    have hdl : ((if dueA (ne.at v 0) c o = true then [dg] else []) : List (List Byte)).length =
        if dueA (ne.at v 0) c o = true then 1 else 0 := by split <;> rfl
    refine ⟨m :: ms, (if dueA (ne.at v 0) c o = true then [dg] else []) ++ ds, by simp [l1], ?_, ?_⟩
    · have e : I.digs.take (rcvDigs (runCallsV (ne.at v 0) c (o :: os))) =
          I.digs.take (rcvDigs (callsV (ne.at v 0) c o)) ++
            (I.after (callsV (ne.at v 0) c o)).digs.take (rcvDigs (runCallsV (ne.at v 0) (cntStep (ne.at v 0) c o) os)) := by
        simp only [runCallsV, rcvDigs_append, Inbox.after, List.take_add]
      rw [e]
      refine List.Sublist.append ?_ l2
      by_cases hd : dueA (ne.at v 0) c o = true
      · rw [if_pos hd]
        have h0 := k1 hd
        have hp := rcvDigs_due c o hd
        obtain ⟨bits, datas, digs⟩ := I
        cases digs with
        | nil => cases h0
        | cons x X =>
          have hx : x = dg := Option.some.inj h0
          subst hx
          obtain ⟨n, hn⟩ : ∃ n, rcvDigs (callsV (ne.at v 0) c o) = n + 1 := ⟨_, (Nat.sub_add_cancel hp).symm⟩
          rw [hn, List.take_succ_cons]
          exact List.Sublist.cons_cons _ (List.nil_sublist _)
      · rw [if_neg hd]; exact List.nil_sublist _
    · intro chal s hs hc d calls
      have hc1 : dueA (ne.at v 0) c o = true → ∀ t, chal s.andBatches t = ne.seeds dg := by
        intro hd t
        exact hc 0 dg (by rw [if_pos hd]; rfl) t
      simp only [netRunV, verRun, Option.bind_eq_bind]
      rw [k2 chal s hs hc1 d calls]
      cases hv : verStep ((v.wc chal).env d) s m o with
      | none => exact ⟨rfl, by intro s' h'; cases h'⟩
      | some s1 =>
        simp only [Option.map_some, Option.bind_some]
        obtain ⟨j1, j2⟩ := verStep_cnt (ne := ne.at v d) (chal := chal) hv
        have j3 : s1.cnt = cntStep (ne.at v 0) c o := by
          rw [j1, hs]; cases o <;> rfl
        have j4 : s1.andBatches = s.andBatches + (if dueA (ne.at v 0) c o = true then 1 else 0) := by
          rw [j2, hs]
          have : dueA (ne.at v d) c o = dueA (ne.at v 0) c o := by cases o <;> rfl
          rw [this]
        obtain ⟨t1, t2⟩ := l3 chal s1 j3 (by
          intro i x hx t
          have := hc ((if dueA (ne.at v 0) c o = true then 1 else 0) + i) x (by
            rw [← hdl, List.getElem?_append_right (Nat.le_add_right _ _), Nat.add_sub_cancel_left]; exact hx) t
          rw [j4, Nat.add_assoc]
          exact this) d (calls ++ callsV (ne.at v 0) c o)
        rw [t1]
        refine ⟨?_, ?_⟩
        · congr 1
          funext s'
          simp only [runCallsV, Inbox.after_append, List.append_assoc]
        · intro s' h'
          obtain ⟨u1, u2⟩ := t2 s' h'
          refine ⟨u1, ?_⟩
          rw [u2, j4, List.length_append, hdl, Nat.add_assoc]

theorem vnFinPoly_any {I : Inbox} (c : NetCnt) (h : I.has (if c.polys ≠ 0 then polyCallsV (ne.at v 0) c else [])) :
    ∃ a, ∀ (chal : Nat → List Bool → Nat → F) (s : VerSt F), s.cnt = c → ∀ d calls,
      vnFinPoly (ne.at v d) (I.ver s calls) = some
        ((I.after (if c.polys ≠ 0 then polyCallsV (ne.at v 0) c else [])).ver
          (verFinPoly ((v.wc chal).env d) s a)
          (calls ++ (if c.polys ≠ 0 then polyCallsV (ne.at v 0) c else []))) := by
  by_cases hf : c.polys ≠ 0
  · simp only [if_pos hf] at h ⊢
    obtain ⟨a, h2⟩ := vnPolyCheck_any c h
    refine ⟨a, ?_⟩
    intro chal s hs d calls
    have hg : s.polys ≠ [] := by rw [← hs] at hf; exact (ne_nil_iff_length _).2 hf
    unfold vnFinPoly verFinPoly
    rw [if_pos (show (I.ver s calls).st.polys ≠ [] from hg), if_pos hg]
    exact h2 chal s hs d calls
  · simp only [if_neg hf]
    refine ⟨(0, 0), ?_⟩
    intro chal s hs d calls
    have hg : ¬ s.polys ≠ [] := by rw [← hs] at hf; exact fun h => hf ((ne_nil_iff_length _).1 h)
    unfold vnFinPoly verFinPoly
    rw [if_neg (show ¬ (I.ver s calls).st.polys ≠ [] from hg), if_neg hg]
    simp [Inbox.after_nil]

theorem vnFinAnd_any {I : Inbox} (c : NetCnt) (h : I.has (if c.gates ≠ 0 then andCallsV (ne.at v 0) c else [])) :
    ∃ dg a, (c.gates ≠ 0 → I.digs[0]? = some dg) ∧ ∀ (chal : Nat → List Bool → Nat → F) (s : VerSt F), s.cnt = c →
      (c.gates ≠ 0 → ∀ t, chal s.andBatches t = ne.seeds dg) → ∀ d calls,
      vnFinAnd (ne.at v d) (I.ver s calls) = (verFinAnd ((v.wc chal).env d) s a).map (fun s' =>
        (I.after (if c.gates ≠ 0 then andCallsV (ne.at v 0) c else [])).ver s'
          (calls ++ (if c.gates ≠ 0 then andCallsV (ne.at v 0) c else []))) := by
  by_cases hf : c.gates ≠ 0
  · simp only [if_pos hf] at h ⊢
    obtain ⟨dg, a, h1, h2⟩ := vnAndCheck_any c h
    refine ⟨dg, a, fun _ => h1, ?_⟩
    intro chal s hs hc d calls
    have hg : s.gates ≠ [] := by rw [← hs] at hf; exact (ne_nil_iff_length _).2 hf
    unfold vnFinAnd verFinAnd
    rw [if_pos (show (I.ver s calls).st.gates ≠ [] from hg), if_pos hg]
    exact h2 chal s hs (hc hf) d calls
  · simp only [if_neg hf]
    refine ⟨[], (0, 0), fun h => absurd h hf, ?_⟩
    intro chal s hs _ d calls
    have hg : ¬ s.gates ≠ [] := by rw [← hs] at hf; exact fun h => hf ((ne_nil_iff_length _).1 h)
    unfold vnFinAnd verFinAnd
    rw [if_neg (show ¬ (I.ver s calls).st.gates ≠ [] from hg), if_neg hg]
    simp [Inbox.after_nil]

theorem netFinV_any {I : Inbox} (c : NetCnt) (h : I.has (finCallsV (ne.at v 0) c)) :
    ∃ dg fin, (c.gates ≠ 0 → [dg].Sublist (I.digs.take (rcvDigs (finCallsV (ne.at v 0) c)))) ∧
      ∀ (chal : Nat → List Bool → Nat → F) (s : VerSt F), s.cnt = c →
      (c.gates ≠ 0 → ∀ t, chal s.andBatches t = ne.seeds dg) → ∀ d calls,
      netFinV (ne.at v d) (I.ver s calls) = (verFinalize ((v.wc chal).env d) s fin).map (fun s' =>
        (I.after (finCallsV (ne.at v 0) c)).ver s' (calls ++ finCallsV (ne.at v 0) c)) := by
  let l1 : List ROp := if c.polys ≠ 0 then polyCallsV (ne.at v 0) c else []
  let c1 : NetCnt := if c.polys ≠ 0 then c.polyChk else c
  have hg1 : c1.gates = c.gates := polyChk_gates c
  let l2 : List ROp := if c1.gates ≠ 0 then andCallsV (ne.at v 0) c1 else []
  have hl : finCallsV (ne.at v 0) c = l1 ++ (l2 ++ ([.data 32] ++ [.flush])) := by
    simp only [finCallsV, l1, l2, hg1, c1, List.singleton_append]
  rw [hl] at h ⊢
  obtain ⟨h1, h2⟩ := h.append
  obtain ⟨h2, h3⟩ := h2.append
  obtain ⟨h3, _⟩ := h3.append
  obtain ⟨pa, k1⟩ := vnFinPoly_any (ne := ne) (v := v) c h1
  obtain ⟨dg, aa, k2, k3⟩ := vnFinAnd_any (ne := ne) (v := v) c1 h2
  obtain ⟨x, k4⟩ := data_any (F := F) 32 h3
  refine ⟨dg, ⟨pa, aa, ne.decD x⟩, ?_, ?_⟩
  · intro hg
    have h0 := k2 (by rw [hg1]; exact hg)
    have hdeep : I.digs[rcvDigs l1]? = some dg := by
      simpa [Inbox.after, List.getElem?_drop] using h0
    have hlt : rcvDigs l1 < rcvDigs (l1 ++ (l2 ++ ([.data 32] ++ [.flush]))) := by
      have : 1 ≤ rcvDigs l2 := by
        simp only [l2, if_pos (show c1.gates ≠ 0 by rw [hg1]; exact hg), andCallsV, rcvDigs_append]
        have : rcvDigs [.hash] = 1 := rfl
        omega
      simp only [rcvDigs_append] at *
      omega
    rw [List.singleton_sublist]
    refine List.mem_iff_getElem?.2 ⟨rcvDigs l1, ?_⟩
    rw [List.getElem?_take, if_pos hlt]
    exact hdeep
  · intro chal s hs hc d calls
    have hcnt : (verFinPoly ((v.wc chal).env d) s pa).cnt = c1 ∧
        (verFinPoly ((v.wc chal).env d) s pa).andBatches = s.andBatches := by
      unfold verFinPoly
      by_cases hf : s.polys ≠ []
      · rw [if_pos hf]
        have hp : c.polys ≠ 0 := by rw [← hs]; exact (ne_nil_iff_length _).1 hf
        simp only [c1, if_pos hp, ← hs]
        exact ⟨rfl, rfl⟩
      · rw [if_neg hf]
        have hp : ¬ c.polys ≠ 0 := by rw [← hs]; exact fun h => hf ((ne_nil_iff_length _).2 h)
        simp only [c1, if_neg hp, ← hs]
        exact ⟨trivial, trivial⟩
    unfold netFinV verFinalize
    rw [k1 chal s hs d calls]
    simp only [Option.bind_eq_bind, Option.bind_some]
    rw [k3 chal _ hcnt.1 (fun hg t => by rw [hcnt.2]; exact hc (by rw [← hg1]; exact hg) t) d]
    cases verFinAnd ((v.wc chal).env d) (verFinPoly ((v.wc chal).env d) s pa) aa with
    | none => rfl
    | some q =>
      simp only [Option.map_some, Option.bind_some]
      have k5 := k4 q ((calls ++ l1) ++ l2)
      rw [k5]
      simp only [Option.bind_some, Inbox.after_append]
      show some _ = some _
      simp only [Inbox.ver, List.append_assoc]
      rfl

/-- The verifier on the network, with any inbox that is large enough, is the verifier of the message-level model on
messages which do not depend on `Delta`; the challenges are derived from digests of the inbox. -/
theorem netSessionV_any (ops : List BOp) {I : Inbox} (h : I.has (sessionCallsV (ne.at v 0) ops)) :
    ∃ (ms : List (BMsg F)) (fin : BFin F) (ds : List (List Byte)), ms.length = ops.length ∧ ds.Sublist I.digs ∧
      ∀ (chal : Nat → List Bool → Nat → F), (∀ i dg, ds[i]? = some dg → ∀ t, chal i t = ne.seeds dg) → ∀ d,
      netSessionV (ne.at v d) ops I.bits I.datas I.digs = (verSession ((v.wc chal).env d) ops ms fin).map (fun s =>
        (I.after (sessionCallsV (ne.at v 0) ops)).ver s (sessionCallsV (ne.at v 0) ops)) ∧
      ∀ s, verSession ((v.wc chal).env d) ops ms fin = some s → s.andBatches = ds.length := by
  have h' : I.has (ne.extV 0 1 ++ (runCallsV (ne.at v 0) ⟨1, 0, 0, 0⟩ ops ++
    finCallsV (ne.at v 0) (cntRun (ne.at v 0) ⟨1, 0, 0, 0⟩ ops))) := h
  obtain ⟨h1, h2⟩ := h'.append
  obtain ⟨h2, h3⟩ := h2.append
  obtain ⟨ms, ds, k1, k2, k3⟩ := netRunV_any (ne := ne) (v := v) ops _ h2
  obtain ⟨dg, fin, k4, k5⟩ := netFinV_any (ne := ne) (v := v) _ h3
  generalize hc : cntRun (ne.at v 0) ⟨1, 0, 0, 0⟩ ops = c at *
  refine ⟨ms, fin, ds ++ (if c.gates ≠ 0 then [dg] else []), k1, ?_, ?_⟩
  · have e1 : ds.Sublist ((I.after (ne.extV 0 1)).digs.take (rcvDigs (runCallsV (ne.at v 0) ⟨1, 0, 0, 0⟩ ops))) := k2
    have e2 : ((if c.gates ≠ 0 then [dg] else []) : List (List Byte)).Sublist
        (((I.after (ne.extV 0 1)).after (runCallsV (ne.at v 0) ⟨1, 0, 0, 0⟩ ops)).digs) := by
      split
      · rename_i hg
        exact (k4 hg).trans (List.take_sublist _ _)
      · exact List.nil_sublist _
    have e3 := e1.append e2
    have e4 : (I.after (ne.extV 0 1)).digs.take (rcvDigs (runCallsV (ne.at v 0) ⟨1, 0, 0, 0⟩ ops)) ++
        ((I.after (ne.extV 0 1)).after (runCallsV (ne.at v 0) ⟨1, 0, 0, 0⟩ ops)).digs = (I.after (ne.extV 0 1)).digs :=
      List.take_append_drop _ _
    rw [e4] at e3
    exact e3.trans (List.drop_sublist _ _)
  · intro chal hch d
    simp only [netSessionV, verSession, Option.bind_eq_bind]
    have e0 : (⟨VerSt.init, I.bits, I.datas, I.digs, []⟩ : VerNet F) = I.ver VerSt.init [] := rfl
    rw [e0, rcot_any (ne := ne.at v d) VerSt.init [] 0 1 h1]
    simp only [Option.bind_some, List.nil_append]
    have hi : (VerSt.init : VerSt F).andBatches = 0 := rfl
    obtain ⟨t1, t2⟩ := k3 chal VerSt.init rfl (by
      intro i x hx t
      rw [hi, Nat.zero_add]
      refine hch i x ?_ t
      rw [List.getElem?_append_left]
      · exact hx
      · rw [List.getElem?_eq_some_iff] at hx; exact hx.1) d (ne.extV 0 1)
    have e1 : (I.after ((ne.at v d).extV 0 1)).ver VerSt.init ((ne.at v d).extV 0 1) =
      (I.after (ne.extV 0 1)).ver (VerSt.init : VerSt F) (ne.extV 0 1) := rfl
    rw [e1, t1]
    cases hr : verRun ((v.wc chal).env d) VerSt.init ops ms with
    | none => exact ⟨rfl, by intro s hs; cases hs⟩
    | some s1 =>
      obtain ⟨u1, u2⟩ := t2 s1 hr
      rw [hi, Nat.zero_add] at u2
      simp only [Option.map_some, Option.bind_some]
      rw [k5 chal s1 (by rw [u1]) (by
        intro hg t
        rw [u2]
        exact hch ds.length dg (by rw [if_pos hg, List.getElem?_append_right (le_refl _), Nat.sub_self]; rfl) t) d]
      refine ⟨?_, ?_⟩
      · congr 1
        funext s
        have : sessionCallsV (ne.at v 0) ops = ne.extV 0 1 ++ (runCallsV (ne.at v 0) ⟨1, 0, 0, 0⟩ ops ++
          finCallsV (ne.at v 0) c) := by rw [← hc]; rfl
        rw [this, Inbox.after_append, Inbox.after_append]
        simp only [List.append_assoc]
      · intro s hs
        simp only [verFinalize, Option.bind_eq_bind, Option.bind_eq_some_iff] at hs
        obtain ⟨q, hq, hs⟩ := hs
        have := (Option.some.inj hs).symm
        subst this
        have hb : (verFinHash ((v.wc chal).env d) q fin.digest).andBatches = q.andBatches := by
          unfold verFinHash; split <;> rfl
        rw [hb, List.length_append]
        have hgp : (verFinPoly ((v.wc chal).env d) s1 fin.polyAns).gates = s1.gates ∧
            (verFinPoly ((v.wc chal).env d) s1 fin.polyAns).andBatches = s1.andBatches := by
          unfold verFinPoly; split <;> exact ⟨rfl, rfl⟩
        unfold verFinAnd at hq
        rw [hgp.1] at hq
        by_cases hg : s1.gates ≠ []
        · rw [if_pos hg] at hq
          have hcg : c.gates ≠ 0 := by rw [← u1]; exact (ne_nil_iff_length _).1 hg
          rw [(verAndCheck_cnt hq).2, hgp.2, u2, if_pos hcg]; rfl
        · rw [if_neg hg] at hq
          have hcg : ¬ c.gates ≠ 0 := by rw [← u1]; exact fun h => hg ((ne_nil_iff_length _).2 h)
          have := (Option.some.inj hq).symm
          subst this
          rw [hgp.2, u2, if_neg hcg]; rfl

/-- The seeds of all checks so far come from the challenge function. -/
def SeedInv (v : BView F) (c : ComSt F) : Prop := ∀ r ∈ c.andLog, ∃ k tr, k < c.andBatches ∧ r.seeds = v.chal k tr

omit [Field F] [BlockField F] in
theorem SeedInv.mono {v : BView F} {c c' : ComSt F} (h : SeedInv v c) (h1 : c'.andLog = c.andLog)
    (h2 : c.andBatches ≤ c'.andBatches) : SeedInv v c' := by
  intro r hr
  rw [h1] at hr
  obtain ⟨k, tr, hk, e⟩ := h r hr
  exact ⟨k, tr, by omega, e⟩

omit [Field F] [BlockField F] in
theorem SeedInv.check {v : BView F} {c : ComSt F} (h : SeedInv v c) (ans) : SeedInv v (comAndCheck v c ans) := by
  intro r hr
  simp only [comAndCheck, List.mem_append, List.mem_singleton] at hr
  rcases hr with hr | hr
  · obtain ⟨k, tr, hk, e⟩ := h r hr
    exact ⟨k, tr, Nat.lt_succ_of_lt hk, e⟩
  · subst hr
    exact ⟨c.andBatches, c.transcript, Nat.lt_succ_self _, rfl⟩

omit [Field F] [BlockField F] in
theorem SeedInv.polyCheck {v : BView F} {c : ComSt F} (h : SeedInv v c) (ans) : SeedInv v (comPolyCheck v c ans) :=
  h.mono rfl (Nat.le_refl _)

theorem SeedInv.step {v : BView F} {c c' : ComSt F} {m : BMsg F} {o : BOp} (h : SeedInv v c)
    (hs : comStep v c m o = some c') : SeedInv v c' := by
  cases o with
  | input b => simp only [comStep, Option.some.injEq] at hs; subst hs; exact h.mono rfl (Nat.le_refl _)
  | pub b => simp only [comStep, Option.some.injEq] at hs; subst hs; exact h.mono rfl (Nat.le_refl _)
  | xor i j =>
    simp only [comStep, Option.bind_eq_bind, Option.bind_eq_some_iff, Option.some.injEq] at hs
    obtain ⟨_, _, _, _, hs⟩ := hs; subst hs; exact h.mono rfl (Nat.le_refl _)
  | not i =>
    simp only [comStep, Option.bind_eq_bind, Option.bind_eq_some_iff, Option.some.injEq] at hs
    obtain ⟨_, _, hs⟩ := hs; subst hs; exact h.mono rfl (Nat.le_refl _)
  | reveal i =>
    simp only [comStep, Option.bind_eq_bind, Option.bind_eq_some_iff, Option.some.injEq] at hs
    obtain ⟨_, _, hs⟩ := hs; subst hs; exact h.mono rfl (Nat.le_refl _)
  | and i j =>
    simp only [comStep, Option.bind_eq_bind, Option.bind_eq_some_iff] at hs
    obtain ⟨_, _, _, _, r, hr, hs⟩ := hs
    have hri : SeedInv v r := by
      unfold comAndRoom at hr
      split at hr
      · split at hr
        · rw [← Option.some.inj hr]; exact h.check _
        · cases hr
      · rw [← Option.some.inj hr]; exact h
    unfold comAndPush at hs
    split at hs
    · rw [← Option.some.inj hs]; exact hri.mono rfl (Nat.le_refl _)
    · cases hs
  | poly st =>
    simp only [comStep, Option.bind_eq_bind, Option.bind_eq_some_iff] at hs
    obtain ⟨p, _, hs⟩ := hs
    have hri : SeedInv v (comPolyRoom v c m.ans) := by
      unfold comPolyRoom
      split
      · exact h.polyCheck _
      · exact h
    unfold comPolyPush at hs
    split at hs
    · rw [← Option.some.inj hs]; exact hri.mono rfl (Nat.le_refl _)
    · cases hs

theorem SeedInv.run {v : BView F} (ops : List BOp) : ∀ {c c' : ComSt F} {ms : List (BMsg F)}, SeedInv v c →
    comRun v c ops ms = some c' → SeedInv v c' := by
  induction ops with
  | nil =>
    intro c c' ms h hr
    cases ms with
    | nil => rw [← Option.some.inj hr]; exact h
    | cons m ms => cases hr
  | cons o os ih =>
    intro c c' ms h hr
    cases ms with
    | nil => cases hr
    | cons m ms =>
      simp only [comRun, Option.bind_eq_bind, Option.bind_eq_some_iff] at hr
      obtain ⟨c1, h1, h2⟩ := hr
      exact ih (h.step h1) h2

/-- In a whole session the seeds of every check come from the challenge function. -/
theorem comSession_seeds {v : BView F} {ops : List BOp} {ms : List (BMsg F)} {fin : BFin F} {c : ComSt F}
    (h : comSession v ops ms fin = some c) : ∀ r ∈ c.andLog, ∃ k tr, k < c.andBatches ∧ r.seeds = v.chal k tr := by
  simp only [comSession, Option.bind_eq_bind, Option.bind_eq_some_iff] at h
  obtain ⟨c1, h1, h2⟩ := h
  have i1 : SeedInv v c1 := SeedInv.run ops (c := ComSt.init) (by intro r hr; cases hr) h1
  have i2 : SeedInv v (comFinPoly v c1 fin.polyAns) := by
    unfold comFinPoly
    split
    · exact i1.polyCheck _
    · exact i1
  simp only [comFinalize, comFinAnd] at h2
  split at h2
  · split at h2
    · rw [← Option.some.inj h2]; exact i2.check _
    · cases h2
  · rw [← Option.some.inj h2]; exact i2

end
end EmpZk
