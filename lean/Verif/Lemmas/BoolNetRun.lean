/-
Helper lemmas about whole boolean sessions over the byte channel: the parties on the network compute what the parties of
the message-level model compute.
-/
import Verif.Lemmas.BoolNet

namespace EmpZk

section
variable {F : Type} [Field F] [BlockField F] {ne : NetEnv F}

/-- The instruction runs a check of AND gates. -/
def dueA (ne : NetEnv F) (c : NetCnt) : BOp → Bool
  | .and _ _ => decide (c.gates = ne.e.checkSz)
  | _ => false

theorem prvAndCheck_cnt {e : BEnv F} {s : PrvSt F} {q} (h : prvAndCheck e s = some q) :
    q.1.cnt = s.cnt.andChk ∧ q.1.andBatches = s.andBatches + 1 := by
  unfold prvAndCheck at h
  split at h
  · cases h
  · have := (Option.some.inj h).symm; subst this; exact ⟨rfl, rfl⟩

theorem prvPolyCheck_cnt (e : BEnv F) (s : PrvSt F) :
    (prvPolyCheck e s).1.cnt = s.cnt.polyChk ∧ (prvPolyCheck e s).1.andBatches = s.andBatches := ⟨rfl, rfl⟩

theorem prvAndPush_cnt {e : BEnv F} {s : PrvSt F} {a b : F} {q} (h : prvAndPush e s a b = some q) :
    q.1.cnt = ⟨s.used + 1, s.gates.length + 1, s.polys.length, s.polyBatches⟩ ∧ q.1.andBatches = s.andBatches := by
  unfold prvAndPush at h
  split at h
  · have := (Option.some.inj h).symm; subst this; simp [PrvSt.cnt]
  · cases h

theorem prvPolyPush_cnt {e : BEnv F} {s : PrvSt F} {p} {q} (h : prvPolyPush e s p = some q) :
    q.cnt = ⟨s.used, s.gates.length, s.polys.length + 1, s.polyBatches⟩ ∧ q.andBatches = s.andBatches := by
  unfold prvPolyPush at h
  split at h
  · have := (Option.some.inj h).symm; subst this; simp [PrvSt.cnt]
  · cases h

theorem ne_nil_iff_length {α : Type} (l : List α) : l ≠ [] ↔ l.length ≠ 0 := by
  cases l <;> simp

theorem prvStep_cnt {chal} {s : PrvSt F} {op : BOp} {q} (h : prvStep (ne.wc chal) s op = some q) :
    q.1.cnt = cntStep ne s.cnt op ∧ q.1.andBatches = s.andBatches + (if dueA ne s.cnt op then 1 else 0) := by
  cases op with
  | input b => have := (Option.some.inj h).symm; subst this; exact ⟨rfl, rfl⟩
  | pub b => have := (Option.some.inj h).symm; subst this; exact ⟨rfl, rfl⟩
  | xor i j =>
    simp only [prvStep, Option.bind_eq_bind, Option.bind_eq_some_iff] at h
    obtain ⟨a, _, b, _, h⟩ := h
    have := (Option.some.inj h).symm; subst this; exact ⟨rfl, rfl⟩
  | not i =>
    simp only [prvStep, Option.bind_eq_bind, Option.bind_eq_some_iff] at h
    obtain ⟨a, _, h⟩ := h
    have := (Option.some.inj h).symm; subst this; exact ⟨rfl, rfl⟩
  | reveal i =>
    simp only [prvStep, Option.bind_eq_bind, Option.bind_eq_some_iff] at h
    obtain ⟨a, _, h⟩ := h
    have := (Option.some.inj h).symm; subst this; exact ⟨rfl, rfl⟩
  | and i j =>
    simp only [prvStep, Option.bind_eq_bind, Option.bind_eq_some_iff] at h
    obtain ⟨a, _, b, _, r, hr, t, ht, h⟩ := h
    have := (Option.some.inj h).symm; subst this
    obtain ⟨k1, k2⟩ := prvAndPush_cnt ht
    simp only [k1, k2, cntStep, cntRoomA, dueA]
    unfold prvAndRoom at hr
    have hsz : (ne.wc chal).checkSz = ne.e.checkSz := rfl
    rw [hsz] at hr
    split at hr
    · next hf =>
      obtain ⟨k3, k4⟩ := prvAndCheck_cnt hr
      simp only [PrvSt.cnt, NetCnt.andChk, NetCnt.mk.injEq] at k3
      simp [PrvSt.cnt, hf, k3, k4, NetCnt.andChk]
    · next hf =>
      have := (Option.some.inj hr).symm; subst this
      simp [PrvSt.cnt, hf]
  | poly p =>
    simp only [prvStep, Option.bind_eq_bind, Option.bind_eq_some_iff] at h
    obtain ⟨a, _, t, ht, h⟩ := h
    have := (Option.some.inj h).symm; subst this
    obtain ⟨k1, k2⟩ := prvPolyPush_cnt ht
    have hd : dueA ne s.cnt (.poly p) = false := rfl
    rw [hd]
    simp only [k1, k2, cntStep, cntRoomP]
    unfold prvPolyRoom
    by_cases hf : s.polys.length ≥ (ne.wc chal).polySz ∧ s.polys ≠ []
    · rw [if_pos hf, if_pos (show s.cnt.polys ≥ ne.e.polySz ∧ s.cnt.polys ≠ 0 from ⟨hf.1, (ne_nil_iff_length _).1 hf.2⟩)]
      exact ⟨rfl, rfl⟩
    · rw [if_neg hf, if_neg (show ¬ (s.cnt.polys ≥ ne.e.polySz ∧ s.cnt.polys ≠ 0) from
        fun h => hf ⟨h.1, (ne_nil_iff_length _).2 h.2⟩)]
      exact ⟨rfl, rfl⟩

theorem sentBack_bit : sentBack [.bit] = [] := rfl
theorem sentBack_end : sentBack [.data 32, .flush] = [] := rfl

theorem pnAndRoom_eq (hg : ne.Good) {S : Nat} (n : PrvNet F) {g : List (List Byte)}
    (h : n.got = sentBack (if n.st.cnt.gates = ne.e.checkSz then andCallsV ne n.st.cnt else []) ++ g)
    (chal : Nat → List Bool → Nat → F)
    (hc : n.st.cnt.gates = ne.e.checkSz → ∀ t, chal n.st.andBatches t = ne.seeds (sndFlush S n.io).1.hashed) :
    pnAndRoom ne S n = (prvAndRoom (ne.wc chal) n.st).map (fun r =>
      ⟨r.1, sndRun S n.io (if n.st.cnt.gates = ne.e.checkSz then andCallsP ne n.st.cnt r.2 else []),
        n.calls ++ (if n.st.cnt.gates = ne.e.checkSz then andCallsP ne n.st.cnt r.2 else []), g⟩) := by
  unfold pnAndRoom prvAndRoom
  by_cases hf : n.st.cnt.gates = ne.e.checkSz
  · have h1 : n.st.gates.length = ne.e.checkSz := hf
    have h2 : n.st.gates.length = (ne.wc chal).checkSz := hf
    rw [if_pos h1, if_pos h2]
    rw [if_pos hf] at h
    simp only [if_pos hf]
    exact pnAndCheck_eq hg n h chal (hc hf)
  · have h1 : ¬ n.st.gates.length = ne.e.checkSz := hf
    have h2 : ¬ n.st.gates.length = (ne.wc chal).checkSz := hf
    rw [if_neg h1, if_neg h2]
    rw [if_neg hf] at h
    have h3 : n.got = g := h
    subst h3
    simp [if_neg hf, sndRun]

theorem prvAndRoom_cnt {chal} {s : PrvSt F} {q} (h : prvAndRoom (ne.wc chal) s = some q) :
    q.1.cnt = cntRoomA ne s.cnt := by
  unfold prvAndRoom at h
  unfold cntRoomA
  by_cases hf : s.cnt.gates = ne.e.checkSz
  · rw [if_pos (show s.gates.length = (ne.wc chal).checkSz from hf)] at h
    rw [if_pos hf]
    exact (prvAndCheck_cnt h).1
  · rw [if_neg (show ¬ s.gates.length = (ne.wc chal).checkSz from hf)] at h
    rw [if_neg hf]
    have := (Option.some.inj h).symm; subst this; rfl

theorem pnPolyRoom_eq (hg : ne.Good) {S : Nat} (n : PrvNet F) {g : List (List Byte)}
    (h : n.got = sentBack (if n.st.cnt.polys ≥ ne.e.polySz ∧ n.st.cnt.polys ≠ 0 then polyCallsV ne n.st.cnt else []) ++ g)
    (chal : Nat → List Bool → Nat → F) :
    pnPolyRoom ne S n = some ⟨(prvPolyRoom (ne.wc chal) n.st).1,
      sndRun S n.io (if n.st.cnt.polys ≥ ne.e.polySz ∧ n.st.cnt.polys ≠ 0 then
        polyCallsP ne n.st.cnt (prvPolyRoom (ne.wc chal) n.st).2 else []),
      n.calls ++ (if n.st.cnt.polys ≥ ne.e.polySz ∧ n.st.cnt.polys ≠ 0 then
        polyCallsP ne n.st.cnt (prvPolyRoom (ne.wc chal) n.st).2 else []), g⟩ := by
  unfold pnPolyRoom prvPolyRoom
  by_cases hf : n.st.cnt.polys ≥ ne.e.polySz ∧ n.st.cnt.polys ≠ 0
  · have h1 : n.st.polys.length ≥ ne.e.polySz ∧ n.st.polys ≠ [] := ⟨hf.1, (ne_nil_iff_length _).2 hf.2⟩
    have h2 : n.st.polys.length ≥ (ne.wc chal).polySz ∧ n.st.polys ≠ [] := h1
    rw [if_pos hf] at h
    rw [if_pos h1, if_pos h2, if_pos hf]
    exact pnPolyCheck_eq hg n h chal
  · have h1 : ¬ (n.st.polys.length ≥ ne.e.polySz ∧ n.st.polys ≠ []) :=
      fun h => hf ⟨h.1, (ne_nil_iff_length _).1 h.2⟩
    have h2 : ¬ (n.st.polys.length ≥ (ne.wc chal).polySz ∧ n.st.polys ≠ []) := h1
    rw [if_neg hf] at h
    rw [if_neg h1, if_neg h2, if_neg hf]
    have h3 : n.got = g := h
    subst h3
    simp [sndRun]

theorem pnFinPoly_eq (hg : ne.Good) {S : Nat} (n : PrvNet F) {g : List (List Byte)}
    (h : n.got = sentBack (if n.st.cnt.polys ≠ 0 then polyCallsV ne n.st.cnt else []) ++ g)
    (chal : Nat → List Bool → Nat → F) :
    pnFinPoly ne S n = some ⟨(prvFinPoly (ne.wc chal) n.st).1,
      sndRun S n.io (if n.st.cnt.polys ≠ 0 then polyCallsP ne n.st.cnt (prvFinPoly (ne.wc chal) n.st).2 else []),
      n.calls ++ (if n.st.cnt.polys ≠ 0 then polyCallsP ne n.st.cnt (prvFinPoly (ne.wc chal) n.st).2 else []), g⟩ := by
  unfold pnFinPoly prvFinPoly
  by_cases hf : n.st.cnt.polys ≠ 0
  · have h1 : n.st.polys ≠ [] := (ne_nil_iff_length _).2 hf
    rw [if_pos hf] at h
    rw [if_pos h1, if_pos h1, if_pos hf]
    exact pnPolyCheck_eq hg n h chal
  · have h1 : ¬ n.st.polys ≠ [] := fun h => hf ((ne_nil_iff_length _).1 h)
    rw [if_neg hf] at h
    rw [if_neg h1, if_neg h1, if_neg hf]
    have h3 : n.got = g := h
    subst h3
    simp [sndRun]

theorem pnFinAnd_eq (hg : ne.Good) {S : Nat} (n : PrvNet F) {g : List (List Byte)}
    (h : n.got = sentBack (if n.st.cnt.gates ≠ 0 then andCallsV ne n.st.cnt else []) ++ g)
    (chal : Nat → List Bool → Nat → F)
    (hc : n.st.cnt.gates ≠ 0 → ∀ t, chal n.st.andBatches t = ne.seeds (sndFlush S n.io).1.hashed) :
    pnFinAnd ne S n = (prvFinAnd (ne.wc chal) n.st).map (fun r =>
      ⟨r.1, sndRun S n.io (if n.st.cnt.gates ≠ 0 then andCallsP ne n.st.cnt r.2 else []),
        n.calls ++ (if n.st.cnt.gates ≠ 0 then andCallsP ne n.st.cnt r.2 else []), g⟩) := by
  unfold pnFinAnd prvFinAnd
  by_cases hf : n.st.cnt.gates ≠ 0
  · have h1 : n.st.gates ≠ [] := (ne_nil_iff_length _).2 hf
    rw [if_pos h1, if_pos h1]
    rw [if_pos hf] at h
    simp only [if_pos hf]
    exact pnAndCheck_eq hg n h chal (hc hf)
  · have h1 : ¬ n.st.gates ≠ [] := fun h => hf ((ne_nil_iff_length _).1 h)
    rw [if_neg h1, if_neg h1]
    rw [if_neg hf] at h
    have h3 : n.got = g := h
    subst h3
    simp [if_neg hf, sndRun]

theorem netStepP_eq (hg : ne.Good) {S : Nat} (n : PrvNet F) (op : BOp) {g : List (List Byte)}
    (h : n.got = sentBack (callsV ne n.st.cnt op) ++ g) (chal : Nat → List Bool → Nat → F)
    (hc : dueA ne n.st.cnt op = true → ∀ t, chal n.st.andBatches t = ne.seeds (sndFlush S n.io).1.hashed) :
    netStepP ne S n op = (prvStep (ne.wc chal) n.st op).map (fun q =>
      ⟨q.1, sndRun S n.io (callsP ne n.st.cnt q.2 op), n.calls ++ callsP ne n.st.cnt q.2 op, g⟩) := by
  obtain ⟨st, io, calls, got⟩ := n
  simp only at h hc ⊢
  cases op with
  | input b =>
    have h1 : got = sentBack (ne.extV st.used 1) ++ g := by
      rw [h]; simp [callsV, sentBack_append, PrvSt.cnt, sentBack]
    simp only [netStepP]
    rw [rcotP_eq hg _ _ _ h1]
    simp only [Option.bind_eq_bind, Option.bind_some]
    have he : prvStep ne.e st (.input b) = prvStep (ne.wc chal) st (.input b) := rfl
    rw [he]
    cases prvStep (ne.wc chal) st (.input b) with
    | none => rfl
    | some r => simp only [Option.bind_some, Option.map_some, PrvNet.call, callsP, sndRun_append, PrvSt.cnt, List.append_assoc]
  | pub b =>
    have h1 : got = g := by rw [h]; simp [callsV, sentBack]
    subst h1
    have he : prvStep ne.e st (.pub b) = prvStep (ne.wc chal) st (.pub b) := rfl
    simp only [netStepP, he]
    cases prvStep (ne.wc chal) st (.pub b) with
    | none => rfl
    | some r => simp [callsP, sndRun]
  | xor i j =>
    have h1 : got = g := by rw [h]; simp [callsV, sentBack]
    subst h1
    have he : prvStep ne.e st (.xor i j) = prvStep (ne.wc chal) st (.xor i j) := rfl
    simp only [netStepP, he]
    cases prvStep (ne.wc chal) st (.xor i j) with
    | none => rfl
    | some r => simp [callsP, sndRun]
  | not i =>
    have h1 : got = g := by rw [h]; simp [callsV, sentBack]
    subst h1
    have he : prvStep ne.e st (.not i) = prvStep (ne.wc chal) st (.not i) := rfl
    simp only [netStepP, he]
    cases prvStep (ne.wc chal) st (.not i) with
    | none => rfl
    | some r => simp [callsP, sndRun]
  | reveal i =>
    have h1 : got = g := by rw [h]; simp [callsV, sentBack]
    subst h1
    have he : prvStep ne.e st (.reveal i) = prvStep (ne.wc chal) st (.reveal i) := rfl
    simp only [netStepP, he]
    cases prvStep (ne.wc chal) st (.reveal i) with
    | none => rfl
    | some r => simp [callsP, PrvNet.call]
  | and i j =>
    simp only [netStepP, prvStep]
    cases st.wires[i]? with
    | none => rfl
    | some a =>
    cases st.wires[j]? with
    | none => rfl
    | some b =>
    simp only [Option.bind_eq_bind, Option.bind_some]
    have h1 : got = sentBack (if st.cnt.gates = ne.e.checkSz then andCallsV ne st.cnt else []) ++
        (sentBack (ne.extV (cntRoomA ne st.cnt).used 1) ++ g) := by
      rw [h]; simp only [callsV, sentBack_append, sentBack_bit, List.append_nil, List.append_assoc]
    rw [pnAndRoom_eq hg _ h1 chal (fun hf => hc (by simp [dueA, show st.cnt.gates = ne.e.checkSz from hf]))]
    cases hr : prvAndRoom (ne.wc chal) st with
    | none => rfl
    | some r =>
      have hu : r.1.used = (cntRoomA ne st.cnt).used := congrArg NetCnt.used (prvAndRoom_cnt hr)
      simp only [Option.map_some, Option.bind_some]
      rw [rcotP_eq hg (g := g) _ _ _ (by rw [hu])]
      simp only [Option.bind_some]
      have he : prvAndPush ne.e r.1 a b = prvAndPush (ne.wc chal) r.1 a b := rfl
      rw [he]
      cases prvAndPush (ne.wc chal) r.1 a b with
      | none => rfl
      | some q =>
        simp only [Option.bind_some, Option.map_some, PrvNet.call, callsP, sndRun_append, hu, List.append_assoc]
  | poly p =>
    simp only [netStepP, prvStep]
    cases p.lookup st.wires with
    | none => rfl
    | some x =>
    simp only [Option.bind_eq_bind, Option.bind_some]
    rw [pnPolyRoom_eq hg _ h chal]
    simp only [Option.bind_some]
    have he : prvPolyPush ne.e (prvPolyRoom (ne.wc chal) st).1 x =
      prvPolyPush (ne.wc chal) (prvPolyRoom (ne.wc chal) st).1 x := rfl
    rw [he]
    cases prvPolyPush (ne.wc chal) (prvPolyRoom (ne.wc chal) st).1 x with
    | none => rfl
    | some q => simp only [Option.bind_some, Option.map_some, callsP]

theorem prvFinPoly_cnt (chal) (s : PrvSt F) : (prvFinPoly (ne.wc chal) s).1.cnt =
    (if s.cnt.polys ≠ 0 then s.cnt.polyChk else s.cnt) ∧
    (prvFinPoly (ne.wc chal) s).1.andBatches = s.andBatches := by
  unfold prvFinPoly
  by_cases hf : s.cnt.polys ≠ 0
  · rw [if_pos hf, if_pos ((ne_nil_iff_length _).2 hf)]
    exact ⟨rfl, rfl⟩
  · rw [if_neg hf, if_neg (fun h => hf ((ne_nil_iff_length _).1 h))]
    exact ⟨rfl, rfl⟩

theorem polyChk_gates (c : NetCnt) : (if c.polys ≠ 0 then c.polyChk else c).gates = c.gates := by
  split <;> rfl

theorem netFinP_eq (hg : ne.Good) {S : Nat} (n : PrvNet F) {g : List (List Byte)}
    (h : n.got = sentBack (finCallsV ne n.st.cnt) ++ g) (chal : Nat → List Bool → Nat → F)
    (hc : n.st.cnt.gates ≠ 0 → ∀ t, chal n.st.andBatches t =
      ne.seeds (sndFlush S (sndRun S n.io (if n.st.cnt.polys ≠ 0 then
        polyCallsP ne n.st.cnt (prvFinPoly ne.e n.st).2 else []))).1.hashed) :
    netFinP ne S n = (prvFinalize (ne.wc chal) n.st).map (fun q =>
      ⟨q.1, sndRun S n.io (finCallsP ne n.st.cnt q.2), n.calls ++ finCallsP ne n.st.cnt q.2, g⟩) := by
  obtain ⟨st, io, calls, got⟩ := n
  simp only at h hc ⊢
  have h1 : got = sentBack (if st.cnt.polys ≠ 0 then polyCallsV ne st.cnt else []) ++
      (sentBack (if st.cnt.gates ≠ 0 then andCallsV ne (if st.cnt.polys ≠ 0 then st.cnt.polyChk else st.cnt) else []) ++ g) := by
    rw [h]; simp only [finCallsV, sentBack_append, sentBack_end, List.append_nil, List.append_assoc]
  simp only [netFinP, prvFinalize]
  rw [pnFinPoly_eq hg _ h1 chal]
  obtain ⟨k1, k2⟩ := prvFinPoly_cnt (ne := ne) chal st
  have k3 := polyChk_gates st.cnt
  simp only [Option.bind_eq_bind, Option.bind_some]
  rw [pnFinAnd_eq hg (g := g) _ (by simp only [k1, k3]) chal (by
    intro hf
    simp only [k1, k3] at hf
    simp only [k2]
    exact hc hf)]
  simp only [k1, k3]
  cases prvFinAnd (ne.wc chal) (prvFinPoly (ne.wc chal) st).1 with
  | none => rfl
  | some q =>
    simp only [Option.map_some, Option.bind_some, PrvNet.call, finCallsP, sndRun_append, List.append_assoc]
    rfl

/-! ### the verifier on the network and the verifier of the message-level model -/

/-- The verifier's endpoint is going to return what the calls `l` on the other endpoint send, and then `B`, `D`, `H`. -/
def Feed (S : Nat) (io : SndSt) (l : List SOp) (v : VerNet F) (B : List Bool) (D H : List (List Byte)) : Prop :=
  v.bits = sentBits l ++ B ∧ v.datas = sentData l ++ D ∧ v.digs = newDigs S io l ++ H

omit [Field F] [BlockField F] in
theorem Feed.append {S : Nat} {io : SndSt} {l l' : List SOp} {v : VerNet F} {B D H} (h : Feed S io (l ++ l') v B D H) :
    Feed S io l v (sentBits l' ++ B) (sentData l' ++ D) (newDigs S (sndRun S io l) l' ++ H) := by
  obtain ⟨h1, h2, h3⟩ := h
  refine ⟨?_, ?_, ?_⟩
  · rw [h1, sentBits_append, List.append_assoc]
  · rw [h2, sentData_append, List.append_assoc]
  · rw [h3, newDigs_append, List.append_assoc]

theorem rcotV_eq (hg : ne.Good) {S : Nat} {io : SndSt} (v : VerNet F) (used k : Nat) {B D H}
    (h : Feed S io (ne.extP used k) v B D H) :
    v.rcot ne used k = some ⟨v.st, B, D, H, v.calls ++ ne.extV used k⟩ := by
  obtain ⟨h1, h2, h3⟩ := h
  have l1 := sentBits_length (hg.ext used k)
  have l2 := sentData_length (hg.ext used k)
  have l3 := newDigs_length S (hg.ext used k) io
  unfold VerNet.rcot
  simp only []
  rw [if_neg (by rw [h1, h2, h3]; simp only [List.length_append]; omega)]
  simp only [h1, h2, h3, ← l1, ← l2, ← l3, List.drop_left]

theorem sentBits_hash : sentBits [.hash] = [] := rfl
theorem sentData_hash : sentData [.hash] = [] := rfl
theorem sentBits_back (n : Nat) : sentBits [.back n] = [] := rfl
theorem sentData_back (n : Nat) : sentData [.back n] = [] := rfl

theorem newDigs_data (S : Nat) (io : SndSt) (bs : List Byte) : newDigs S io [.data bs, .flush] = [] := by
  rw [show ([.data bs, .flush] : List SOp) = [.data bs] ++ [.flush] from rfl, newDigs_append,
    newDigs_one _ _ _ (by simp), newDigs_one _ _ _ (by simp)]
  rfl

variable [DecidableEq F]

theorem vnAndCheck_eq (hg : ne.Good) {S : Nat} {io : SndSt} (v : VerNet F) (a : F × F) {B D H}
    (h : Feed S io (andCallsP ne v.st.cnt a) v B D H) (chal : Nat → List Bool → Nat → F)
    (hc : ∀ t, chal v.st.andBatches t = ne.seeds (sndFlush S io).1.hashed) :
    vnAndCheck ne v = (verAndCheck (ne.wc chal) v.st a).map (fun s =>
      ⟨s, B, D, H, v.calls ++ andCallsV ne v.st.cnt⟩) := by
  unfold andCallsP at h
  rw [List.append_assoc] at h
  have hA := h.append
  have h1 := hA.2.2
  rw [newDigs_hash] at h1
  obtain ⟨st, bits, datas, digs, calls⟩ := v
  simp only [List.singleton_append] at h1
  subst h1
  unfold vnAndCheck VerNet.hash
  simp only [Option.bind_eq_bind, Option.bind_some]
  have hB : Feed S (sndRun S io [.hash]) (ne.extP st.used 128) (⟨st, bits, datas, _, calls ++ [.hash]⟩ : VerNet F)
      (sentBits [.data (ne.enc2 a), .flush] ++ B) (sentData [.data (ne.enc2 a), .flush] ++ D)
      (newDigs S (sndRun S (sndRun S io [.hash]) (ne.extP st.used 128)) [.data (ne.enc2 a), .flush] ++ H) :=
    Feed.append ⟨hA.1, hA.2.1, rfl⟩
  simp only [show st.cnt.used = st.used from rfl]
  rw [rcotV_eq hg _ _ _ hB]
  simp only [Option.bind_some, VerNet.data]
  have hd : (sentData [.data (ne.enc2 a), .flush] ++ D) = ne.enc2 a :: D := rfl
  rw [hd]
  simp only [Option.bind_some, hg.dec2_enc2, newDigs_data]
  have he : verAndCheck (ne.env (sndFlush S io).1.hashed 0) st a = verAndCheck (ne.wc chal) st a := by
    unfold verAndCheck
    have e1 : (ne.env (sndFlush S io).1.hashed 0).chal st.andBatches st.transcript =
        (ne.wc chal).chal st.andBatches st.transcript := (hc _).symm
    rw [e1]; rfl
  rw [he]
  cases verAndCheck (ne.wc chal) st a with
  | none => rfl
  | some s =>
    simp only [Option.bind_some, Option.map_some, andCallsV, List.append_assoc]
    rfl

theorem vnPolyCheck_eq (hg : ne.Good) {S : Nat} {io : SndSt} (v : VerNet F) (a : F × F) {B D H}
    (h : Feed S io (polyCallsP ne v.st.cnt a) v B D H) (chal : Nat → List Bool → Nat → F) :
    vnPolyCheck ne v = some ⟨verPolyCheck (ne.wc chal) v.st a, B, D, H, v.calls ++ polyCallsV ne v.st.cnt⟩ := by
  unfold polyCallsP at h
  rw [List.append_assoc] at h
  have hA := h.append
  have h1 := hA.2.2
  rw [newDigs_one _ _ _ (by simp)] at h1
  obtain ⟨st, bits, datas, digs, calls⟩ := v
  have hB : Feed S (sndRun S io [.back 16]) (ne.extP st.used 128)
      (⟨st, bits, datas, digs, calls ++ [.back (ne.enc (ne.e.polySeed st.polyBatches))]⟩ : VerNet F)
      (sentBits [.data (ne.enc2 a)] ++ B) (sentData [.data (ne.enc2 a)] ++ D)
      (newDigs S (sndRun S (sndRun S io [.back 16]) (ne.extP st.used 128)) [.data (ne.enc2 a)] ++ H) :=
    Feed.append ⟨hA.1, hA.2.1, h1⟩
  unfold vnPolyCheck
  simp only [Option.bind_eq_bind]
  rw [rcotV_eq hg _ _ _ hB]
  simp only [Option.bind_some, VerNet.data]
  have hd : (sentData [.data (ne.enc2 a)] ++ D) = ne.enc2 a :: D := rfl
  rw [hd]
  simp only [Option.bind_some, hg.dec2_enc2]
  rw [newDigs_one _ _ _ (by simp)]
  simp only [polyCallsV, List.append_assoc]
  rfl

omit [Field F] [BlockField F] [DecidableEq F] in
theorem Feed_nil {S : Nat} {io : SndSt} {v : VerNet F} {B D H} (h : Feed S io [] v B D H) :
    v.bits = B ∧ v.datas = D ∧ v.digs = H := h

theorem vnAndRoom_eq (hg : ne.Good) {S : Nat} {io : SndSt} (v : VerNet F) (a : F × F) {B D H}
    (h : Feed S io (if v.st.cnt.gates = ne.e.checkSz then andCallsP ne v.st.cnt a else []) v B D H)
    (chal : Nat → List Bool → Nat → F)
    (hc : v.st.cnt.gates = ne.e.checkSz → ∀ t, chal v.st.andBatches t = ne.seeds (sndFlush S io).1.hashed) :
    vnAndRoom ne v = (verAndRoom (ne.wc chal) v.st a).map (fun s =>
      ⟨s, B, D, H, v.calls ++ (if v.st.cnt.gates = ne.e.checkSz then andCallsV ne v.st.cnt else [])⟩) := by
  unfold vnAndRoom verAndRoom
  by_cases hf : v.st.cnt.gates = ne.e.checkSz
  · rw [if_pos hf] at h
    rw [if_pos (show v.st.gates.length = ne.e.checkSz from hf),
      if_pos (show v.st.gates.length = (ne.wc chal).checkSz from hf)]
    simp only [if_pos hf]
    exact vnAndCheck_eq hg v a h chal (hc hf)
  · rw [if_neg hf] at h
    rw [if_neg (show ¬ v.st.gates.length = ne.e.checkSz from hf),
      if_neg (show ¬ v.st.gates.length = (ne.wc chal).checkSz from hf)]
    obtain ⟨rfl, rfl, rfl⟩ := Feed_nil h
    simp [if_neg hf]

theorem vnPolyRoom_eq (hg : ne.Good) {S : Nat} {io : SndSt} (v : VerNet F) (a : F × F) {B D H}
    (h : Feed S io (if v.st.cnt.polys ≥ ne.e.polySz ∧ v.st.cnt.polys ≠ 0 then polyCallsP ne v.st.cnt a else []) v B D H)
    (chal : Nat → List Bool → Nat → F) :
    vnPolyRoom ne v = some ⟨verPolyRoom (ne.wc chal) v.st a, B, D, H,
      v.calls ++ (if v.st.cnt.polys ≥ ne.e.polySz ∧ v.st.cnt.polys ≠ 0 then polyCallsV ne v.st.cnt else [])⟩ := by
  unfold vnPolyRoom verPolyRoom
  by_cases hf : v.st.cnt.polys ≥ ne.e.polySz ∧ v.st.cnt.polys ≠ 0
  · have h1 : v.st.polys.length ≥ ne.e.polySz ∧ v.st.polys ≠ [] := ⟨hf.1, (ne_nil_iff_length _).2 hf.2⟩
    have h2 : v.st.polys.length ≥ (ne.wc chal).polySz ∧ v.st.polys ≠ [] := h1
    rw [if_pos hf] at h
    rw [if_pos h1, if_pos h2, if_pos hf]
    exact vnPolyCheck_eq hg v a h chal
  · have h1 : ¬ (v.st.polys.length ≥ ne.e.polySz ∧ v.st.polys ≠ []) :=
      fun h => hf ⟨h.1, (ne_nil_iff_length _).1 h.2⟩
    have h2 : ¬ (v.st.polys.length ≥ (ne.wc chal).polySz ∧ v.st.polys ≠ []) := h1
    rw [if_neg hf] at h
    rw [if_neg h1, if_neg h2, if_neg hf]
    obtain ⟨rfl, rfl, rfl⟩ := Feed_nil h
    simp

theorem vnFinPoly_eq (hg : ne.Good) {S : Nat} {io : SndSt} (v : VerNet F) (a : F × F) {B D H}
    (h : Feed S io (if v.st.cnt.polys ≠ 0 then polyCallsP ne v.st.cnt a else []) v B D H)
    (chal : Nat → List Bool → Nat → F) :
    vnFinPoly ne v = some ⟨verFinPoly (ne.wc chal) v.st a, B, D, H,
      v.calls ++ (if v.st.cnt.polys ≠ 0 then polyCallsV ne v.st.cnt else [])⟩ := by
  unfold vnFinPoly verFinPoly
  by_cases hf : v.st.cnt.polys ≠ 0
  · have h1 : v.st.polys ≠ [] := (ne_nil_iff_length _).2 hf
    rw [if_pos hf] at h
    rw [if_pos h1, if_pos h1, if_pos hf]
    exact vnPolyCheck_eq hg v a h chal
  · have h1 : ¬ v.st.polys ≠ [] := fun h => hf ((ne_nil_iff_length _).1 h)
    rw [if_neg hf] at h
    rw [if_neg h1, if_neg h1, if_neg hf]
    obtain ⟨rfl, rfl, rfl⟩ := Feed_nil h
    simp

theorem vnFinAnd_eq (hg : ne.Good) {S : Nat} {io : SndSt} (v : VerNet F) (a : F × F) {B D H}
    (h : Feed S io (if v.st.cnt.gates ≠ 0 then andCallsP ne v.st.cnt a else []) v B D H)
    (chal : Nat → List Bool → Nat → F)
    (hc : v.st.cnt.gates ≠ 0 → ∀ t, chal v.st.andBatches t = ne.seeds (sndFlush S io).1.hashed) :
    vnFinAnd ne v = (verFinAnd (ne.wc chal) v.st a).map (fun s =>
      ⟨s, B, D, H, v.calls ++ (if v.st.cnt.gates ≠ 0 then andCallsV ne v.st.cnt else [])⟩) := by
  unfold vnFinAnd verFinAnd
  by_cases hf : v.st.cnt.gates ≠ 0
  · have h1 : v.st.gates ≠ [] := (ne_nil_iff_length _).2 hf
    rw [if_pos hf] at h
    rw [if_pos h1, if_pos h1]
    simp only [if_pos hf]
    exact vnAndCheck_eq hg v a h chal (hc hf)
  · have h1 : ¬ v.st.gates ≠ [] := fun h => hf ((ne_nil_iff_length _).1 h)
    rw [if_neg hf] at h
    rw [if_neg h1, if_neg h1]
    obtain ⟨rfl, rfl, rfl⟩ := Feed_nil h
    simp [if_neg hf]

theorem verAndCheck_cnt {e : BEnv F} {s : VerSt F} {a} {q} (h : verAndCheck e s a = some q) :
    q.cnt = s.cnt.andChk ∧ q.andBatches = s.andBatches + 1 := by
  unfold verAndCheck at h
  split at h
  · cases h
  · have := (Option.some.inj h).symm; subst this; exact ⟨rfl, rfl⟩

theorem verAndRoom_cnt {chal} {s : VerSt F} {a} {q} (h : verAndRoom (ne.wc chal) s a = some q) :
    q.cnt = cntRoomA ne s.cnt ∧ q.andBatches = s.andBatches + (if s.cnt.gates = ne.e.checkSz then 1 else 0) := by
  unfold verAndRoom at h
  unfold cntRoomA
  by_cases hf : s.cnt.gates = ne.e.checkSz
  · rw [if_pos (show s.gates.length = (ne.wc chal).checkSz from hf)] at h
    rw [if_pos hf, if_pos hf]
    exact verAndCheck_cnt h
  · rw [if_neg (show ¬ s.gates.length = (ne.wc chal).checkSz from hf)] at h
    rw [if_neg hf, if_neg hf]
    have := (Option.some.inj h).symm; subst this; exact ⟨rfl, rfl⟩

omit [DecidableEq F] in
theorem verAndPush_cnt {e : BEnv F} {s : VerSt F} {a b : F} {d} {q} (h : verAndPush e s a b d = some q) :
    q.cnt = ⟨s.used + 1, s.gates.length + 1, s.polys.length, s.polyBatches⟩ ∧ q.andBatches = s.andBatches := by
  unfold verAndPush at h
  split at h
  · have := (Option.some.inj h).symm; subst this; simp [VerSt.cnt]
  · cases h

omit [DecidableEq F] in
theorem verPolyPush_cnt {e : BEnv F} {s : VerSt F} {p} {q} (h : verPolyPush e s p = some q) :
    q.cnt = ⟨s.used, s.gates.length, s.polys.length + 1, s.polyBatches⟩ ∧ q.andBatches = s.andBatches := by
  unfold verPolyPush at h
  split at h
  · have := (Option.some.inj h).symm; subst this; simp [VerSt.cnt]
  · cases h

theorem verPolyRoom_cnt (chal) (s : VerSt F) (a) : (verPolyRoom (ne.wc chal) s a).cnt = cntRoomP ne s.cnt ∧
    (verPolyRoom (ne.wc chal) s a).andBatches = s.andBatches := by
  unfold verPolyRoom cntRoomP
  by_cases hf : s.polys.length ≥ (ne.wc chal).polySz ∧ s.polys ≠ []
  · rw [if_pos hf, if_pos (show s.cnt.polys ≥ ne.e.polySz ∧ s.cnt.polys ≠ 0 from ⟨hf.1, (ne_nil_iff_length _).1 hf.2⟩)]
    exact ⟨rfl, rfl⟩
  · rw [if_neg hf, if_neg (show ¬ (s.cnt.polys ≥ ne.e.polySz ∧ s.cnt.polys ≠ 0) from
      fun h => hf ⟨h.1, (ne_nil_iff_length _).2 h.2⟩)]
    exact ⟨rfl, rfl⟩

theorem verStep_cnt {chal} {s : VerSt F} {m : BMsg F} {op : BOp} {q} (h : verStep (ne.wc chal) s m op = some q) :
    q.cnt = cntStep ne s.cnt op ∧ q.andBatches = s.andBatches + (if dueA ne s.cnt op then 1 else 0) := by
  cases op with
  | input b => have := (Option.some.inj h).symm; subst this; exact ⟨rfl, rfl⟩
  | pub b => have := (Option.some.inj h).symm; subst this; exact ⟨rfl, rfl⟩
  | xor i j =>
    simp only [verStep, Option.bind_eq_bind, Option.bind_eq_some_iff] at h
    obtain ⟨a, _, b, _, h⟩ := h
    have := (Option.some.inj h).symm; subst this; exact ⟨rfl, rfl⟩
  | not i =>
    simp only [verStep, Option.bind_eq_bind, Option.bind_eq_some_iff] at h
    obtain ⟨a, _, h⟩ := h
    have := (Option.some.inj h).symm; subst this; exact ⟨rfl, rfl⟩
  | reveal i =>
    simp only [verStep, Option.bind_eq_bind, Option.bind_eq_some_iff] at h
    obtain ⟨a, _, h⟩ := h
    have := (Option.some.inj h).symm; subst this; exact ⟨rfl, rfl⟩
  | and i j =>
    simp only [verStep, Option.bind_eq_bind, Option.bind_eq_some_iff] at h
    obtain ⟨a, _, b, _, r, hr, h⟩ := h
    obtain ⟨k1, k2⟩ := verAndPush_cnt h
    obtain ⟨k3, k4⟩ := verAndRoom_cnt hr
    simp only [k1, k2, k4, cntStep, dueA, ← k3, decide_eq_true_eq]
    exact ⟨rfl, trivial⟩
  | poly p =>
    simp only [verStep, Option.bind_eq_bind, Option.bind_eq_some_iff] at h
    obtain ⟨a, _, h⟩ := h
    obtain ⟨k1, k2⟩ := verPolyPush_cnt h
    obtain ⟨k3, k4⟩ := verPolyRoom_cnt (ne := ne) chal s m.ans
    have hd : dueA ne s.cnt (.poly p) = false := rfl
    rw [hd]
    simp only [k1, k2, k4, cntStep, ← k3]
    exact ⟨rfl, rfl⟩

omit [Field F] [BlockField F] [DecidableEq F] in
theorem Feed.bit {S : Nat} {io : SndSt} {v : VerNet F} {b : Bool} {B D H} (h : Feed S io [.bit b] v B D H) :
    v.bit = some (b, ⟨v.st, B, D, H, v.calls ++ [.bit]⟩) := by
  obtain ⟨h1, h2, h3⟩ := h
  have h1' : v.bits = b :: B := h1
  have h2' : v.datas = D := h2
  have h3' : v.digs = H := by rw [h3, newDigs_one _ _ _ (by simp)]; rfl
  unfold VerNet.bit
  rw [h1']
  simp only [h2', h3']

theorem netStepV_eq (hg : ne.Good) {S : Nat} {io : SndSt} (v : VerNet F) (m : BMsg F) (op : BOp) {B D H}
    (h : Feed S io (callsP ne v.st.cnt m op) v B D H) (chal : Nat → List Bool → Nat → F)
    (hc : dueA ne v.st.cnt op = true → ∀ t, chal v.st.andBatches t = ne.seeds (sndFlush S io).1.hashed) :
    netStepV ne v op = (verStep (ne.wc chal) v.st m op).map (fun s =>
      ⟨s, B, D, H, v.calls ++ callsV ne v.st.cnt op⟩) := by
  cases op with
  | input b =>
    have hA : Feed S io (ne.extP v.st.used 1 ++ [.bit m.bit]) v B D H := h
    simp only [netStepV]
    rw [rcotV_eq hg _ _ _ hA.append]
    simp only [Option.bind_eq_bind, Option.bind_some]
    rw [Feed.bit (b := m.bit) (io := sndRun S io (ne.extP v.st.used 1)) (B := B) (D := D) (H := H) ⟨rfl, rfl, rfl⟩]
    simp only [Option.bind_some]
    have he : verStep ne.e v.st ⟨m.bit, 0, 0⟩ (.input b) = verStep (ne.wc chal) v.st m (.input b) := rfl
    rw [he]
    cases verStep (ne.wc chal) v.st m (.input b) with
    | none => rfl
    | some r => simp only [Option.bind_some, Option.map_some, callsV, List.append_assoc, VerSt.cnt]
  | pub b =>
    obtain ⟨rfl, rfl, rfl⟩ := Feed_nil h
    have he : verStep ne.e v.st ⟨false, 0, 0⟩ (.pub b) = verStep (ne.wc chal) v.st m (.pub b) := rfl
    simp only [netStepV, he]
    cases verStep (ne.wc chal) v.st m (.pub b) with
    | none => rfl
    | some r => simp [callsV]
  | xor i j =>
    obtain ⟨rfl, rfl, rfl⟩ := Feed_nil h
    have he : verStep ne.e v.st ⟨false, 0, 0⟩ (.xor i j) = verStep (ne.wc chal) v.st m (.xor i j) := rfl
    simp only [netStepV, he]
    cases verStep (ne.wc chal) v.st m (.xor i j) with
    | none => rfl
    | some r => simp [callsV]
  | not i =>
    obtain ⟨rfl, rfl, rfl⟩ := Feed_nil h
    have he : verStep ne.e v.st ⟨false, 0, 0⟩ (.not i) = verStep (ne.wc chal) v.st m (.not i) := rfl
    simp only [netStepV, he]
    cases verStep (ne.wc chal) v.st m (.not i) with
    | none => rfl
    | some r => simp [callsV]
  | reveal i =>
    simp only [netStepV]
    rw [Feed.bit (b := m.bit) (io := io) (B := B) (D := D) (H := H) h]
    simp only [Option.bind_eq_bind, Option.bind_some]
    have he : verStep ne.e v.st ⟨m.bit, 0, 0⟩ (.reveal i) = verStep (ne.wc chal) v.st m (.reveal i) := rfl
    rw [he]
    cases verStep (ne.wc chal) v.st m (.reveal i) with
    | none => rfl
    | some r => simp only [Option.bind_some, Option.map_some, callsV]
  | and i j =>
    simp only [netStepV, verStep]
    cases v.st.wires[i]? with
    | none => rfl
    | some a =>
    cases v.st.wires[j]? with
    | none => rfl
    | some b =>
    simp only [Option.bind_eq_bind, Option.bind_some]
    rw [vnAndRoom_eq hg v m.ans h.append chal (fun hf => hc (by simp [dueA, hf]))]
    cases hr : verAndRoom (ne.wc chal) v.st m.ans with
    | none => rfl
    | some r =>
      have hu : r.used = (cntRoomA ne v.st.cnt).used := congrArg NetCnt.used (verAndRoom_cnt hr).1
      simp only [Option.map_some, Option.bind_some, hu]
      rw [rcotV_eq hg _ _ _ (Feed.append ⟨rfl, rfl, rfl⟩)]
      simp only [Option.bind_some]
      rw [Feed.bit (b := m.bit) (B := B) (D := D) (H := H) ⟨rfl, rfl, rfl⟩]
      simp only [Option.bind_some]
      have he : verAndPush ne.e r a b m.bit = verAndPush (ne.wc chal) r a b m.bit := rfl
      rw [he]
      cases verAndPush (ne.wc chal) r a b m.bit with
      | none => rfl
      | some q => simp only [Option.bind_some, Option.map_some, callsV, List.append_assoc]
  | poly p =>
    simp only [netStepV, verStep]
    cases p.lookup v.st.wires with
    | none => rfl
    | some x =>
    simp only [Option.bind_eq_bind, Option.bind_some]
    rw [vnPolyRoom_eq hg v m.ans h chal]
    simp only [Option.bind_some]
    have he : verPolyPush ne.e (verPolyRoom (ne.wc chal) v.st m.ans) x =
      verPolyPush (ne.wc chal) (verPolyRoom (ne.wc chal) v.st m.ans) x := rfl
    rw [he]
    cases verPolyPush (ne.wc chal) (verPolyRoom (ne.wc chal) v.st m.ans) x with
    | none => rfl
    | some q => simp only [Option.bind_some, Option.map_some, callsV]

theorem verFinPoly_cnt (chal) (s : VerSt F) (a) : (verFinPoly (ne.wc chal) s a).cnt =
    (if s.cnt.polys ≠ 0 then s.cnt.polyChk else s.cnt) ∧
    (verFinPoly (ne.wc chal) s a).andBatches = s.andBatches := by
  unfold verFinPoly
  by_cases hf : s.cnt.polys ≠ 0
  · rw [if_pos hf, if_pos ((ne_nil_iff_length _).2 hf)]
    exact ⟨rfl, rfl⟩
  · rw [if_neg hf, if_neg (fun h => hf ((ne_nil_iff_length _).1 h))]
    exact ⟨rfl, rfl⟩

theorem netFinV_eq (hg : ne.Good) {S : Nat} {io : SndSt} (v : VerNet F) (f : BFin F) {B D H}
    (h : Feed S io (finCallsP ne v.st.cnt f) v B D H) (chal : Nat → List Bool → Nat → F)
    (hc : v.st.cnt.gates ≠ 0 → ∀ t, chal v.st.andBatches t =
      ne.seeds (sndFlush S (sndRun S io (if v.st.cnt.polys ≠ 0 then
        polyCallsP ne v.st.cnt f.polyAns else []))).1.hashed) :
    netFinV ne v = (verFinalize (ne.wc chal) v.st f).map (fun s =>
      ⟨s, B, D, H, v.calls ++ finCallsV ne v.st.cnt⟩) := by
  simp only [netFinV, verFinalize]
  rw [vnFinPoly_eq hg v f.polyAns h.append chal]
  obtain ⟨k1, k2⟩ := verFinPoly_cnt (ne := ne) chal v.st f.polyAns
  have k3 := polyChk_gates v.st.cnt
  simp only [Option.bind_eq_bind, Option.bind_some]
  rw [vnFinAnd_eq hg (S := S) (a := f.andAns) (io := sndRun S io (if v.st.cnt.polys ≠ 0 then polyCallsP ne v.st.cnt f.polyAns else []))
    (B := sentBits [.data (ne.encD f.digest), .flush] ++ B) (D := sentData [.data (ne.encD f.digest), .flush] ++ D)
    (H := H) _ (by
      simp only [k1, k3]
      have := Feed.append (v := (⟨v.st, _, _, _, []⟩ : VerNet F)) (S := S) (io := sndRun S io (if v.st.cnt.polys ≠ 0 then polyCallsP ne v.st.cnt f.polyAns else []))
        (l := if v.st.cnt.gates ≠ 0 then andCallsP ne (if v.st.cnt.polys ≠ 0 then v.st.cnt.polyChk else v.st.cnt) f.andAns else [])
        (l' := [.data (ne.encD f.digest), .flush]) (B := B) (D := D) (H := H) ⟨rfl, rfl, rfl⟩
      rw [newDigs_data, List.nil_append] at this
      exact this) chal (by
    intro hf
    simp only [k1, k3] at hf
    simp only [k2]
    exact hc hf)]
  simp only [k1, k3]
  cases verFinAnd (ne.wc chal) (verFinPoly (ne.wc chal) v.st f.polyAns) f.andAns with
  | none => rfl
  | some q =>
    simp only [Option.map_some, Option.bind_some, VerNet.data]
    have hd : (sentData [.data (ne.encD f.digest), .flush] ++ D) = ne.encD f.digest :: D := rfl
    rw [hd]
    simp only [Option.bind_some, hg.decD_encD, finCallsV, List.append_assoc]
    rfl

end
end EmpZk
