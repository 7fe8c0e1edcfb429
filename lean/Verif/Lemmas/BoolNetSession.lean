/-
Helper lemmas: whole runs of both parties over the network against runs of the message-level model.
-/
import Verif.Lemmas.BoolNetRun

namespace EmpZk

section
variable {F : Type} [Field F] [BlockField F] {ne : NetEnv F}

theorem prvStep_chal {chal chal' : Nat → List Bool → Nat → F} {s : PrvSt F} {op : BOp}
    (h : dueA ne s.cnt op = true → ∀ t, chal s.andBatches t = chal' s.andBatches t) :
    prvStep (ne.wc chal) s op = prvStep (ne.wc chal') s op := by
  cases op with
  | and i j =>
    simp only [prvStep]
    have : prvAndRoom (ne.wc chal) s = prvAndRoom (ne.wc chal') s := by
      unfold prvAndRoom
      by_cases hf : s.gates.length = ne.e.checkSz
      · rw [if_pos (show s.gates.length = (ne.wc chal).checkSz from hf),
          if_pos (show s.gates.length = (ne.wc chal').checkSz from hf)]
        have e1 : (ne.wc chal).chal s.andBatches s.transcript = (ne.wc chal').chal s.andBatches s.transcript :=
          h (by simp only [dueA, decide_eq_true_eq]; exact hf) _
        unfold prvAndCheck
        rw [e1]; rfl
      · rw [if_neg (show ¬ s.gates.length = (ne.wc chal).checkSz from hf),
          if_neg (show ¬ s.gates.length = (ne.wc chal').checkSz from hf)]
    rw [this]; rfl
  | input b => rfl
  | pub b => rfl
  | xor i j => rfl
  | not i => rfl
  | reveal i => rfl
  | poly p => rfl

theorem prvRun_chal {chal chal' : Nat → List Bool → Nat → F} (ops : List BOp) : ∀ {s : PrvSt F},
    (∀ i, s.andBatches ≤ i → ∀ t, chal i t = chal' i t) → prvRun (ne.wc chal) s ops = prvRun (ne.wc chal') s ops := by
  induction ops with
  | nil => intro s _; rfl
  | cons o os ih =>
    intro s h
    simp only [prvRun]
    rw [prvStep_chal (chal' := chal') (fun _ => h _ (Nat.le_refl _))]
    cases hs : prvStep (ne.wc chal') s o with
    | none => rfl
    | some r =>
      have hb := (prvStep_cnt hs).2
      simp only [Option.bind_eq_bind, Option.bind_some]
      rw [ih (s := r.1) (fun i hi => h i (by omega))]

/-- The challenges of a check, if the instruction runs one. -/
def dueDig (ne : NetEnv F) (S : Nat) (n : PrvNet F) (op : BOp) : List (List Byte) :=
  if dueA ne n.st.cnt op then [(sndFlush S n.io).1.hashed] else []

theorem netStepP_some (hg : ne.Good) {S : Nat} {n n1 : PrvNet F} {op : BOp} {g : List (List Byte)}
    (h : n.got = sentBack (callsV ne n.st.cnt op) ++ g) (hs : netStepP ne S n op = some n1) :
    ∃ m, n1.got = g ∧ n1.io = sndRun S n.io (callsP ne n.st.cnt m op) ∧ n1.calls = n.calls ++ callsP ne n.st.cnt m op ∧
      n1.st.cnt = cntStep ne n.st.cnt op ∧
      n1.st.andBatches = n.st.andBatches + (dueDig ne S n op).length ∧
      ∀ chal : Nat → List Bool → Nat → F,
        (∀ d, (dueDig ne S n op)[0]? = some d → ∀ t, chal n.st.andBatches t = ne.seeds d) →
        prvStep (ne.wc chal) n.st op = some (n1.st, m) := by
  have e := netStepP_eq hg (S := S) n op h (fun _ _ => ne.seeds (sndFlush S n.io).1.hashed) (fun _ _ => rfl)
  rw [e] at hs
  cases hq : prvStep (ne.wc (fun _ _ => ne.seeds (sndFlush S n.io).1.hashed)) n.st op with
  | none => rw [hq] at hs; cases hs
  | some q =>
    rw [hq] at hs
    have hn := (Option.some.inj hs).symm
    subst hn
    obtain ⟨k1, k2⟩ := prvStep_cnt hq
    refine ⟨q.2, rfl, rfl, rfl, k1, ?_, ?_⟩
    · rw [k2, dueDig]; split <;> rfl
    · intro chal hc
      rw [prvStep_chal (chal' := fun _ _ => ne.seeds (sndFlush S n.io).1.hashed) (fun hd t => hc _ (by simp [dueDig, hd]) t)]
      exact hq

variable [DecidableEq F]

/-- What is proved about a run of both parties on the network. -/
structure NetSim (ne : NetEnv F) (S : Nat) (n n' : PrvNet F) (ops : List BOp) (g : List (List Byte)) (ms : List (BMsg F))
    (l : List SOp) (ds : List (List Byte)) : Prop where
  got : n'.got = g
  io : n'.io = sndRun S n.io l
  calls : n'.calls = n.calls ++ l
  mirror : List.Forall₂ Mirror l (runCallsV ne n.st.cnt ops)
  cnt : n'.st.cnt = cntRun ne n.st.cnt ops
  batches : n'.st.andBatches = n.st.andBatches + ds.length
  prv : ∀ chal : Nat → List Bool → Nat → F, (∀ i d, ds[i]? = some d → ∀ t, chal (n.st.andBatches + i) t = ne.seeds d) →
    prvRun (ne.wc chal) n.st ops = some (n'.st, ms)
  ver : ∀ chal : Nat → List Bool → Nat → F, (∀ i d, ds[i]? = some d → ∀ t, chal (n.st.andBatches + i) t = ne.seeds d) →
    ∀ (v : VerNet F) B D H, v.st.cnt = n.st.cnt → v.st.andBatches = n.st.andBatches → Feed S n.io l v B D H →
      netRunV ne v ops = (verRun (ne.wc chal) v.st ops ms).map (fun s =>
        ⟨s, B, D, H, v.calls ++ runCallsV ne v.st.cnt ops⟩) ∧
      ∀ s, verRun (ne.wc chal) v.st ops ms = some s → s.cnt = n'.st.cnt ∧ s.andBatches = n'.st.andBatches

theorem net_run (hg : ne.Good) {S : Nat} (ops : List BOp) : ∀ {n n' : PrvNet F} {g : List (List Byte)},
    n.got = sentBack (runCallsV ne n.st.cnt ops) ++ g → netRunP ne S n ops = some n' →
    ∃ ms l ds, NetSim ne S n n' ops g ms l ds := by
  induction ops with
  | nil =>
    intro n n' g h hr
    have hn := (Option.some.inj hr).symm
    subst hn
    refine ⟨[], [], [], ⟨h, rfl, (List.append_nil _).symm, .nil, rfl, rfl, fun _ _ => rfl, ?_⟩⟩
    intro chal _ v B D H hv hb hf
    obtain ⟨h1, h2, h3⟩ := Feed_nil hf
    subst h1; subst h2; subst h3
    refine ⟨by simp [netRunV, verRun, runCallsV], ?_⟩
    intro s hs
    have := (Option.some.inj hs).symm
    subst this
    exact ⟨hv, hb⟩
  | cons o os ih =>
    intro n n' g h hr
    simp only [netRunP, Option.bind_eq_bind, Option.bind_eq_some_iff] at hr
    obtain ⟨n1, h1, h2⟩ := hr
    have hgot : n.got = sentBack (callsV ne n.st.cnt o) ++
        (sentBack (runCallsV ne (cntStep ne n.st.cnt o) os) ++ g) := by
      rw [h, runCallsV, sentBack_append, List.append_assoc]
    obtain ⟨m, k1, k2, k3, k4, k5, k6⟩ := netStepP_some hg hgot h1
    rw [← k4] at k1
    obtain ⟨ms, l, ds, sim⟩ := ih k1 h2
    have split : ∀ chal : Nat → List Bool → Nat → F,
        (∀ i d, (dueDig ne S n o ++ ds)[i]? = some d → ∀ t, chal (n.st.andBatches + i) t = ne.seeds d) →
        (∀ d, (dueDig ne S n o)[0]? = some d → ∀ t, chal n.st.andBatches t = ne.seeds d) ∧
        (∀ i d, ds[i]? = some d → ∀ t, chal (n1.st.andBatches + i) t = ne.seeds d) := by
      intro chal hc
      constructor
      · intro d hd t
        refine hc 0 d ?_ t
        rw [List.getElem?_append_left]
        · exact hd
        · rw [List.getElem?_eq_some_iff] at hd; exact hd.1
      · intro i d hd t
        have := hc ((dueDig ne S n o).length + i) d (by
          rw [List.getElem?_append_right (Nat.le_add_right _ _), Nat.add_sub_cancel_left]; exact hd) t
        rw [k5, Nat.add_assoc]
        exact this
    refine ⟨m :: ms, callsP ne n.st.cnt m o ++ l, dueDig ne S n o ++ ds, ⟨sim.got, ?_, ?_, ?_, ?_, ?_, ?_, ?_⟩⟩
    · rw [sim.io, k2, sndRun_append]
    · rw [sim.calls, k3, List.append_assoc]
    · have := sim.mirror
      rw [k4] at this
      exact List.rel_append (calls_mirror hg _ m o) this
    · rw [sim.cnt, k4]; rfl
    · rw [sim.batches, k5, List.length_append, Nat.add_assoc]
    · intro chal hc
      obtain ⟨c1, c2⟩ := split chal hc
      simp only [prvRun, Option.bind_eq_bind, k6 chal c1, Option.bind_some, sim.prv chal c2]
    · intro chal hc v B D H hv hb hf
      obtain ⟨c1, c2⟩ := split chal hc
      have hA : Feed S n.io (callsP ne v.st.cnt m o) v (sentBits l ++ B) (sentData l ++ D)
          (newDigs S (sndRun S n.io (callsP ne n.st.cnt m o)) l ++ H) := by rw [hv]; exact hf.append
      have hdue : dueA ne v.st.cnt o = true → ∀ t, chal v.st.andBatches t = ne.seeds (sndFlush S n.io).1.hashed := by
        intro hd t
        rw [hv] at hd
        rw [hb]
        exact c1 _ (by simp [dueDig, hd]) t
      have hstep := netStepV_eq hg v m o hA chal hdue
      simp only [netRunV, verRun, Option.bind_eq_bind]
      rw [hstep]
      cases hvs : verStep (ne.wc chal) v.st m o with
      | none => exact ⟨rfl, by intro s hs; cases hs⟩
      | some s1 =>
        obtain ⟨j1, j2⟩ := verStep_cnt hvs
        simp only [Option.map_some, Option.bind_some]
        have jc : s1.cnt = n1.st.cnt := by rw [j1, k4, hv]
        have jb : s1.andBatches = n1.st.andBatches := by
          rw [j2, k5, hb, hv, dueDig]
          split <;> rfl
        have := sim.ver chal c2 ⟨s1, sentBits l ++ B, sentData l ++ D, newDigs S (sndRun S n.io (callsP ne n.st.cnt m o)) l ++ H,
          v.calls ++ callsV ne v.st.cnt o⟩ B D H jc jb (by rw [k2]; exact ⟨rfl, rfl, rfl⟩)
        obtain ⟨t1, t2⟩ := this
        rw [t1]
        refine ⟨?_, t2⟩
        congr 1
        funext s
        simp only [runCallsV, List.append_assoc, j1]

/-- The result of a whole session on the network. -/
theorem net_session (hg : ne.Good) {S : Nat} (ops : List BOp) {n : PrvNet F}
    (h : netSessionP ne S ops (sentBack (sessionCallsV ne ops)) = some n) :
    ∃ ms fin chal, n.got = [] ∧ n.io = sndRun S ⟨[], [], [], []⟩ n.calls ∧
      List.Forall₂ Mirror n.calls (sessionCallsV ne ops) ∧
      prvSession (ne.wc chal) ops = some (n.st, ms, fin) ∧
      netSessionV ne ops (sentBits n.calls) (sentData n.calls) n.io.digests =
        (verSession (ne.wc chal) ops ms fin).map (fun s => ⟨s, [], [], [], sessionCallsV ne ops⟩) := by
  simp only [netSessionP, Option.bind_eq_bind, Option.bind_eq_some_iff] at h
  obtain ⟨n0, h0, n1, h1, h2⟩ := h
  have e0 := rcotP_eq hg (S := S) (⟨PrvSt.init, ⟨[], [], [], []⟩, [], sentBack (sessionCallsV ne ops)⟩ : PrvNet F) 0 1
    (g := sentBack (runCallsV ne ⟨1, 0, 0, 0⟩ ops) ++ sentBack (finCallsV ne (cntRun ne ⟨1, 0, 0, 0⟩ ops))) (by
      simp only [sessionCallsV, sentBack_append])
  rw [e0] at h0
  have hn0 := (Option.some.inj h0).symm
  have c0 : (PrvSt.init : PrvSt F).cnt = ⟨1, 0, 0, 0⟩ := rfl
  obtain ⟨ms, l, ds, sim⟩ := net_run hg (S := S) ops (n := n0) (n' := n1)
    (g := sentBack (finCallsV ne (cntRun ne ⟨1, 0, 0, 0⟩ ops))) (by rw [hn0]; rfl) h1
  have hc1 : n1.st.cnt = cntRun ne ⟨1, 0, 0, 0⟩ ops := by rw [sim.cnt, hn0]; rfl
  have hb0 : n0.st.andBatches = 0 := by rw [hn0]; rfl
  -- the digest of the last check
  let last := (sndFlush S (sndRun S n1.io (if n1.st.cnt.polys ≠ 0 then
        polyCallsP ne n1.st.cnt (prvFinPoly ne.e n1.st).2 else []))).1.hashed
  let chal : Nat → List Bool → Nat → F := fun k _ => match (ds ++ [last])[k]? with | some d => ne.seeds d | none => 0
  have hchal : ∀ i d, ds[i]? = some d → ∀ t, chal (n0.st.andBatches + i) t = ne.seeds d := by
    intro i d hd t
    have hi : i < ds.length := by rw [List.getElem?_eq_some_iff] at hd; exact hd.1
    have : (ds ++ [last])[i]? = some d := by rw [List.getElem?_append_left hi]; exact hd
    simp only [chal, hb0, Nat.zero_add, this]
  have hlast : ∀ t, chal n1.st.andBatches t = ne.seeds last := by
    intro t
    have : (ds ++ [last])[ds.length]? = some last := by simp
    simp only [chal, sim.batches, hb0, Nat.zero_add, this]
  have efin := netFinP_eq hg (S := S) n1 (g := []) (by rw [sim.got, hc1, List.append_nil]) chal (fun _ t => hlast t)
  rw [efin] at h2
  cases hq : prvFinalize (ne.wc chal) n1.st with
  | none => rw [hq] at h2; cases h2
  | some q =>
    rw [hq] at h2
    have hn := (Option.some.inj h2).symm
    subst hn
    have hcalls : n1.calls ++ finCallsP ne n1.st.cnt q.2 = ne.extP 0 1 ++ (l ++ finCallsP ne n1.st.cnt q.2) := by
      rw [sim.calls, hn0]
      simp only [List.nil_append, List.append_assoc]
    have hio : sndRun S n1.io (finCallsP ne n1.st.cnt q.2) =
        sndRun S ⟨[], [], [], []⟩ (ne.extP 0 1 ++ (l ++ finCallsP ne n1.st.cnt q.2)) := by
      rw [sim.io, hn0]
      simp only [sndRun_append]
    refine ⟨ms, q.2, chal, rfl, ?_, ?_, ?_, ?_⟩
    · simp only [hcalls, hio]
    · simp only [hcalls]
      refine List.rel_append (hg.ext 0 1) (List.rel_append ?_ ?_)
      · have := sim.mirror
        rw [hn0] at this
        exact this
      · rw [hc1]; exact finCalls_mirror hg _ _
    · have hp := sim.prv chal hchal
      have : n0.st = PrvSt.init := by rw [hn0]
      rw [this] at hp
      simp only [prvSession, Option.bind_eq_bind, hp, Option.bind_some, hq]
    · -- the verifier
      simp only [hcalls, hio]
      have hdig := sndRun_new S ⟨[], [], [], []⟩ (ne.extP 0 1 ++ (l ++ finCallsP ne n1.st.cnt q.2))
      rw [hdig]
      simp only [netSessionV, verSession, Option.bind_eq_bind]
      have hF : Feed S ⟨[], [], [], []⟩ (ne.extP 0 1 ++ (l ++ finCallsP ne n1.st.cnt q.2))
          (⟨VerSt.init, sentBits (ne.extP 0 1 ++ (l ++ finCallsP ne n1.st.cnt q.2)),
            sentData (ne.extP 0 1 ++ (l ++ finCallsP ne n1.st.cnt q.2)),
            newDigs S ⟨[], [], [], []⟩ (ne.extP 0 1 ++ (l ++ finCallsP ne n1.st.cnt q.2)), []⟩ : VerNet F) [] [] [] :=
        ⟨(List.append_nil _).symm, (List.append_nil _).symm, (List.append_nil _).symm⟩
      simp only [List.nil_append]
      rw [rcotV_eq hg _ _ _ hF.append]
      simp only [Option.bind_some, List.nil_append]
      have hio0 : n0.io = sndRun S ⟨[], [], [], []⟩ (ne.extP 0 1) := by rw [hn0]
      have hv := sim.ver chal hchal ⟨VerSt.init, sentBits (l ++ finCallsP ne n1.st.cnt q.2) ++ [],
        sentData (l ++ finCallsP ne n1.st.cnt q.2) ++ [],
        newDigs S (sndRun S ⟨[], [], [], []⟩ (ne.extP 0 1)) (l ++ finCallsP ne n1.st.cnt q.2) ++ [], ne.extV 0 1⟩ _ _ _
        (by rw [hn0]; rfl) (by rw [hn0]; rfl) (Feed.append ⟨rfl, rfl, by rw [hio0]⟩)
      obtain ⟨t1, t2⟩ := hv
      rw [t1]
      cases hvr : verRun (ne.wc chal) VerSt.init ops ms with
      | none => rfl
      | some s =>
        obtain ⟨u1, u2⟩ := t2 s hvr
        simp only [Option.map_some, Option.bind_some]
        have hpa : q.2.polyAns = (prvFinPoly ne.e n1.st).2 := by
          simp only [prvFinalize, Option.bind_eq_bind, Option.bind_eq_some_iff] at hq
          obtain ⟨r, hr, hq⟩ := hq
          have := (Option.some.inj hq).symm
          subst this; rfl
        have hfin := netFinV_eq hg (S := S) (io := n1.io) ⟨s, sentBits (finCallsP ne n1.st.cnt q.2) ++ [],
          sentData (finCallsP ne n1.st.cnt q.2) ++ [], newDigs S n1.io (finCallsP ne n1.st.cnt q.2) ++ [],
          ne.extV 0 1 ++ runCallsV ne ⟨1, 0, 0, 0⟩ ops⟩ q.2 (B := []) (D := []) (H := [])
          (by rw [u1]; exact ⟨rfl, rfl, rfl⟩) chal (by
            intro hf t
            simp only [u1, u2, hpa]
            exact hlast t)
        rw [sim.io] at hfin
        rw [show (VerSt.init : VerSt F).cnt = ⟨1, 0, 0, 0⟩ from rfl]
        rw [hfin]
        congr 1
        funext s'
        simp only [sessionCallsV, u1, hc1, List.append_assoc]

/-- The prover on the network completes when the prover of the message-level model does, whatever the challenges. -/
theorem net_run_some (hg : ne.Good) {S : Nat} (ops : List BOp) : ∀ {n : PrvNet F} {g : List (List Byte)},
    n.got = sentBack (runCallsV ne n.st.cnt ops) ++ g →
    (∀ chal, (prvRun (ne.wc chal) n.st ops).isSome) → (netRunP ne S n ops).isSome := by
  induction ops with
  | nil => intro n g _ _; rfl
  | cons o os ih =>
    intro n g h hs
    have hgot : n.got = sentBack (callsV ne n.st.cnt o) ++
        (sentBack (runCallsV ne (cntStep ne n.st.cnt o) os) ++ g) := by
      rw [h, runCallsV, sentBack_append, List.append_assoc]
    have e := netStepP_eq hg (S := S) n o hgot (fun _ _ => ne.seeds (sndFlush S n.io).1.hashed) (fun _ _ => rfl)
    cases h1 : netStepP ne S n o with
    | none =>
      rw [h1] at e
      have := hs (fun _ _ => ne.seeds (sndFlush S n.io).1.hashed)
      cases hq : prvStep (ne.wc (fun _ _ => ne.seeds (sndFlush S n.io).1.hashed)) n.st o with
      | none => simp [prvRun, hq] at this
      | some q => rw [hq] at e; cases e
    | some n1 =>
      obtain ⟨m, k1, k2, k3, k4, k5, k6⟩ := netStepP_some hg hgot h1
      rw [← k4] at k1
      simp only [netRunP, Option.bind_eq_bind, h1, Option.bind_some]
      refine ih k1 ?_
      intro chal
      have hx := hs (fun i t => if i = n.st.andBatches ∧ dueA ne n.st.cnt o = true then
        ne.seeds (sndFlush S n.io).1.hashed else chal i t)
      have hst := k6 (fun i t => if i = n.st.andBatches ∧ dueA ne n.st.cnt o = true then
        ne.seeds (sndFlush S n.io).1.hashed else chal i t) (by
          intro d hd t
          unfold dueDig at hd
          split at hd
          · next hdue =>
            simp only [List.getElem?_cons_zero, Option.some.injEq] at hd
            simp only [true_and, hdue, if_true, hd]
          · simp at hd)
      simp only [prvRun, Option.bind_eq_bind, hst, Option.bind_some] at hx
      rw [prvRun_chal (chal' := chal)] at hx
      · cases hq : prvRun (ne.wc chal) n1.st os with
        | none => rw [hq] at hx; cases hx
        | some _ => rfl
      · intro i hi t
        by_cases hdue : dueA ne n.st.cnt o = true
        · have : ¬ i = n.st.andBatches := by
            rw [k5, dueDig, if_pos hdue, List.length_singleton] at hi; omega
          simp only [this, false_and, if_false]
        · simp only [hdue, and_false, Bool.false_eq_true, if_false]

theorem net_session_some (hg : ne.Good) {S : Nat} (ops : List BOp)
    (h : ∀ chal, (prvSession (ne.wc chal) ops).isSome) :
    (netSessionP ne S ops (sentBack (sessionCallsV ne ops))).isSome := by
  have e0 := rcotP_eq hg (S := S) (⟨PrvSt.init, ⟨[], [], [], []⟩, [], sentBack (sessionCallsV ne ops)⟩ : PrvNet F) 0 1
    (g := sentBack (runCallsV ne ⟨1, 0, 0, 0⟩ ops) ++ sentBack (finCallsV ne (cntRun ne ⟨1, 0, 0, 0⟩ ops))) (by
      simp only [sessionCallsV, sentBack_append])
  simp only [netSessionP, Option.bind_eq_bind]
  rw [e0, Option.bind_some]
  have hr := net_run_some hg (S := S) ops (n := ⟨PrvSt.init, sndRun S ⟨[], [], [], []⟩ (ne.extP 0 1), [] ++ ne.extP 0 1,
    sentBack (runCallsV ne ⟨1, 0, 0, 0⟩ ops) ++ sentBack (finCallsV ne (cntRun ne ⟨1, 0, 0, 0⟩ ops))⟩) rfl (by
      intro chal
      have := h chal
      simp only [prvSession, Option.bind_eq_bind] at this
      cases hq : prvRun (ne.wc chal) PrvSt.init ops with
      | none => rw [hq] at this; cases this
      | some _ => rfl)
  cases hn : netRunP ne S (⟨PrvSt.init, sndRun S ⟨[], [], [], []⟩ (ne.extP 0 1), [] ++ ne.extP 0 1,
    sentBack (runCallsV ne ⟨1, 0, 0, 0⟩ ops) ++ sentBack (finCallsV ne (cntRun ne ⟨1, 0, 0, 0⟩ ops))⟩ : PrvNet F) ops with
  | none => rw [hn] at hr; cases hr
  | some n1 =>
    obtain ⟨ms, l, ds, sim⟩ := net_run hg (S := S) ops (g := sentBack (finCallsV ne (cntRun ne ⟨1, 0, 0, 0⟩ ops))) rfl hn
    rw [Option.bind_some]
    let last := (sndFlush S (sndRun S n1.io (if n1.st.cnt.polys ≠ 0 then
        polyCallsP ne n1.st.cnt (prvFinPoly ne.e n1.st).2 else []))).1.hashed
    let chal : Nat → List Bool → Nat → F := fun k _ => match (ds ++ [last])[k]? with | some d => ne.seeds d | none => 0
    have hchal : ∀ i d, ds[i]? = some d → ∀ t, chal (0 + i) t = ne.seeds d := by
      intro i d hd t
      have hi : i < ds.length := by rw [List.getElem?_eq_some_iff] at hd; exact hd.1
      have : (ds ++ [last])[i]? = some d := by rw [List.getElem?_append_left hi]; exact hd
      simp only [chal, Nat.zero_add, this]
    have hb : n1.st.andBatches = 0 + ds.length := sim.batches
    have hlast : ∀ t, chal n1.st.andBatches t = ne.seeds last := by
      intro t
      have : (ds ++ [last])[ds.length]? = some last := by simp
      simp only [chal, hb, Nat.zero_add, this]
    have hcn : n1.st.cnt = cntRun ne ⟨1, 0, 0, 0⟩ ops := sim.cnt
    have efin := netFinP_eq hg (S := S) n1 (g := []) (by rw [sim.got, hcn, List.append_nil]) chal (fun _ t => hlast t)
    rw [efin]
    have hp := sim.prv chal hchal
    have := h chal
    simp only [prvSession, Option.bind_eq_bind] at this
    have hp' : prvRun (ne.wc chal) PrvSt.init ops = some (n1.st, ms) := hp
    rw [hp', Option.bind_some] at this
    cases hq : prvFinalize (ne.wc chal) n1.st with
    | none => rw [hq] at this; cases this
    | some q => rfl

end
end EmpZk
