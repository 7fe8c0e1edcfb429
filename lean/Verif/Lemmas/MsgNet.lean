/-
Helper lemmas: the calls by which a prover sends given messages, and what the verifier on the network makes of them.
-/
import Verif.Lemmas.BoolNetSession
import Verif.Lemmas.NetMsgs

namespace EmpZk

section
variable {F : Type} [Field F] [BlockField F] {ne : NetEnv F}

/-- Calls of a prover which sends the given messages. -/
def runCallsP (ne : NetEnv F) : NetCnt → List BOp → List (BMsg F) → List SOp
  | c, o :: os, m :: ms => callsP ne c m o ++ runCallsP ne (cntStep ne c o) os ms
  | _, _, _ => []

/-- The digests behind the challenges of the checks on the way. -/
def runDigs (ne : NetEnv F) (S : Nat) : SndSt → NetCnt → List BOp → List (BMsg F) → List (List Byte)
  | io, c, o :: os, m :: ms => (if dueA ne c o then [(sndFlush S io).1.hashed] else []) ++
      runDigs ne S (sndRun S io (callsP ne c m o)) (cntStep ne c o) os ms
  | _, _, _, _ => []

/-- All calls of a prover which sends the given messages. -/
def msgCallsP (ne : NetEnv F) (ops : List BOp) (ms : List (BMsg F)) (fin : BFin F) : List SOp :=
  ne.extP 0 1 ++ (runCallsP ne ⟨1, 0, 0, 0⟩ ops ms ++ finCallsP ne (cntRun ne ⟨1, 0, 0, 0⟩ ops) fin)

theorem runCallsP_append (ops ops' : List BOp) : ∀ (c : NetCnt) (ms ms' : List (BMsg F)), ms.length = ops.length →
    runCallsP ne c (ops ++ ops') (ms ++ ms') = runCallsP ne c ops ms ++ runCallsP ne (cntRun ne c ops) ops' ms' := by
  induction ops with
  | nil =>
    intro c ms ms' h
    cases ms with
    | nil => rfl
    | cons => simp at h
  | cons o os ih =>
    intro c ms ms' h
    cases ms with
    | nil => simp at h
    | cons m ms =>
      simp only [List.cons_append, runCallsP, ih _ ms ms' (by simpa using h), List.append_assoc]
      rfl

theorem runDigs_append (S : Nat) (ops ops' : List BOp) : ∀ (io : SndSt) (c : NetCnt) (ms ms' : List (BMsg F)),
    ms.length = ops.length →
    runDigs ne S io c (ops ++ ops') (ms ++ ms') = runDigs ne S io c ops ms ++
      runDigs ne S (sndRun S io (runCallsP ne c ops ms)) (cntRun ne c ops) ops' ms' := by
  induction ops with
  | nil =>
    intro io c ms ms' h
    cases ms with
    | nil => rfl
    | cons => simp at h
  | cons o os ih =>
    intro io c ms ms' h
    cases ms with
    | nil => simp at h
    | cons m ms =>
      simp only [List.cons_append, runDigs, runCallsP, ih _ _ ms ms' (by simpa using h), List.append_assoc, sndRun_append]
      rfl

theorem cntRun_append (c : NetCnt) (ops ops' : List BOp) : cntRun ne c (ops ++ ops') = cntRun ne (cntRun ne c ops) ops' := by
  simp only [cntRun, List.foldl_append]

theorem runCalls_mirror (hg : ne.Good) (ops : List BOp) : ∀ (c : NetCnt) (ms : List (BMsg F)), ms.length = ops.length →
    List.Forall₂ Mirror (runCallsP ne c ops ms) (runCallsV ne c ops) := by
  induction ops with
  | nil =>
    intro c ms h
    cases ms with
    | nil => exact .nil
    | cons => simp at h
  | cons o os ih =>
    intro c ms h
    cases ms with
    | nil => simp at h
    | cons m ms => exact List.rel_append (calls_mirror hg _ m o) (ih _ ms (by simpa using h))

theorem msgCalls_mirror (hg : ne.Good) (ops : List BOp) (ms : List (BMsg F)) (fin : BFin F) (h : ms.length = ops.length) :
    List.Forall₂ Mirror (msgCallsP ne ops ms fin) (sessionCallsV ne ops) :=
  List.rel_append (hg.ext 0 1) (List.rel_append (runCalls_mirror hg ops _ ms h) (finCalls_mirror hg _ _))

variable [DecidableEq F]

theorem msg_run (hg : ne.Good) {S : Nat} (ops : List BOp) : ∀ (ms : List (BMsg F)) (io : SndSt) (v : VerNet F) (B : List Bool)
    (D H : List (List Byte)) (chal : Nat → List Bool → Nat → F), ms.length = ops.length →
    (∀ i d, (runDigs ne S io v.st.cnt ops ms)[i]? = some d → ∀ t, chal (v.st.andBatches + i) t = ne.seeds d) →
    Feed S io (runCallsP ne v.st.cnt ops ms) v B D H →
    netRunV ne v ops = (verRun (ne.wc chal) v.st ops ms).map (fun s => ⟨s, B, D, H, v.calls ++ runCallsV ne v.st.cnt ops⟩) ∧
    ∀ s, verRun (ne.wc chal) v.st ops ms = some s → s.cnt = cntRun ne v.st.cnt ops ∧
      s.andBatches = v.st.andBatches + (runDigs ne S io v.st.cnt ops ms).length := by
  induction ops with
  | nil =>
    intro ms io v B D H chal hl _ hf
    cases ms with
    | cons => simp at hl
    | nil =>
      obtain ⟨h1, h2, h3⟩ := Feed_nil hf
      subst h1; subst h2; subst h3
      refine ⟨by simp [netRunV, verRun, runCallsV], ?_⟩
      intro s hs
      have := (Option.some.inj hs).symm
      subst this
      exact ⟨rfl, rfl⟩
  | cons o os ih =>
    intro ms io v B D H chal hl hc hf
    cases ms with
    | nil => simp at hl
    | cons m ms =>
      have hA := Feed.append (l := callsP ne v.st.cnt m o) (l' := runCallsP ne (cntStep ne v.st.cnt o) os ms) hf
      have hdue : dueA ne v.st.cnt o = true → ∀ t, chal v.st.andBatches t = ne.seeds (sndFlush S io).1.hashed := by
        intro hd t
        exact hc 0 _ (by simp [runDigs, hd]) t
      have hstep := netStepV_eq hg v m o hA chal hdue
      simp only [netRunV, verRun, Option.bind_eq_bind]
      rw [hstep]
      cases hvs : verStep (ne.wc chal) v.st m o with
      | none => exact ⟨rfl, by intro s hs; cases hs⟩
      | some s1 =>
        obtain ⟨j1, j2⟩ := verStep_cnt hvs
        simp only [Option.map_some, Option.bind_some]
        have hc2 : ∀ i d, (runDigs ne S (sndRun S io (callsP ne v.st.cnt m o)) s1.cnt os ms)[i]? = some d →
            ∀ t, chal (s1.andBatches + i) t = ne.seeds d := by
          intro i d hd t
          rw [j1] at hd
          rw [j2, Nat.add_assoc]
          refine hc _ d ?_ t
          simp only [runDigs]
          rw [List.getElem?_append_right (by split <;> simp)]
          rw [← hd]
          congr 1
          split <;> simp
        obtain ⟨t1, t2⟩ := ih ms (sndRun S io (callsP ne v.st.cnt m o)) ⟨s1, _, _, _, v.calls ++ callsV ne v.st.cnt o⟩ B D H chal
          (by simpa using hl) hc2 (by rw [j1]; exact ⟨rfl, rfl, rfl⟩)
        rw [j1] at t1 t2
        rw [t1]
        refine ⟨?_, ?_⟩
        · congr 1
          funext s
          simp only [runCallsV, List.append_assoc]
        · intro s hs
          obtain ⟨u1, u2⟩ := t2 s hs
          refine ⟨u1, ?_⟩
          rw [u2, j2, runDigs, List.length_append]
          split <;> simp [Nat.add_assoc]

/-- The verifier on the network when a prover sends given messages, of a program without polynomial statements. -/
theorem msg_session (hg : ne.Good) {S : Nat} (ops : List BOp) (ms : List (BMsg F)) (fin : BFin F) (hl : ms.length = ops.length)
    (hp : (cntRun ne ⟨1, 0, 0, 0⟩ ops).polys = 0) (chal : Nat → List Bool → Nat → F)
    (hc : ∀ i d, (runDigs ne S (sndRun S ⟨[], [], [], []⟩ (ne.extP 0 1)) ⟨1, 0, 0, 0⟩ ops ms ++
      [(sndFlush S (sndRun S (sndRun S ⟨[], [], [], []⟩ (ne.extP 0 1)) (runCallsP ne ⟨1, 0, 0, 0⟩ ops ms))).1.hashed])[i]? = some d →
      ∀ t, chal i t = ne.seeds d) :
    netSessionV ne ops (sentBits (msgCallsP ne ops ms fin)) (sentData (msgCallsP ne ops ms fin))
        (sndRun S ⟨[], [], [], []⟩ (msgCallsP ne ops ms fin)).digests =
      (verSession (ne.wc chal) ops ms fin).map (fun s => ⟨s, [], [], [], sessionCallsV ne ops⟩) := by
  rw [sndRun_new]
  simp only [netSessionV, verSession, Option.bind_eq_bind, List.nil_append]
  have hF : Feed S ⟨[], [], [], []⟩ (msgCallsP ne ops ms fin)
      (⟨VerSt.init, sentBits (msgCallsP ne ops ms fin), sentData (msgCallsP ne ops ms fin),
        newDigs S ⟨[], [], [], []⟩ (msgCallsP ne ops ms fin), []⟩ : VerNet F) [] [] [] :=
    ⟨(List.append_nil _).symm, (List.append_nil _).symm, (List.append_nil _).symm⟩
  rw [rcotV_eq hg _ _ _ (Feed.append (l := ne.extP 0 1) hF)]
  simp only [Option.bind_some, List.nil_append]
  obtain ⟨t1, t2⟩ := msg_run hg (S := S) ops ms (sndRun S ⟨[], [], [], []⟩ (ne.extP 0 1)) ⟨VerSt.init, _, _, _, ne.extV 0 1⟩ _ _ _ chal hl
    (by
      intro i d hd t
      rw [show (VerSt.init : VerSt F).andBatches + i = i from Nat.zero_add i]
      refine hc i d ?_ t
      have hi : i < (runDigs ne S (sndRun S ⟨[], [], [], []⟩ (ne.extP 0 1)) ⟨1, 0, 0, 0⟩ ops ms).length := by
        rw [List.getElem?_eq_some_iff] at hd; exact hd.1
      rw [List.getElem?_append_left hi]; exact hd)
    (Feed.append (l := runCallsP ne ⟨1, 0, 0, 0⟩ ops ms) (l' := finCallsP ne (cntRun ne ⟨1, 0, 0, 0⟩ ops) fin)
      (B := []) (D := []) (H := []) ⟨rfl, rfl, rfl⟩)
  rw [t1]
  cases hvr : verRun (ne.wc chal) VerSt.init ops ms with
  | none => rfl
  | some s =>
    obtain ⟨u1, u2⟩ := t2 s hvr
    have u1' : s.cnt = cntRun ne ⟨1, 0, 0, 0⟩ ops := u1
    simp only [Option.map_some, Option.bind_some]
    have hfin := netFinV_eq hg (S := S) (io := sndRun S (sndRun S ⟨[], [], [], []⟩ (ne.extP 0 1)) (runCallsP ne ⟨1, 0, 0, 0⟩ ops ms))
      ⟨s, _, _, _, ne.extV 0 1 ++ runCallsV ne ⟨1, 0, 0, 0⟩ ops⟩ fin (B := []) (D := []) (H := [])
      (by rw [u1']; exact ⟨rfl, rfl, rfl⟩) chal (by
        intro hf t
        rw [u1', hp, if_neg (by simp)]
        have hb : s.andBatches = (runDigs ne S (sndRun S ⟨[], [], [], []⟩ (ne.extP 0 1)) ⟨1, 0, 0, 0⟩ ops ms).length := by
          rw [u2]; exact Nat.zero_add _
        rw [hb]
        exact hc _ _ (by simp [sndRun]) t)
    rw [show (VerSt.init : VerSt F).cnt = ⟨1, 0, 0, 0⟩ from rfl]
    rw [hfin]
    congr 1
    funext s'
    simp only [sessionCallsV, u1', List.append_assoc]

end
end EmpZk
