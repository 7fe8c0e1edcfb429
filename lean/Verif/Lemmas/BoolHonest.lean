/-
The honest prover, and the cheat record.
-/
import Verif.Lemmas.BoolSession

namespace EmpZk

section
variable {F : Type} [Field F] [BlockField F]

/-! ### cheat record -/
section cheats
variable [DecidableEq F]

/-- The verifier's equation holds for a recorded AND check. -/
def AndOK (e : BEnv F) (r : AndRec F) : Prop :=
  andCheckVer e.delta r.gates e.threads r.seeds (fun i => e.key (r.ope + i)) r.ans = some true

/-- The verifier's equation holds for a recorded polynomial check. -/
def PolyOK (e : BEnv F) (r : PolyRec F) : Prop :=
  polyCheckVer e.delta r.polys r.seed (fun i => e.key (r.ope + i)) r.ans = true

/-- The cheat record is empty exactly when all equations hold. -/
def CheatInv (e : BEnv F) (s : VerSt F) : Prop :=
  s.cheats = [] ↔ (∀ r ∈ s.andLog, AndOK e r) ∧ (∀ r ∈ s.polyLog, PolyOK e r)

theorem CheatInv.init (e : BEnv F) : CheatInv e VerSt.init := by
  simp [CheatInv, VerSt.init]

theorem CheatInv.congr {e : BEnv F} {s s' : VerSt F} (h : CheatInv e s) (h1 : s'.cheats = s.cheats)
    (h2 : s'.andLog = s.andLog) (h3 : s'.polyLog = s.polyLog) : CheatInv e s' := by
  unfold CheatInv at *
  rw [h1, h2, h3]
  exact h

theorem CheatInv.andCheck {e : BEnv F} {s s' : VerSt F} (h : CheatInv e s) {ans : F × F}
    (hs : verAndCheck e s ans = some s') : CheatInv e s' := by
  unfold verAndCheck at hs
  cases hc : andCheckVer e.delta s.gates e.threads (e.chal s.andBatches s.transcript)
      (fun i => e.key (s.used + i)) ans with
  | none => rw [hc] at hs; simp at hs
  | some ok =>
    rw [hc] at hs
    simp only [Option.some.injEq] at hs
    subst hs
    have key : AndOK e ⟨s.gates, e.chal s.andBatches s.transcript, s.used, ans⟩ ↔ ok = true := by
      simp only [AndOK, hc, Option.some.injEq]
    unfold CheatInv at *
    simp only [List.forall_mem_append, List.forall_mem_singleton, key]
    cases ok
    · simp
    · simp only [if_true, and_true]; exact h

theorem CheatInv.polyCheck {e : BEnv F} {s : VerSt F} (h : CheatInv e s) (ans : F × F) :
    CheatInv e (verPolyCheck e s ans) := by
  unfold CheatInv verPolyCheck at *
  simp only [List.forall_mem_append, List.forall_mem_singleton, PolyOK]
  cases polyCheckVer e.delta s.polys (e.polySeed s.polyBatches) (fun i => e.key (s.used + i)) ans
  · simp
  · simp only [if_true, and_true]; exact h

theorem CheatInv.step {e : BEnv F} {s s' : VerSt F} (h : CheatInv e s) {m : BMsg F} {op : BOp}
    (hs : verStep e s m op = some s') : CheatInv e s' := by
  cases op with
  | input b =>
    simp only [verStep, Option.some.injEq] at hs
    subst hs
    exact h.congr rfl rfl rfl
  | pub b =>
    simp only [verStep, Option.some.injEq] at hs
    subst hs
    exact h.congr rfl rfl rfl
  | xor i j =>
    simp only [verStep, Option.bind_eq_bind, Option.bind_eq_some_iff, Option.some.injEq] at hs
    obtain ⟨a, _, b, _, rfl⟩ := hs
    exact h.congr rfl rfl rfl
  | not i =>
    simp only [verStep, Option.bind_eq_bind, Option.bind_eq_some_iff, Option.some.injEq] at hs
    obtain ⟨a, _, rfl⟩ := hs
    exact h.congr rfl rfl rfl
  | reveal i =>
    simp only [verStep, Option.bind_eq_bind, Option.bind_eq_some_iff, Option.some.injEq] at hs
    obtain ⟨a, _, rfl⟩ := hs
    exact h.congr rfl rfl rfl
  | and i j =>
    simp only [verStep, Option.bind_eq_bind, Option.bind_eq_some_iff] at hs
    obtain ⟨a, _, b, _, r, hr, hs⟩ := hs
    have hr' : CheatInv e r := by
      unfold verAndRoom at hr
      split at hr
      · exact h.andCheck hr
      · cases hr; exact h
    unfold verAndPush at hs
    split at hs
    · simp only [Option.some.injEq] at hs
      subst hs
      exact hr'.congr rfl rfl rfl
    · simp at hs
  | poly st =>
    simp only [verStep, Option.bind_eq_bind, Option.bind_eq_some_iff] at hs
    obtain ⟨p, _, hs⟩ := hs
    have hr' : CheatInv e (verPolyRoom e s m.ans) := by
      unfold verPolyRoom
      split
      · exact h.polyCheck _
      · exact h
    unfold verPolyPush at hs
    split at hs
    · simp only [Option.some.injEq] at hs
      subst hs
      exact hr'.congr rfl rfl rfl
    · simp at hs

theorem CheatInv.run {e : BEnv F} (ops : List BOp) : ∀ {s s' : VerSt F} {ms : List (BMsg F)}, CheatInv e s →
    verRun e s ops ms = some s' → CheatInv e s' := by
  induction ops with
  | nil =>
    intro s s' ms h hs
    cases ms with
    | nil => simp only [verRun, Option.some.injEq] at hs; subst hs; exact h
    | cons => simp [verRun] at hs
  | cons o os ih =>
    intro s s' ms h hs
    cases ms with
    | nil => simp [verRun] at hs
    | cons m ms =>
      simp only [verRun, Option.bind_eq_bind, Option.bind_eq_some_iff] at hs
      obtain ⟨t, ht, hs⟩ := hs
      exact ih (h.step ht) hs

/-- At the end of a session the record is empty exactly when all check equations hold and the digest is the hash of
the verifier's own list of opened blocks. -/
theorem cheats_session {e : BEnv F} {ops : List BOp} {ms : List (BMsg F)} {fin : BFin F} {s : VerSt F}
    (hs : verSession e ops ms fin = some s) :
    s.cheats = [] ↔ (∀ r ∈ s.andLog, AndOK e r) ∧ (∀ r ∈ s.polyLog, PolyOK e r) ∧ fin.digest = e.hash s.digest := by
  simp only [verSession, verFinalize, Option.bind_eq_bind, Option.bind_eq_some_iff, Option.some.injEq] at hs
  obtain ⟨s1, h1, s2, h2, rfl⟩ := hs
  have i1 := CheatInv.run ops (CheatInv.init e) h1
  have i1' : CheatInv e (verFinPoly e s1 fin.polyAns) := by
    unfold verFinPoly
    split
    · exact i1.polyCheck _
    · exact i1
  have i2 : CheatInv e s2 := by
    unfold verFinAnd at h2
    split at h2
    · exact i1'.andCheck h2
    · cases h2; exact i1'
  unfold CheatInv at i2
  unfold verFinHash
  split
  · rename_i hd
    rw [i2]
    simp [hd]
  · rename_i hd
    simp [hd]
end cheats

/-! ### honest prover -/

/-- The honest prover's state determined by a committed state. -/
def prvOf (c : ComSt F) : PrvSt F where
  wires := c.wires
  used := c.used
  gates := c.gates
  polys := c.polys.map stmtPrv
  transcript := c.transcript
  digest := c.opened.map Prod.fst
  outs := c.opened.map Prod.snd
  andBatches := c.andBatches
  polyBatches := c.polyBatches

/-- All statements of a committed state, in order. -/
def ComSt.stmts (c : ComSt F) : List (PolyStmt F) := c.polyLog.flatMap ComPoly.polys ++ c.polys

/-- All AND gates of a committed state, in order. -/
def ComSt.allGates (c : ComSt F) : List (Gate F) := c.andLog.flatMap ComAnd.gates ++ c.gates

/-- The plain values behind a committed state. -/
def ComSt.plain (c : ComSt F) : Plain :=
  ⟨c.wires.map lsb, c.opened.map Prod.snd, c.stmts.map (fun s => (s.map lsb).eval)⟩

/-- What holds of committed states produced by the honest prover. -/
structure Hon (v : BView F) (c : ComSt F) : Prop where
  opened : ∀ o ∈ c.opened, o.2 = lsb o.1
  gates : ∀ g ∈ c.allGates, g.Correct
  andLog : ∀ r ∈ c.andLog, andCheckPrv r.gates v.threads r.seeds (fun i => v.mac (r.ope + i)) = some r.ans
  polyLog : ∀ r ∈ c.polyLog, r.ans = polyCheckPrv (r.polys.map stmtPrv) r.seed (fun i => v.mac (r.ope + i))

theorem Hon.init (v : BView F) : Hon v ComSt.init := by
  constructor <;> simp [ComSt.init, ComSt.allGates]

theorem prvAndCheck_com (v : BView F) (delta : F) {c : ComSt F} {q : PrvSt F × (F × F)}
    (h : prvAndCheck (v.env delta) (prvOf c) = some q) (hon : Hon v c) :
    (splitTasks c.gates.length v.threads).isSome ∧ q.1 = prvOf (comAndCheck v c q.2) ∧
      Hon v (comAndCheck v c q.2) ∧ (comAndCheck v c q.2).plain = c.plain := by
  have hm : (fun i => (v.env delta).mac (c.used + i)) = fun i => v.mac (c.used + i) := by
    funext i; exact v.env_mac delta _
  unfold prvAndCheck at h
  simp only [prvOf, hm] at h
  cases ha : andCheckPrv c.gates (v.env delta).threads ((v.env delta).chal c.andBatches c.transcript)
      (fun i => v.mac (c.used + i)) with
  | none => rw [ha] at h; simp at h
  | some ans =>
    rw [ha] at h
    simp only [Option.some.injEq] at h
    subst h
    refine ⟨?_, rfl, ?_, rfl⟩
    · unfold andCheckPrv at ha
      have e1 : (v.env delta).threads = v.threads := rfl
      rw [e1] at ha
      cases hsp : splitTasks c.gates.length v.threads with
      | none => rw [hsp] at ha; simp at ha
      | some t => rfl
    · constructor
      · exact hon.opened
      · intro g hg
        apply hon.gates g
        simpa [ComSt.allGates, comAndCheck] using hg
      · intro r hr
        simp only [comAndCheck, List.mem_append, List.mem_singleton] at hr
        rcases hr with hr | rfl
        · exact hon.andLog r hr
        · exact ha
      · exact hon.polyLog

theorem prvPolyCheck_com (v : BView F) (delta : F) (c : ComSt F) (hon : Hon v c) :
    (prvPolyCheck (v.env delta) (prvOf c)).1 = prvOf (comPolyCheck v c (prvPolyCheck (v.env delta) (prvOf c)).2) ∧
      Hon v (comPolyCheck v c (prvPolyCheck (v.env delta) (prvOf c)).2) ∧
      (comPolyCheck v c (prvPolyCheck (v.env delta) (prvOf c)).2).plain = c.plain := by
  have hm : (fun i => (v.env delta).mac (c.used + i)) = fun i => v.mac (c.used + i) := by
    funext i; exact v.env_mac delta _
  refine ⟨rfl, ?_, ?_⟩
  · constructor
    · exact hon.opened
    · exact hon.gates
    · exact hon.andLog
    · intro r hr
      simp only [comPolyCheck, List.mem_append, List.mem_singleton] at hr
      rcases hr with hr | rfl
      · exact hon.polyLog r hr
      · simp only [prvPolyCheck, prvOf, hm]
        rfl
  · simp [ComSt.plain, comPolyCheck, ComSt.stmts]

theorem prvStep_com (v : BView F) (delta : F) {c : ComSt F} {op : BOp} {q : PrvSt F × BMsg F}
    (h : prvStep (v.env delta) (prvOf c) op = some q) (hon : Hon v c) :
    ∃ c', comStep v c q.2 op = some c' ∧ q.1 = prvOf c' ∧ Hon v c' ∧ plainStep c.plain op = some c'.plain := by
  have hmac : ∀ n, (v.env delta).mac n = v.mac n := v.env_mac delta
  cases op with
  | input b =>
    simp only [prvStep, Option.some.injEq, hmac] at h
    subst h
    refine ⟨_, rfl, ?_, ?_, ?_⟩
    · simp only [prvOf, inputPrv_fst]
    · exact ⟨hon.opened, hon.gates, hon.andLog, hon.polyLog⟩
    · simp only [plainStep, ComSt.plain, List.map_append, List.map_cons, List.map_nil, ← inputPrv_fst, prvOf,
        lsb_inputPrv]
      rfl
  | pub b =>
    simp only [prvStep, Option.some.injEq] at h
    subst h
    refine ⟨_, rfl, rfl, ?_, ?_⟩
    · exact ⟨hon.opened, hon.gates, hon.andLog, hon.polyLog⟩
    · simp only [plainStep, ComSt.plain, List.map_append, List.map_cons, List.map_nil, lsb_pubPrv]
      rfl
  | xor i j =>
    simp only [prvStep, Option.bind_eq_bind, Option.bind_eq_some_iff, Option.some.injEq] at h
    obtain ⟨a, ha, b, hb, rfl⟩ := h
    have ha' : c.wires[i]? = some a := ha
    have hb' : c.wires[j]? = some b := hb
    refine ⟨_, by simp only [comStep, ha', hb', Option.bind_eq_bind, Option.bind_some]; rfl, rfl, ?_, ?_⟩
    · exact ⟨hon.opened, hon.gates, hon.andLog, hon.polyLog⟩
    · simp only [plainStep, ComSt.plain, List.map_append, List.map_cons, List.map_nil, List.getElem?_map, ha', hb',
        Option.map_some, Option.bind_eq_bind, Option.bind_some, lsb_add]
      rfl
  | not i =>
    simp only [prvStep, Option.bind_eq_bind, Option.bind_eq_some_iff, Option.some.injEq] at h
    obtain ⟨a, ha, rfl⟩ := h
    have ha' : c.wires[i]? = some a := ha
    refine ⟨_, by simp only [comStep, ha', Option.bind_eq_bind, Option.bind_some]; rfl, rfl, ?_, ?_⟩
    · exact ⟨hon.opened, hon.gates, hon.andLog, hon.polyLog⟩
    · simp only [plainStep, ComSt.plain, List.map_append, List.map_cons, List.map_nil, List.getElem?_map, ha',
        Option.map_some, Option.bind_eq_bind, Option.bind_some, lsb_add, lsb_one, Bool.xor_true]
      rfl
  | reveal i =>
    simp only [prvStep, Option.bind_eq_bind, Option.bind_eq_some_iff, Option.some.injEq] at h
    obtain ⟨a, ha, rfl⟩ := h
    have ha' : c.wires[i]? = some a := ha
    refine ⟨_, by simp only [comStep, ha', Option.bind_eq_bind, Option.bind_some]; rfl, ?_, ?_, ?_⟩
    · simp [prvOf]
    · refine ⟨?_, hon.gates, hon.andLog, hon.polyLog⟩
      intro o ho
      simp only [List.mem_append, List.mem_singleton] at ho
      rcases ho with ho | rfl
      · exact hon.opened o ho
      · rfl
    · simp only [plainStep, ComSt.plain, List.map_append, List.map_cons, List.map_nil, List.getElem?_map, ha',
        Option.map_some, Option.bind_eq_bind, Option.bind_some]
      rfl
  | and i j =>
    simp only [prvStep, Option.bind_eq_bind, Option.bind_eq_some_iff, Option.some.injEq] at h
    obtain ⟨a, ha, b, hb, r, hr, q', hq, rfl⟩ := h
    have ha' : c.wires[i]? = some a := ha
    have hb' : c.wires[j]? = some b := hb
    have hroom : ∃ c1, comAndRoom v c r.2 = some c1 ∧ r.1 = prvOf c1 ∧ Hon v c1 ∧ c1.plain = c.plain := by
      unfold prvAndRoom at hr
      unfold comAndRoom
      have e1 : (v.env delta).checkSz = v.checkSz := rfl
      have e2 : (prvOf c).gates.length = c.gates.length := rfl
      rw [e1, e2] at hr
      split at hr
      · rename_i hfull
        obtain ⟨k1, k2, k3, k4⟩ := prvAndCheck_com v delta hr hon
        exact ⟨_, by rw [if_pos hfull, if_pos k1], k2, k3, k4⟩
      · rename_i hfull
        simp only [Option.some.injEq] at hr
        subst hr
        exact ⟨c, by rw [if_neg hfull], rfl, hon, rfl⟩
    obtain ⟨c1, k1, k2, k3, k4⟩ := hroom
    unfold prvAndPush at hq
    have e1 : (v.env delta).checkSz = v.checkSz := rfl
    rw [k2, e1] at hq
    have e2 : (prvOf c1).gates.length = c1.gates.length := rfl
    rw [e2] at hq
    split at hq
    · rename_i hlt
      simp only [Option.some.injEq, hmac] at hq
      subst hq
      refine ⟨_, by
        simp only [comStep, ha', hb', Option.bind_eq_bind, Option.bind_some, k1, comAndPush, if_pos hlt]; rfl,
        ?_, ?_, ?_⟩
      · simp only [prvOf, andPrv_fst]
      · refine ⟨k3.opened, ?_, k3.andLog, k3.polyLog⟩
        intro g hg
        simp only [ComSt.allGates, ← List.append_assoc, List.mem_append, List.mem_singleton] at hg
        rcases hg with hg | rfl
        · exact k3.gates g (by simpa [ComSt.allGates] using hg)
        · show lsb _ = _
          rw [show (prvOf c1).used = c1.used from rfl]
          simp only [← andPrv_fst, lsb_andPrv]
      · rw [← k4]
        have hw : c1.plain.wires = c.plain.wires := by rw [k4]
        have hw' : c1.wires.map lsb = c.wires.map lsb := hw
        simp only [plainStep, ComSt.plain, List.map_append, List.map_cons, List.map_nil, hw', List.getElem?_map,
          ha', hb', Option.map_some, Option.bind_eq_bind, Option.bind_some]
        rw [show (prvOf c1).used = c1.used from rfl, ← andPrv_fst, lsb_andPrv]
        rfl
    · simp at hq
  | poly st =>
    simp only [prvStep, Option.bind_eq_bind, Option.bind_eq_some_iff, Option.some.injEq] at h
    obtain ⟨p, hp, q', hq, rfl⟩ := h
    have hp' : st.lookup c.wires = some p := hp
    have hroom : ∃ c1, comPolyRoom v c (prvPolyRoom (v.env delta) (prvOf c)).2 = c1 ∧
        (prvPolyRoom (v.env delta) (prvOf c)).1 = prvOf c1 ∧ Hon v c1 ∧ c1.plain = c.plain := by
      unfold prvPolyRoom comPolyRoom
      have hpp : ((prvOf c).polys.length ≥ (v.env delta).polySz ∧ (prvOf c).polys ≠ []) ↔
        (c.polys.length ≥ v.polySz ∧ c.polys ≠ []) := by simp [prvOf, BView.env]
      by_cases hf : c.polys.length ≥ v.polySz ∧ c.polys ≠ []
      · rw [if_pos hf, if_pos (hpp.2 hf)]
        obtain ⟨k1, k2, k3⟩ := prvPolyCheck_com v delta c hon
        exact ⟨_, rfl, k1, k2, k3⟩
      · rw [if_neg hf, if_neg (fun h' => hf (hpp.1 h'))]
        exact ⟨_, rfl, rfl, hon, rfl⟩
    obtain ⟨c1, k1, k2, k3, k4⟩ := hroom
    unfold prvPolyPush at hq
    have e1 : (v.env delta).polySz = v.polySz := rfl
    have e2 : (prvOf c1).polys.length = c1.polys.length := by simp [prvOf]
    rw [k2, e1, e2] at hq
    split at hq
    · rename_i hlt
      simp only [Option.some.injEq] at hq
      subst hq
      refine ⟨_, by
        simp only [comStep, hp', Option.bind_eq_bind, Option.bind_some, k1, comPolyPush, if_pos hlt]; rfl,
        ?_, ?_, ?_⟩
      · simp [prvOf]
      · exact ⟨k3.opened, k3.gates, k3.andLog, k3.polyLog⟩
      · rw [← k4]
        have hw : c1.plain.wires = c.plain.wires := by rw [k4]
        have hw' : c1.wires.map lsb = c.wires.map lsb := hw
        simp only [plainStep, ComSt.plain, hw', lookup_map, hp', Option.map_some, Option.bind_eq_bind, Option.bind_some,
          ComSt.stmts, ← List.append_assoc, List.map_append, List.map_cons, List.map_nil]
    · simp at hq

theorem prvRun_com (v : BView F) (delta : F) (ops : List BOp) : ∀ {c : ComSt F} {q : PrvSt F × List (BMsg F)},
    prvRun (v.env delta) (prvOf c) ops = some q → Hon v c →
    ∃ c', comRun v c ops q.2 = some c' ∧ q.1 = prvOf c' ∧ Hon v c' ∧
      ops.foldlM plainStep c.plain = some c'.plain := by
  induction ops with
  | nil =>
    intro c q h hon
    simp only [prvRun, Option.some.injEq] at h
    subst h
    exact ⟨c, rfl, rfl, hon, rfl⟩
  | cons o os ih =>
    intro c q h hon
    simp only [prvRun, Option.bind_eq_bind, Option.bind_eq_some_iff, Option.some.injEq] at h
    obtain ⟨r, hr, t, ht, rfl⟩ := h
    obtain ⟨c1, k1, k2, k3, k4⟩ := prvStep_com v delta hr hon
    rw [k2] at ht
    obtain ⟨c2, l1, l2, l3, l4⟩ := ih ht k3
    refine ⟨c2, ?_, l2, l3, ?_⟩
    · simp only [comRun, k1, Option.bind_eq_bind, Option.bind_some, l1]
    · simp only [List.foldlM_cons, k4, Option.bind_eq_bind, Option.bind_some, l4]

theorem prvSession_com (v : BView F) (delta : F) {ops : List BOp} {q : PrvSt F × List (BMsg F) × BFin F}
    (h : prvSession (v.env delta) ops = some q) :
    ∃ c, comSession v ops q.2.1 q.2.2 = some c ∧ q.1 = prvOf c ∧ Hon v c ∧ plainRun ops = some c.plain ∧
      q.2.2.digest = v.hash (c.opened.map Prod.fst) := by
  simp only [prvSession, Option.bind_eq_bind, Option.bind_eq_some_iff, Option.some.injEq] at h
  obtain ⟨r, hr, t, ht, rfl⟩ := h
  obtain ⟨c1, k1, k2, k3, k4⟩ := prvRun_com v delta ops (c := ComSt.init) hr (Hon.init v)
  simp only [prvFinalize, Option.bind_eq_bind, Option.bind_eq_some_iff, Option.some.injEq] at ht
  obtain ⟨u, hu, rfl⟩ := ht
  rw [k2] at hu
  have hpoly : ∃ c2, comFinPoly v c1 (prvFinPoly (v.env delta) (prvOf c1)).2 = c2 ∧
      (prvFinPoly (v.env delta) (prvOf c1)).1 = prvOf c2 ∧ Hon v c2 ∧ c2.plain = c1.plain := by
    unfold prvFinPoly comFinPoly
    have hpp : (prvOf c1).polys ≠ [] ↔ c1.polys ≠ [] := by simp [prvOf]
    by_cases hf : c1.polys ≠ []
    · rw [if_pos hf, if_pos (hpp.2 hf)]
      obtain ⟨m1, m2, m3⟩ := prvPolyCheck_com v delta c1 k3
      exact ⟨_, rfl, m1, m2, m3⟩
    · rw [if_neg hf, if_neg (fun h' => hf (hpp.1 h'))]
      exact ⟨_, rfl, rfl, k3, rfl⟩
  obtain ⟨c2, l1, l2, l3, l4⟩ := hpoly
  rw [l2] at hu
  have hand : ∃ c3, comFinAnd v c2 u.2 = some c3 ∧ u.1 = prvOf c3 ∧ Hon v c3 ∧ c3.plain = c2.plain := by
    unfold prvFinAnd at hu
    unfold comFinAnd
    have e2 : (prvOf c2).gates = c2.gates := rfl
    rw [e2] at hu
    split at hu
    · rename_i hf
      obtain ⟨m1, m2, m3, m4⟩ := prvAndCheck_com v delta hu l3
      exact ⟨_, by rw [if_pos hf, if_pos m1], m2, m3, m4⟩
    · rename_i hf
      simp only [Option.some.injEq] at hu
      subst hu
      exact ⟨c2, by rw [if_neg hf], rfl, l3, rfl⟩
  obtain ⟨c3, n1, n2, n3, n4⟩ := hand
  refine ⟨c3, ?_, n2, n3, ?_, ?_⟩
  · simp only [comSession, k1, Option.bind_eq_bind, Option.bind_some, comFinalize, k2, l1, n1]
  · rw [n4, l4]
    exact k4
  · simp only [n2]
    rfl

end
end EmpZk
