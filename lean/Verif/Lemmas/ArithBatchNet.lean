/-
Sessions with batched calls over the network.
-/
import Verif.Lemmas.ArithBatch

namespace EmpZk

theorem encWs_length (ws : List W) : (encWs ws).length = 8 * ws.length := by
  induction ws with
  | nil => rfl
  | cons w ws ih =>
    have : encWs (w :: ws) = encW w ++ encWs ws := rfl
    rw [this, List.length_append, ih, encW_length, List.length_cons]
    omega

theorem decWs_encWs (ws : List W) : decWs ws.length (encWs ws) = ws := by
  induction ws with
  | nil => rfl
  | cons w ws ih =>
    have h : encWs (w :: ws) = encW w ++ encWs ws := rfl
    have hl : (encW w).length = 8 := encW_length w
    rw [h, List.length_cons, decWs, List.take_left' hl, List.drop_left' hl, decW_encW, ih]

theorem decWs_length (n : Nat) : ∀ bs, (decWs n bs).length = n := by
  induction n with
  | zero => intro bs; rfl
  | succ n ih => intro bs; simp [decWs, ih]

/-! ### Honest parties -/

theorem co_call (be : ABatchEnv) {P : APrv} {V : AVer} (hs : ASync P V) {r : APrv × ACallMsg} {V' : AVer} {c : ACall}
    (hp : aprvCall be.net.env P c = some r) (hv : averCall be.net.env V r.2 c = some V') :
    Co (aprvCallN be P c) (averCallN be V c) r.1 V' ∧ ASync r.1 V' := by
  cases c with
  | one o =>
    simp only [aprvCall, Option.bind_eq_bind, Option.bind_eq_some_iff, Option.some.injEq] at hp
    obtain ⟨q, hq, rfl⟩ := hp
    exact co_step be.net hs hq hv
  | feed ws =>
    have hr := hp
    simp only [aprvCall, Option.some.injEq] at hp
    have hlen : r.2.ws.length = ws.length := by subst hp; simp [ACallMsg.ws, voleMany_length]
    have hw : r.2 = .words r.2.ws := by subst hp; rfl
    rw [hw] at hv
    have hs' : ASync r.1 V' := by
      simp only [averCall, hlen, if_true, Option.some.injEq] at hv
      subst hp; subst hv
      exact ⟨congrArg (· + ws.length) hs.used, hs.gates, hs.polys, hs.mulB, hs.polyB⟩
    refine ⟨?_, hs'⟩
    simp only [aprvCallN, averCallN]
    rw [hs.used]
    refine Co.bindM (Co.script _) ?_
    refine Co.optL hr ?_
    refine Co.bindM (f := fun _ => pure r.1) (Co.pq _ (by rw [encWs_length, hlen])) ?_
    rw [← hlen, decWs_encWs, hv]
    exact Co.done _ _
  | reveal is =>
    have hr := hp
    simp only [aprvCall, Option.bind_eq_bind, Option.bind_eq_some_iff, Option.some.injEq] at hp
    obtain ⟨ls, hls, hp⟩ := hp
    have hlen : r.2.ws.length = is.length := by subst hp; simp [ACallMsg.ws, mapM_opt_length hls]
    have hw : r.2 = .words r.2.ws := by subst hp; rfl
    rw [hw] at hv
    have hs' : ASync r.1 V' := by
      simp only [averCall, hlen, if_true, Option.bind_eq_bind, Option.bind_eq_some_iff, Option.some.injEq] at hv
      obtain ⟨_, _, rfl⟩ := hv
      subst hp
      exact ⟨hs.used, hs.gates, hs.polys, hs.mulB, hs.polyB⟩
    refine ⟨?_, hs'⟩
    simp only [aprvCallN, averCallN]
    refine Co.optL hr ?_
    refine Co.bindM (f := fun _ => pure r.1) (Co.pq _ (by rw [encWs_length, hlen])) ?_
    rw [← hlen, decWs_encWs, hv]
    exact Co.done _ _
  | check is =>
    have hr := hp
    simp only [aprvCall, Option.bind_eq_bind, Option.bind_eq_some_iff, Option.some.injEq] at hp
    obtain ⟨ls, hls, hp⟩ := hp
    have hlen : r.2.ws.length = is.length := by subst hp; simp [ACallMsg.ws, mapM_opt_length hls]
    have hw : r.2 = .words r.2.ws := by subst hp; rfl
    rw [hw] at hv
    have hs' : ASync r.1 V' := by
      simp only [averCall, hlen, if_true, Option.bind_eq_bind, Option.bind_eq_some_iff, Option.some.injEq] at hv
      obtain ⟨_, _, rfl⟩ := hv
      subst hp
      exact ⟨hs.used, hs.gates, hs.polys, hs.mulB, hs.polyB⟩
    refine ⟨?_, hs'⟩
    simp only [aprvCallN, averCallN]
    refine Co.optL hr ?_
    refine Co.bindM (f := fun _ => pure r.1) (Co.pq _ (by rw [encWs_length, hlen])) ?_
    rw [← hlen, decWs_encWs, hv]
    exact Co.done _ _
  | zero is =>
    have hr := hp
    simp only [aprvCall, Option.bind_eq_bind, Option.bind_eq_some_iff, Option.some.injEq] at hp
    obtain ⟨ls, hls, rfl⟩ := hp
    have hs' : ASync { P with stored := P.stored ++ ls.map low64 } V' := by
      simp only [averCall, List.length_nil, if_true, Option.bind_eq_bind, Option.bind_eq_some_iff, Option.some.injEq] at hv
      obtain ⟨_, _, rfl⟩ := hv
      exact ⟨hs.used, hs.gates, hs.polys, hs.mulB, hs.polyB⟩
    refine ⟨?_, hs'⟩
    simp only [aprvCallN, averCallN]
    refine Co.optL hr ?_
    rw [hv]
    exact Co.done _ _

theorem co_calls (be : ABatchEnv) (cs : List ACall) : ∀ {P : APrv} {V : AVer}, ASync P V → ∀ {r : APrv × List ACallMsg} {V' : AVer},
    aprvCalls be.net.env P cs = some r → averCalls be.net.env V cs r.2 = some V' →
    Co (aprvCallsN be P cs) (averCallsN be V cs) r.1 V' ∧ ASync r.1 V' := by
  induction cs with
  | nil =>
    intro P V hs r V' hp hv
    simp only [aprvCalls, Option.some.injEq] at hp
    subst hp
    simp only [averCalls, Option.some.injEq] at hv
    subst hv
    exact ⟨Co.done _ _, hs⟩
  | cons o os ih =>
    intro P V hs r V' hp hv
    simp only [aprvCalls, Option.bind_eq_bind, Option.bind_eq_some_iff, Option.some.injEq] at hp
    obtain ⟨q, hq, t, ht, rfl⟩ := hp
    simp only [averCalls, Option.bind_eq_bind, Option.bind_eq_some_iff] at hv
    obtain ⟨V1, h1, h2⟩ := hv
    obtain ⟨k1, k2⟩ := co_call be hs hq h1
    obtain ⟨k3, k4⟩ := ih k2 ht h2
    exact ⟨Co.bindM k1 k3, k4⟩

/-- Honest parties: the two processes can run to the end, with the results of the session of single calls. -/
theorem co_batchSession (be : ABatchEnv) (cs : List ACall) {P : APrv} {ms : List AMsg} {fin : AFin} {V : AVer}
    (hp : aprvSession be.net.env (callOps cs) = some (P, ms, fin)) (hv : averSession be.net.env (callOps cs) ms fin = some V) :
    Co (aprvBatchNet be cs) (averBatchNet be cs) P V := by
  simp only [aprvSession, Option.bind_eq_bind, Option.bind_eq_some_iff, Option.some.injEq, Prod.mk.injEq] at hp
  obtain ⟨r, hr, q, hq, rfl, rfl, rfl⟩ := hp
  simp only [averSession, Option.bind_eq_bind, Option.bind_eq_some_iff] at hv
  obtain ⟨V1, h1, h2⟩ := hv
  rw [← aprvCalls_run, Option.bind_eq_some_iff] at hr
  obtain ⟨t, ht, hr⟩ := hr
  obtain ⟨ms, hms, rfl⟩ := Option.map_eq_some_iff.1 hr
  have h1' : averCalls be.net.env AVer.init cs t.2 = some V1 := by rw [averCalls_run, hms]; exact h1
  obtain ⟨k1, k2⟩ := co_calls be cs ASync.init ht h1'
  exact Co.bindM (Co.script _) (Co.bindM k1 (co_finalize be.net k2 hq h2))

/-! ### The verifier's process on arbitrary bytes -/

/-- The wire format of a session with batched calls. -/
def ABatchEnv.wire (be : ABatchEnv) : AWireB := ⟨be.net.wire, be.extB⟩

theorem ends_words {α : Type} {n : Nat} {f : List Byte → Proc α} {g : List AMsg → Option α}
    (hf : ∀ x, f x = Proc.ofOpt (g ((decWs n x).map AMsg.ofW))) {bs r : List Byte} {a : α} :
    Ends (Proc.get (8 * n) >>= f) bs a r ↔ ∃ ms, AWireB.words n bs = some (ms, r) ∧ g ms = some a := by
  rw [ends_bind]
  simp only [ends_get, hf, ends_ofOpt, AWireB.words, Option.bind_eq_bind, Option.bind_eq_some_iff, Option.some.injEq, Prod.mk.injEq]
  constructor
  · rintro ⟨x, r', h1, h2, rfl⟩
    exact ⟨_, ⟨(x, r'), h1, rfl, rfl⟩, h2⟩
  · rintro ⟨_, ⟨⟨x, r'⟩, h1, rfl, rfl⟩, h2⟩
    exact ⟨x, r', h1, h2, rfl⟩

/-- The calls in which the prover sends `n` words. -/
def ACall.sends : ACall → Nat → Prop
  | .feed ws, n => n = ws.length
  | .reveal is, n => n = is.length
  | .check is, n => n = is.length
  | _, _ => False

theorem averCall_words (e : AEnv) (s : AVer) {c : ACall} {n : Nat} (hn : c.sends n) (bs : List Byte) :
    averCall e s (.words (decWs n bs)) c = averRun e s c.ops ((decWs n bs).map AMsg.ofW) := by
  rw [averCall_run]
  cases c with
  | one o => exact hn.elim
  | zero is => exact hn.elim
  | feed ws => cases hn; simp [ACall.flat, decWs_length]
  | reveal is => cases hn; simp [ACall.flat, decWs_length]
  | check is => cases hn; simp [ACall.flat, decWs_length]

theorem ends_callWords (e : AEnv) (s : AVer) {c : ACall} {n : Nat} (hn : c.sends n) {bs r : List Byte} {a : AVer} :
    Ends (Proc.get (8 * n) >>= fun bs => Proc.ofOpt (averCall e s (.words (decWs n bs)) c)) bs a r ↔
      ∃ ms, AWireB.words n bs = some (ms, r) ∧ averRun e s c.ops ms = some a :=
  ends_words fun x => by rw [averCall_words e s hn]

theorem averRun_inputs_cnt {e : AEnv} {ws : List W} : ∀ {V V' : AVer} {ms : List AMsg}, averRun e V (ws.map .input) ms = some V' →
    V'.cnt = { V.cnt with used := V.used + ws.length } ∧ V'.mulBatches = V.mulBatches ∧ V'.polyBatches = V.polyBatches := by
  induction ws with
  | nil =>
    intro V V' ms h
    cases ms with
    | nil => simp only [List.map_nil, averRun, Option.some.injEq] at h; subst h; exact ⟨rfl, rfl, rfl⟩
    | cons => cases h
  | cons w ws ih =>
    intro V V' ms h
    cases ms with
    | nil => cases h
    | cons m ms =>
      simp only [List.map_cons, averRun, averStep, Option.bind_eq_bind, Option.bind_some] at h
      obtain ⟨h1, h2, h3⟩ := ih h
      refine ⟨?_, h2, h3⟩
      rw [h1]
      simp only [AVer.cnt, List.length_cons, ACnt.mk.injEq, and_true]
      omega

/-- Instructions that consume nothing and buffer nothing. -/
theorem averRun_open_cnt {e : AEnv} {ops : List AOp}
    (hop : ∀ o ∈ ops, (∃ i, o = .reveal i) ∨ (∃ i x, o = .revealCheck i x) ∨ ∃ i, o = .revealZero i) :
    ∀ {V V' : AVer} {ms : List AMsg}, averRun e V ops ms = some V' →
    V'.cnt = V.cnt ∧ V'.mulBatches = V.mulBatches ∧ V'.polyBatches = V.polyBatches := by
  induction ops with
  | nil =>
    intro V V' ms h
    cases ms with
    | nil => simp only [averRun, Option.some.injEq] at h; subst h; exact ⟨rfl, rfl, rfl⟩
    | cons => cases h
  | cons o ops ih =>
    intro V V' ms h
    cases ms with
    | nil => cases h
    | cons m ms =>
      simp only [averRun, Option.bind_eq_bind, Option.bind_eq_some_iff] at h
      obtain ⟨V1, h1, h⟩ := h
      obtain ⟨k1, k2, k3⟩ := ih (fun o h => hop o (List.mem_cons_of_mem _ h)) h
      have : V1.cnt = V.cnt ∧ V1.mulBatches = V.mulBatches ∧ V1.polyBatches = V.polyBatches := by
        rcases hop o List.mem_cons_self with ⟨i, rfl⟩ | ⟨i, x, rfl⟩ | ⟨i, rfl⟩ <;>
          simp only [averStep, Option.bind_eq_bind, Option.bind_eq_some_iff, Option.some.injEq] at h1 <;>
          obtain ⟨_, _, rfl⟩ := h1 <;> exact ⟨rfl, rfl, rfl⟩
      exact ⟨k1.trans this.1, k2.trans this.2.1, k3.trans this.2.2⟩

theorem reveal_ops_open (is : List Nat) : ∀ o ∈ (ACall.reveal is).ops,
    (∃ i, o = AOp.reveal i) ∨ (∃ i x, o = AOp.revealCheck i x) ∨ ∃ i, o = AOp.revealZero i := by
  intro o ho
  simp only [ACall.ops, List.mem_map] at ho
  obtain ⟨i, _, rfl⟩ := ho
  exact Or.inl ⟨i, rfl⟩

theorem check_ops_open (is : List (Nat × W)) : ∀ o ∈ (ACall.check is).ops,
    (∃ i, o = AOp.reveal i) ∨ (∃ i x, o = AOp.revealCheck i x) ∨ ∃ i, o = AOp.revealZero i := by
  intro o ho
  simp only [ACall.ops, List.mem_map] at ho
  obtain ⟨i, _, rfl⟩ := ho
  exact Or.inr (Or.inl ⟨i.1, i.2, rfl⟩)

theorem zero_ops_open (is : List Nat) : ∀ o ∈ (ACall.zero is).ops,
    (∃ i, o = AOp.reveal i) ∨ (∃ i x, o = AOp.revealCheck i x) ∨ ∃ i, o = AOp.revealZero i := by
  intro o ho
  simp only [ACall.ops, List.mem_map] at ho
  obtain ⟨i, _, rfl⟩ := ho
  exact Or.inr (Or.inr ⟨i, rfl⟩)

theorem ends_call (be : ABatchEnv) {V V' : AVer} {bs r : List Byte} {c : ACall} : Ends (averCallN be V c) bs V' r ↔
    ∃ ms, be.wire.step V.cnt c bs = some (ms, V'.cnt, r) ∧ averRun be.net.env V c.ops ms = some V' := by
  cases c with
  | one o =>
    simp only [averCallN, ends_step, AWireB.step, ACall.ops, Option.bind_eq_bind, Option.bind_eq_some_iff, Option.some.injEq,
      Prod.mk.injEq]
    constructor
    · rintro ⟨m, h1, h2⟩
      exact ⟨[m], ⟨_, h1, rfl, rfl⟩, by simp [averRun, h2]⟩
    · rintro ⟨_, ⟨⟨m, y⟩, h1, rfl, rfl⟩, h2⟩
      simp only [averRun, Option.bind_eq_bind, Option.bind_eq_some_iff, Option.some.injEq] at h2
      obtain ⟨_, h3, rfl⟩ := h2
      exact ⟨m, h1, h3⟩
  | feed ws =>
    simp only [averCallN, ends_bind (P := Proc.script _ _), ends_script]
    simp only [ends_callWords be.net.env V (show (ACall.feed ws).sends ws.length from rfl), AWireB.step, Option.bind_eq_bind,
      Option.bind_eq_some_iff, Option.some.injEq, Prod.mk.injEq]
    constructor
    · rintro ⟨_, b, h1, ms, h2, h3⟩
      exact ⟨ms, ⟨b, h1, (ms, r), h2, rfl, (averRun_inputs_cnt h3).1.symm, rfl⟩, h3⟩
    · rintro ⟨ms, ⟨b, h1, ⟨ms', r'⟩, h2, rfl, h4, rfl⟩, h3⟩
      exact ⟨(), b, h1, ms', h2, h3⟩
  | reveal is =>
    simp only [averCallN]
    simp only [ends_callWords be.net.env V (show (ACall.reveal is).sends is.length from rfl), AWireB.step, Option.bind_eq_bind,
      Option.bind_eq_some_iff, Option.some.injEq, Prod.mk.injEq]
    constructor
    · rintro ⟨ms, h2, h3⟩
      exact ⟨ms, ⟨(ms, r), h2, rfl, (averRun_open_cnt (reveal_ops_open is) h3).1.symm, rfl⟩, h3⟩
    · rintro ⟨ms, ⟨⟨ms', r'⟩, h2, rfl, h4, rfl⟩, h3⟩
      exact ⟨ms', h2, h3⟩
  | check is =>
    simp only [averCallN]
    simp only [ends_callWords be.net.env V (show (ACall.check is).sends is.length from rfl), AWireB.step, Option.bind_eq_bind,
      Option.bind_eq_some_iff, Option.some.injEq, Prod.mk.injEq]
    constructor
    · rintro ⟨ms, h2, h3⟩
      exact ⟨ms, ⟨(ms, r), h2, rfl, (averRun_open_cnt (check_ops_open is) h3).1.symm, rfl⟩, h3⟩
    · rintro ⟨ms, ⟨⟨ms', r'⟩, h2, rfl, h4, rfl⟩, h3⟩
      exact ⟨ms', h2, h3⟩
  | zero is =>
    have hz : averCall be.net.env V (.words []) (.zero is) = averRun be.net.env V (ACall.zero is).ops (is.map fun _ => AMsg.ofW 0) := by
      rw [averCall_run]; rfl
    simp only [averCallN, ends_ofOpt, hz, AWireB.step, Option.some.injEq, Prod.mk.injEq]
    constructor
    · rintro ⟨h3, rfl⟩
      exact ⟨_, ⟨rfl, (averRun_open_cnt (zero_ops_open is) h3).1.symm, rfl⟩, h3⟩
    · rintro ⟨_, ⟨rfl, _, rfl⟩, h3⟩
      exact ⟨h3, rfl⟩

theorem words_length {n : Nat} {bs r : List Byte} {ms : List AMsg} (h : AWireB.words n bs = some (ms, r)) : ms.length = n := by
  simp only [AWireB.words, Option.bind_eq_bind, Option.bind_eq_some_iff, Option.some.injEq, Prod.mk.injEq] at h
  obtain ⟨_, _, rfl, _⟩ := h
  simp [decWs_length]

theorem wireB_step {be : ABatchEnv} {V V' : AVer} {bs r : List Byte} {c : ACall} {ms : List AMsg} {k : ACnt}
    (h : be.wire.step V.cnt c bs = some (ms, k, r)) :
    ms.length = c.ops.length ∧ (averRun be.net.env V c.ops ms = some V' → k = V'.cnt) := by
  cases c with
  | one o =>
    simp only [AWireB.step, Option.bind_eq_bind, Option.bind_eq_some_iff, Option.some.injEq, Prod.mk.injEq] at h
    obtain ⟨⟨m, k', r'⟩, h1, rfl, h2⟩ := h
    simp only [Prod.mk.injEq] at h2
    obtain ⟨rfl, rfl⟩ := h2
    refine ⟨rfl, fun hv => ?_⟩
    simp only [ACall.ops, averRun, Option.bind_eq_bind, Option.bind_eq_some_iff, Option.some.injEq] at hv
    obtain ⟨_, h3, rfl⟩ := hv
    exact wire_step_cnt h1 h3
  | feed ws =>
    simp only [AWireB.step, Option.bind_eq_bind, Option.bind_eq_some_iff, Option.some.injEq, Prod.mk.injEq] at h
    obtain ⟨b, _, ⟨ms', r'⟩, h2, rfl, rfl, rfl⟩ := h
    exact ⟨by simpa [ACall.ops] using words_length h2, fun hv => (averRun_inputs_cnt hv).1.symm⟩
  | reveal is =>
    simp only [AWireB.step, Option.bind_eq_bind, Option.bind_eq_some_iff, Option.some.injEq, Prod.mk.injEq] at h
    obtain ⟨⟨ms', r'⟩, h2, rfl, rfl, rfl⟩ := h
    exact ⟨by simpa [ACall.ops] using words_length h2, fun hv => (averRun_open_cnt (reveal_ops_open is) hv).1.symm⟩
  | check is =>
    simp only [AWireB.step, Option.bind_eq_bind, Option.bind_eq_some_iff, Option.some.injEq, Prod.mk.injEq] at h
    obtain ⟨⟨ms', r'⟩, h2, rfl, rfl, rfl⟩ := h
    exact ⟨by simpa [ACall.ops] using words_length h2, fun hv => (averRun_open_cnt (check_ops_open is) hv).1.symm⟩
  | zero is =>
    simp only [AWireB.step, Option.some.injEq, Prod.mk.injEq] at h
    obtain ⟨rfl, rfl, rfl⟩ := h
    exact ⟨by simp [ACall.ops], fun hv => (averRun_open_cnt (zero_ops_open is) hv).1.symm⟩

theorem wireB_run {be : ABatchEnv} (cs : List ACall) : ∀ {V V' : AVer} {bs r : List Byte} {ms : List AMsg} {k : ACnt},
    be.wire.run V.cnt cs bs = some (ms, k, r) → averRun be.net.env V (callOps cs) ms = some V' → k = V'.cnt := by
  induction cs with
  | nil =>
    intro V V' bs r ms k h hv
    simp only [AWireB.run, Option.some.injEq, Prod.mk.injEq] at h
    obtain ⟨rfl, rfl, _⟩ := h
    have hv : averRun be.net.env V [] [] = some V' := hv
    simp only [averRun, Option.some.injEq] at hv
    rw [hv]
  | cons c cs ih =>
    intro V V' bs r ms k h hv
    simp only [AWireB.run, Option.bind_eq_bind, Option.bind_eq_some_iff, Option.some.injEq, Prod.mk.injEq] at h
    obtain ⟨⟨m, c1, r1⟩, h1, ⟨ms', y⟩, h3, rfl, rfl⟩ := h
    have hc : callOps (c :: cs) = c.ops ++ callOps cs := rfl
    rw [hc, averRun_append _ _ _ _ _ _ (wireB_step (V' := V) h1).1, Option.bind_eq_some_iff] at hv
    obtain ⟨V1, h5, h6⟩ := hv
    obtain rfl := (wireB_step h1).2 h5
    exact ih h3 h6

theorem ends_calls (be : ABatchEnv) (cs : List ACall) : ∀ {V V' : AVer} {bs r : List Byte}, Ends (averCallsN be V cs) bs V' r ↔
    ∃ ms, be.wire.run V.cnt cs bs = some (ms, V'.cnt, r) ∧ averRun be.net.env V (callOps cs) ms = some V' := by
  induction cs with
  | nil =>
    intro V V' bs r
    simp only [averCallsN, ends_pure, AWireB.run, Option.some.injEq, Prod.mk.injEq]
    constructor
    · rintro ⟨rfl, rfl⟩; exact ⟨[], ⟨rfl, rfl, rfl⟩, rfl⟩
    · rintro ⟨_, ⟨rfl, _, rfl⟩, h⟩
      have h : averRun be.net.env V [] [] = some V' := h
      simp only [averRun, Option.some.injEq] at h
      exact ⟨h, rfl⟩
  | cons c cs ih =>
    intro V V' bs r
    have hc : callOps (c :: cs) = c.ops ++ callOps cs := rfl
    simp only [averCallsN, ends_bind, ends_call, ih, AWireB.run, Option.bind_eq_bind, Option.bind_eq_some_iff, Option.some.injEq,
      Prod.mk.injEq]
    constructor
    · rintro ⟨V1, r1, ⟨m, h1, h2⟩, ms, h3, h4⟩
      refine ⟨m ++ ms, ⟨(m, V1.cnt, r1), h1, (ms, V'.cnt, r), h3, rfl, rfl⟩, ?_⟩
      rw [hc, averRun_append _ _ _ _ _ _ (wireB_step (V' := V) h1).1, h2]
      exact h4
    · rintro ⟨_, ⟨⟨m, c1, r1⟩, h1, ⟨ms, y⟩, h3, rfl, rfl⟩, h4⟩
      rw [hc, averRun_append _ _ _ _ _ _ (wireB_step (V' := V) h1).1, Option.bind_eq_some_iff] at h4
      obtain ⟨V1, h5, h6⟩ := h4
      obtain rfl := (wireB_step h1).2 h5
      exact ⟨V1, r1, ⟨m, h1, h5⟩, ms, h3, h6⟩

theorem ends_batchSession (be : ABatchEnv) (cs : List ACall) {V : AVer} {bs r : List Byte} : Ends (averBatchNet be cs) bs V r ↔
    ∃ ms fin, be.wire.session cs bs = some (ms, fin, r) ∧ averSession be.net.env (callOps cs) ms fin = some V := by
  simp only [averBatchNet, ends_bind, ends_script, ends_calls, ends_finalize, AWireB.session, averSession,
    Option.bind_eq_bind, Option.bind_eq_some_iff, Option.some.injEq, Prod.mk.injEq]
  constructor
  · rintro ⟨_, r0, h0, V1, r1, ⟨ms, h1, h2⟩, fin, h3, h4⟩
    exact ⟨ms, fin, ⟨r0, h0, (ms, V1.cnt, r1), h1, (fin, r), h3, rfl, rfl, rfl⟩, V1, h2, h4⟩
  · rintro ⟨ms, fin, ⟨r0, h0, ⟨ms', c1, r1⟩, h1, ⟨fin', r'⟩, h3, rfl, rfl, rfl⟩, V1, h2, h4⟩
    obtain rfl := wireB_run (V := AVer.init) cs h1 h2
    exact ⟨(), r0, h0, V1, r1, ⟨ms', h1, h2⟩, fin', h3, h4⟩

/-! ### Independence of `Delta` -/

theorem like_call {be be' : ABatchEnv} (ha : be.net.Alike be'.net) (hb : be.extB = be'.extB) {V V' : AVer} (hl : V.Level V')
    (c : ACall) : Proc.Like AVer.Level (averCallN be V c) (averCallN be' V' c) := by
  have hopen : ∀ {c : ACall} {U U' : AVer} {m m' : ACallMsg},
      (∀ o ∈ c.ops, (∃ i, o = AOp.reveal i) ∨ (∃ i x, o = AOp.revealCheck i x) ∨ ∃ i, o = AOp.revealZero i) →
      averCall be.net.env V m c = some U → averCall be'.net.env V' m' c = some U' → U.Level U' := by
    intro c U U' m m' hop h1 h2
    rw [averCall_run, Option.bind_eq_some_iff] at h1 h2
    obtain ⟨_, _, h1⟩ := h1
    obtain ⟨_, _, h2⟩ := h2
    obtain ⟨a1, a2, a3⟩ := averRun_open_cnt hop h1
    obtain ⟨b1, b2, b3⟩ := averRun_open_cnt hop h2
    exact ⟨by rw [a1, b1, hl.cnt], by rw [a2, b2, hl.mulB], by rw [a3, b3, hl.polyB]⟩
  cases c with
  | one o => exact like_step ha hl o
  | feed ws =>
    simp only [averCallN]
    rw [hb, hl.used]
    refine (Proc.Like.refl _).bindM fun _ _ _ => (Proc.Like.refl _).bindM ?_
    rintro x _ rfl
    refine Proc.Like.opt fun a b h1 h2 => ?_
    rw [averCall_run, Option.bind_eq_some_iff] at h1 h2
    obtain ⟨_, _, h1⟩ := h1
    obtain ⟨_, _, h2⟩ := h2
    obtain ⟨a1, a2, a3⟩ := averRun_inputs_cnt h1
    obtain ⟨b1, b2, b3⟩ := averRun_inputs_cnt h2
    exact ⟨by rw [a1, b1, hl.cnt, hl.used], by rw [a2, b2, hl.mulB], by rw [a3, b3, hl.polyB]⟩
  | reveal is =>
    simp only [averCallN]
    refine (Proc.Like.refl _).bindM ?_
    rintro x _ rfl
    exact Proc.Like.opt fun a b h1 h2 => hopen (reveal_ops_open is) h1 h2
  | check is =>
    simp only [averCallN]
    refine (Proc.Like.refl _).bindM ?_
    rintro x _ rfl
    exact Proc.Like.opt fun a b h1 h2 => hopen (check_ops_open is) h1 h2
  | zero is =>
    simp only [averCallN]
    exact Proc.Like.opt fun a b h1 h2 => hopen (zero_ops_open is) h1 h2

theorem like_calls {be be' : ABatchEnv} (ha : be.net.Alike be'.net) (hb : be.extB = be'.extB) (cs : List ACall) :
    ∀ {V V' : AVer}, V.Level V' → Proc.Like AVer.Level (averCallsN be V cs) (averCallsN be' V' cs) := by
  induction cs with
  | nil => intro V V' hl; exact .done hl
  | cons o os ih => intro V V' hl; exact (like_call ha hb hl o).bindM fun _ _ h => ih h

theorem like_finalize {ne ne' : ANetEnv} (ha : ne.Alike ne') {V V' : AVer} (hl : V.Level V') :
    Proc.Like (fun _ _ => True) (averFinalizeN ne V) (averFinalizeN ne' V') := by
  unfold averFinalizeN
  exact (like_finPoly ha hl).bindM fun _ _ h => (like_finMul ha h).bindM fun _ _ _ =>
    (Proc.Like.refl _).bindM fun _ _ _ => .done trivial

theorem like_batchNet {be be' : ABatchEnv} (ha : be.net.Alike be'.net) (hb : be.extB = be'.extB) (cs : List ACall) :
    Proc.Like (fun _ _ => True) (averBatchNet be cs) (averBatchNet be' cs) := by
  unfold averBatchNet
  rw [ha.ext]
  exact (Proc.Like.refl _).bindM fun _ _ _ => (like_calls ha hb cs ⟨rfl, rfl, rfl⟩).bindM fun V V' hl => like_finalize ha hl

end EmpZk
