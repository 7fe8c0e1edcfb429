/-
Invariants of the arithmetic session state machines.
-/
import Verif.Lemmas.ArithAlg

namespace EmpZk

theorem APoly.map_map {α β γ : Type} (f : α → β) (g : β → γ) (p : APoly α) : (p.map f).map g = p.map (g ∘ f) := by
  cases p <;> simp [APoly.map, Function.comp_def]

theorem alookup_map {α β : Type} (f : α → β) (w : List α) (s : APoly Nat) :
    s.lookup (w.map f) = (s.lookup w).map (APoly.map f) := by
  cases s with
  | deg2 c0 terms =>
    simp only [APoly.lookup, lookupTerms_map]
    cases lookupTerms w terms <;> rfl
  | inner c xy =>
    simp only [APoly.lookup, lookupPairs_map]
    cases lookupPairs w xy <;> rfl

theorem lookupTerms_coeff {κ α : Type} {w : List α} (l : List (κ × Nat × Nat)) {r : List (κ × α × α)}
    (h : lookupTerms w l = some r) : r.map Prod.fst = l.map Prod.fst := by
  induction l generalizing r with
  | nil => simp only [lookupTerms, Option.some.injEq] at h; subst h; rfl
  | cons p l ih =>
    obtain ⟨c, i, j⟩ := p
    simp only [lookupTerms, Option.bind_eq_bind, Option.bind_eq_some_iff, Option.some.injEq] at h
    obtain ⟨a, _, b, _, r', hr, rfl⟩ := h
    simp [ih hr]

theorem alookup_canon {α : Type} {w : List α} {s : APoly Nat} {p : APoly α} (h : s.lookup w = some p) (hc : s.CanonC) :
    p.CanonC := by
  cases s with
  | deg2 c0 terms =>
    simp only [APoly.lookup, Option.bind_eq_bind, Option.bind_eq_some_iff, Option.some.injEq] at h
    obtain ⟨t, ht, rfl⟩ := h
    refine ⟨hc.1, ?_⟩
    intro x hx
    have h1 : x.1 ∈ t.map Prod.fst := List.mem_map_of_mem hx
    rw [lookupTerms_coeff terms ht, List.mem_map] at h1
    obtain ⟨y, hy, hxy⟩ := h1
    rw [← hxy]
    exact hc.2 y hy
  | inner c xy =>
    simp only [APoly.lookup, Option.bind_eq_bind, Option.bind_eq_some_iff, Option.some.injEq] at h
    obtain ⟨t, ht, rfl⟩ := h
    exact hc

theorem alookup_append {α : Type} {w : List α} (w' : List α) (s : APoly Nat) {p : APoly α}
    (h : s.lookup w = some p) : s.lookup (w ++ w') = some p := by
  cases s with
  | deg2 c0 terms =>
    simp only [APoly.lookup, Option.bind_eq_bind, Option.bind_eq_some_iff] at h ⊢
    obtain ⟨t, ht, h⟩ := h
    exact ⟨t, lookupTerms_append _ _ ht, h⟩
  | inner c xy =>
    simp only [APoly.lookup, Option.bind_eq_bind, Option.bind_eq_some_iff] at h ⊢
    obtain ⟨t, ht, h⟩ := h
    exact ⟨t, lookupPairs_append _ _ ht, h⟩

/-! ### environments -/

theorem AView.env_cor (v : AView) (d : Fp) (n : Nat) : (v.env d).cor n = lab (v.cor n) := rfl
theorem AView.env_keyU (v : AView) (d : Fp) (n : Nat) : (v.env d).keyU n = keyAt d (v.cor n) := rfl

theorem AEnv.Good.eta {e : AEnv} (h : e.Good) : e.view.env (fp e.delta) = e := by
  have hk : ∀ n, toW (fp (e.mac n) - fp (e.u n) * fp e.delta) = e.key n := by
    intro n
    rw [h.cor n, show fp (e.key n) + fp e.delta * fp (e.u n) - fp (e.u n) * fp e.delta = fp (e.key n) by ring,
      toW_fp (h.key n)]
  simp only [AView.env, AEnv.view, toW_fp h.delta, toW_fp h.pub, toW_fp (h.u _), toW_fp (h.mac _), hk]

theorem AView.good (v : AView) (d : Fp) : (v.env d).Good where
  delta := canon_toW _
  key := fun _ => canon_toW _
  u := fun _ => canon_toW _
  mac := fun _ => canon_toW _
  pub := canon_toW _
  cor := by intro n; simp only [AView.env, fp_toW]; ring

/-! ### the verifier -/

/-- The verifier's state determined by a committed state and `delta`, apart from the flags. -/
def averImg (d : Fp) (c : ACom) (ab ch : Bool) : AVer where
  wires := c.wires.map (keyAt d)
  used := c.used
  gates := c.gates.map (CGate.keyAt d)
  polys := c.polys.map (fun p => apolyB (toW d) (p.map (keyAt d)))
  stored := c.opened.map (fun o => toW (o.1.2 + (o.2 - o.1.1) * d))
  outs := c.outs.map toW
  mulBatches := c.mulBatches
  polyBatches := c.polyBatches
  aborted := ab
  cheat := ch
  expLog := c.exps.map (fun x => (x.1, toW x.2))
  mulLog := c.mulLog.map (fun r => ⟨r.gates.map (CGate.keyAt d), r.seeds, r.ope, r.ans⟩)
  polyLog := c.polyLog.map (fun r =>
    ⟨r.polys.map (fun p => apolyB (toW d) (p.map (keyAt d))), toW r.seed, r.ope, r.ans⟩)

theorem averMulCheck_img (v : AView) (d : Fp) (c : ACom) (ab ch : Bool) (ans : W × W) :
    ∃ ab', averMulCheck (v.env d) (averImg d c ab ch) ans =
      if (mulTasks c.gates.length v.threads).isSome then some (averImg d (acomMulCheck v c ans) ab' ch) else none := by
  have h := mulCheckB_keyAt d c.gates v.threads (v.seed c.mulBatches) (v.cor c.used) ans
  have e : mulCheckB (v.env d).delta (averImg d c ab ch).gates (v.env d).threads
      ((v.env d).seed (averImg d c ab ch).mulBatches) ((v.env d).keyU (averImg d c ab ch).used) ans =
      mulCheckB (toW d) (c.gates.map (CGate.keyAt d)) v.threads (v.seed c.mulBatches) (keyAt d (v.cor c.used)) ans := rfl
  simp only [averMulCheck, e, h]
  cases mulTasks c.gates.length v.threads with
  | none => exact ⟨false, rfl⟩
  | some ts =>
    simp only [Option.map_some, Option.bind_eq_bind, Option.bind_some, Option.isSome_some, if_true]
    exact ⟨_, by simp only [averImg, acomMulCheck, List.map_append, List.map_cons, List.map_nil]; rfl⟩

theorem averMulRoom_img (v : AView) (d : Fp) (c : ACom) (ab ch : Bool) (ans : W × W) :
    ∃ ab', averMulRoom (v.env d) (averImg d c ab ch) ans =
      (acomMulRoom v c ans).map (fun c' => averImg d c' ab' ch) := by
  obtain ⟨ab', h⟩ := averMulCheck_img v d c ab ch ans
  have hg : (averImg d c ab ch).gates.length = c.gates.length := by simp [averImg]
  have e1 : (v.env d).checkSz = v.checkSz := rfl
  rw [averMulRoom, acomMulRoom, hg, e1]
  split
  · refine ⟨ab', ?_⟩
    rw [h]
    split <;> rfl
  · exact ⟨ab, rfl⟩

theorem averMulPush_img (v : AView) (d : Fp) (c : ACom) (ab ch : Bool) (a b : Fp × Fp) (l : Fp) :
    averMulPush (v.env d) (averImg d c ab ch) (keyAt d a) (keyAt d b) (toW l) =
      (acomMulPush v c a b l).map (fun c' => averImg d c' ab ch) := by
  have hg : (averImg d c ab ch).gates.length = c.gates.length := by simp [averImg]
  have e1 : (v.env d).checkSz = v.checkSz := rfl
  have e2 : mulRecv (v.env d).delta ((v.env d).keyU (averImg d c ab ch).used) (toW l) =
      keyAt d (v.u c.used - l, v.mac c.used) := mulRecv_keyAt d (v.cor c.used) l
  rw [averMulPush, acomMulPush, hg, e1]
  split
  · simp only [Option.map_some, e2]
    simp only [averImg, List.map_append, List.map_cons, List.map_nil, CGate.keyAt]
  · rfl

theorem apolyCheckB_isSome (d : W) (buf : List W) (seed : W) (ope : U128) (ans : W × W) (h : buf ≠ []) :
    (apolyCheckB d buf seed ope ans).isSome := by
  cases buf with
  | nil => exact absurd rfl h
  | cons x l => rfl

theorem averPolyCheck_img (v : AView) (d : Fp) (c : ACom) (ab ch : Bool) (ans : W × W) (hp : c.polys ≠ []) :
    ∃ ch', averPolyCheck (v.env d) (averImg d c ab ch) ans = some (averImg d (acomPolyCheck v c ans) ab ch') := by
  have hs := apolyCheckB_isSome (v.env d).delta (averImg d c ab ch).polys
    (mod64 ((v.env d).polySeed (averImg d c ab ch).polyBatches)) ((v.env d).keyU (averImg d c ab ch).used) ans
    (by simpa [averImg] using hp)
  obtain ⟨ok, hok⟩ := Option.isSome_iff_exists.1 hs
  simp only [averPolyCheck, hok, Option.bind_eq_bind, Option.bind_some]
  refine ⟨ch || !ok, ?_⟩
  simp only [averImg, acomPolyCheck, List.map_append, List.map_cons, List.map_nil, mod64_eq_toW]
  rfl

theorem averPolyRoom_img (v : AView) (d : Fp) (c : ACom) (ab ch : Bool) (ans : W × W) :
    ∃ ch', averPolyRoom (v.env d) (averImg d c ab ch) ans = some (averImg d (acomPolyRoom v c ans) ab ch') := by
  have hp : ((averImg d c ab ch).polys.length ≥ (v.env d).polySz ∧ (averImg d c ab ch).polys ≠ []) ↔
      (c.polys.length ≥ v.polySz ∧ c.polys ≠ []) := by
    simp [averImg, AView.env]
  rw [averPolyRoom, acomPolyRoom]
  by_cases h : c.polys.length ≥ v.polySz ∧ c.polys ≠ []
  · rw [if_pos h, if_pos (hp.2 h)]
    exact averPolyCheck_img v d c ab ch ans h.2
  · rw [if_neg h, if_neg (fun h' => h (hp.1 h'))]
    exact ⟨ch, rfl⟩

theorem averPolyPush_img (v : AView) (d : Fp) (c : ACom) (ab ch : Bool) (p : APoly (Fp × Fp)) :
    averPolyPush (v.env d) (averImg d c ab ch) (p.map (keyAt d)) =
      (acomPolyPush v c p).map (fun c' => averImg d c' ab ch) := by
  have hg : (averImg d c ab ch).polys.length = c.polys.length := by simp [averImg]
  have e1 : (v.env d).polySz = v.polySz := rfl
  rw [averPolyPush, acomPolyPush, hg, e1]
  split
  · simp only [Option.map_some, averImg, AView.env, List.map_append, List.map_cons, List.map_nil]
  · rfl

theorem openB_img (d : Fp) (a : Fp × Fp) (x : W) (hx : Canon x) :
    openB (toW d) x (keyAt d a) = toW (a.2 + (fp x - a.1) * d) := by
  have := openB_keyAt d (fp x) a
  rw [toW_fp hx] at this
  exact this

/-- The words of the messages are canonical. -/
def AMsg.CanonM (m : AMsg) : Prop := Canon m.w

theorem averStep_img (v : AView) (d : Fp) (c : ACom) (ab ch : Bool) (m : AMsg) (hm : m.CanonM) (op : AOp)
    (ho : op.CanonC) :
    ∃ ab' ch', averStep (v.env d) (averImg d c ab ch) m op =
      (acomStep v c m op).map (fun c' => averImg d c' ab' ch') := by
  have hw : (averImg d c ab ch).wires = c.wires.map (keyAt d) := rfl
  have hd : (v.env d).delta = toW d := rfl
  unfold AMsg.CanonM at hm
  cases op with
  | input w =>
    refine ⟨ab, ch, ?_⟩
    have e := feedB_keyAt d (v.cor c.used) (fp m.w)
    rw [toW_fp hm] at e
    have e' : feedB (v.env d).delta ((v.env d).keyU (averImg d c ab ch).used) m.w =
        keyAt d (v.u c.used - fp m.w, v.mac c.used) := e
    simp only [averStep, acomStep, Option.map_some, e']
    simp only [averImg, List.map_append, List.map_cons, List.map_nil]
  | pub w =>
    refine ⟨ab, ch, ?_⟩
    have e := pubB_keyAt d v.pubMac (fp w)
    rw [toW_fp (show Canon w from ho)] at e
    have e' : pubB (v.env d).delta (v.env d).pubMac w = keyAt d (fp w, v.pubMac) := e
    simp only [averStep, acomStep, Option.map_some, e']
    simp only [averImg, List.map_append, List.map_cons, List.map_nil]
  | add i j =>
    refine ⟨ab, ch, ?_⟩
    simp only [averStep, acomStep, hw, List.getElem?_map]
    cases c.wires[i]? with
    | none => rfl
    | some a =>
      cases c.wires[j]? with
      | none => rfl
      | some b =>
        simp only [Option.map_some, Option.bind_eq_bind, Option.bind_some, addGateB_keyAt]
        simp only [averImg, List.map_append, List.map_cons, List.map_nil]
  | mulc i k =>
    refine ⟨ab, ch, ?_⟩
    simp only [averStep, acomStep, hw, List.getElem?_map]
    cases c.wires[i]? with
    | none => rfl
    | some a =>
      have e := mulConstB_keyAt d a (fp k)
      rw [toW_fp (show Canon k from ho)] at e
      simp only [Option.map_some, Option.bind_eq_bind, Option.bind_some, e]
      simp only [averImg, List.map_append, List.map_cons, List.map_nil]
  | reveal i =>
    refine ⟨ab, ch, ?_⟩
    simp only [averStep, acomStep, hw, hd, List.getElem?_map]
    cases c.wires[i]? with
    | none => rfl
    | some a =>
      simp only [Option.map_some, Option.bind_eq_bind, Option.bind_some, openB_img d a m.w hm]
      simp only [averImg, List.map_append, List.map_cons, List.map_nil, toW_fp hm]
  | revealCheck i x =>
    simp only [averStep, acomStep, hw, hd, List.getElem?_map]
    cases c.wires[i]? with
    | none => exact ⟨ab, ch, rfl⟩
    | some a =>
      simp only [Option.map_some, Option.bind_eq_bind, Option.bind_some, openB_img d a m.w hm]
      refine ⟨ab || !(x == m.w), ch, ?_⟩
      simp only [averImg, List.map_append, List.map_cons, List.map_nil, toW_fp hm]
  | revealZero i =>
    refine ⟨ab, ch, ?_⟩
    simp only [averStep, acomStep, hw, List.getElem?_map]
    cases c.wires[i]? with
    | none => rfl
    | some a =>
      have e : low64 (keyAt d a) = toW (a.2 + (0 - a.1) * d) := by
        rw [low64_keyAt]; congr 1; ring
      simp only [Option.map_some, Option.bind_eq_bind, Option.bind_some, e]
      simp only [averImg, List.map_append, List.map_cons, List.map_nil]
  | mul i j =>
    simp only [averStep, acomStep, hw, List.getElem?_map]
    cases c.wires[i]? with
    | none => exact ⟨ab, ch, rfl⟩
    | some a =>
      cases c.wires[j]? with
      | none => exact ⟨ab, ch, rfl⟩
      | some b =>
        obtain ⟨ab', hch⟩ := averMulRoom_img v d c ab ch m.ans
        refine ⟨ab', ch, ?_⟩
        simp only [Option.map_some, Option.bind_eq_bind, Option.bind_some, hch]
        cases acomMulRoom v c m.ans with
        | none => rfl
        | some c' =>
          have := averMulPush_img v d c' ab' ch a b (fp m.w)
          rw [toW_fp hm] at this
          exact this
  | poly st =>
    simp only [averStep, acomStep, hw, alookup_map]
    cases st.lookup c.wires with
    | none => exact ⟨ab, ch, rfl⟩
    | some p =>
      obtain ⟨ch', hch⟩ := averPolyRoom_img v d c ab ch m.ans
      refine ⟨ab, ch', ?_⟩
      simp only [Option.map_some, Option.bind_eq_bind, Option.bind_some, hch]
      exact averPolyPush_img v d _ ab ch' p

theorem averRun_img (v : AView) (d : Fp) (ops : List AOp) :
    ∀ (c : ACom) (ab ch : Bool) (ms : List AMsg), (∀ m ∈ ms, m.CanonM) → (∀ o ∈ ops, o.CanonC) →
    ∃ ab' ch', averRun (v.env d) (averImg d c ab ch) ops ms =
      (acomRun v c ops ms).map (fun c' => averImg d c' ab' ch') := by
  induction ops with
  | nil =>
    intro c ab ch ms _ _
    cases ms with
    | nil => exact ⟨ab, ch, rfl⟩
    | cons m ms => exact ⟨ab, ch, rfl⟩
  | cons o os ih =>
    intro c ab ch ms hm ho
    cases ms with
    | nil => exact ⟨ab, ch, rfl⟩
    | cons m ms =>
      simp only [averRun, acomRun]
      obtain ⟨ab', ch', h⟩ := averStep_img v d c ab ch m (hm m (by simp)) o (ho o (by simp))
      rw [h]
      cases acomStep v c m o with
      | none => exact ⟨ab, ch, rfl⟩
      | some c' => exact ih c' ab' ch' ms (fun x hx => hm x (by simp [hx])) (fun x hx => ho x (by simp [hx]))

theorem averFinalize_img (v : AView) (d : Fp) (c : ACom) (ab ch : Bool) (m : AFin) :
    ∃ ab' ch', averFinalize (v.env d) (averImg d c ab ch) m =
      (acomFinalize v c m).map (fun c' => averImg d c' ab' ch') := by
  have h1 : ∃ ch', averFinPoly (v.env d) (averImg d c ab ch) m.polyAns =
      some (averImg d (acomFinPoly v c m.polyAns) ab ch') := by
    have hp : ((averImg d c ab ch).polys ≠ []) ↔ c.polys ≠ [] := by simp [averImg]
    rw [averFinPoly, acomFinPoly]
    by_cases h : c.polys ≠ []
    · rw [if_pos h, if_pos (hp.2 h)]
      exact averPolyCheck_img v d c ab ch m.polyAns h
    · rw [if_neg h, if_neg (fun h' => h (hp.1 h'))]
      exact ⟨ch, rfl⟩
  have h2 : ∀ c ab ch, ∃ ab', averFinMul (v.env d) (averImg d c ab ch) m.mulAns =
      (acomFinMul v c m.mulAns).map (fun c' => averImg d c' ab' ch) := by
    intro c ab ch
    have hp : ((averImg d c ab ch).gates ≠ []) ↔ c.gates ≠ [] := by simp [averImg]
    rw [averFinMul, acomFinMul]
    by_cases h : c.gates ≠ []
    · rw [if_pos h, if_pos (hp.2 h)]
      obtain ⟨ch', h⟩ := averMulCheck_img v d c ab ch m.mulAns
      refine ⟨ch', ?_⟩
      rw [h]
      split <;> rfl
    · rw [if_neg h, if_neg (fun h' => h (hp.1 h'))]
      exact ⟨ab, rfl⟩
  obtain ⟨ch1, h1⟩ := h1
  obtain ⟨ab2, h2⟩ := h2 (acomFinPoly v c m.polyAns) ab ch1
  simp only [averFinalize, acomFinalize, h1, Option.bind_eq_bind, Option.bind_some, h2]
  cases acomFinMul v (acomFinPoly v c m.polyAns) m.mulAns with
  | none => exact ⟨ab, ch, rfl⟩
  | some c' => exact ⟨_, ch1, rfl⟩

theorem averImg_init (d : Fp) : averImg d ACom.init false false = AVer.init := rfl

/-- A session of the verifier with arbitrary canonical messages is the image of the committed session. -/
theorem averSession_img (v : AView) (d : Fp) (ops : List AOp) (ho : ∀ o ∈ ops, o.CanonC) (ms : List AMsg)
    (hm : ∀ m ∈ ms, m.CanonM) (fin : AFin) :
    ∃ ab ch, averSession (v.env d) ops ms fin = (acomSession v ops ms fin).map (fun c => averImg d c ab ch) := by
  simp only [averSession, acomSession]
  obtain ⟨ab', ch', h⟩ := averRun_img v d ops ACom.init false false ms hm ho
  rw [averImg_init] at h
  rw [h]
  cases acomRun v ACom.init ops ms with
  | none => exact ⟨false, false, rfl⟩
  | some c => exact averFinalize_img v d c ab' ch' fin

/-! ### the flags -/

/-- The verifier's equation holds for a recorded multiplication check. -/
def AMulOK (e : AEnv) (r : AMulRec) : Prop :=
  mulCheckB e.delta r.gates e.threads r.seeds (e.keyU r.ope) r.ans = some true

/-- The verifier's equation holds for a recorded statement check. -/
def APolyOK (e : AEnv) (r : APolyRec) : Prop :=
  apolyCheckB e.delta r.polys r.seed (e.keyU r.ope) r.ans = some true

/-- The flags are unset exactly when all equations and comparisons hold. -/
structure FlagInv (e : AEnv) (s : AVer) : Prop where
  ab : s.aborted = false ↔ (∀ r ∈ s.mulLog, AMulOK e r) ∧ ∀ x ∈ s.expLog, x.1 = x.2
  ch : s.cheat = false ↔ ∀ r ∈ s.polyLog, APolyOK e r

theorem FlagInv.init (e : AEnv) : FlagInv e AVer.init := by
  constructor <;> simp [AVer.init]

theorem FlagInv.congr {e : AEnv} {s s' : AVer} (h : FlagInv e s) (h1 : s'.aborted = s.aborted)
    (h2 : s'.cheat = s.cheat) (h3 : s'.mulLog = s.mulLog) (h4 : s'.polyLog = s.polyLog) (h5 : s'.expLog = s.expLog) :
    FlagInv e s' := by
  constructor
  · rw [h1, h3, h5]; exact h.ab
  · rw [h2, h4]; exact h.ch

theorem FlagInv.mulCheck {e : AEnv} {s s' : AVer} (h : FlagInv e s) {ans : W × W}
    (hs : averMulCheck e s ans = some s') : FlagInv e s' := by
  simp only [averMulCheck, Option.bind_eq_bind, Option.bind_eq_some_iff, Option.some.injEq] at hs
  obtain ⟨ok, hok, rfl⟩ := hs
  constructor
  · have hr : AMulOK e ⟨s.gates, e.seed s.mulBatches, s.used, ans⟩ ↔ ok = true := by
      simp only [AMulOK, hok, Option.some.injEq]
    simp only [List.forall_mem_append, List.forall_mem_singleton, hr, Bool.or_eq_false_iff, h.ab, Bool.not_eq_false']
    tauto
  · exact h.ch

theorem FlagInv.polyCheck {e : AEnv} {s s' : AVer} (h : FlagInv e s) {ans : W × W}
    (hs : averPolyCheck e s ans = some s') : FlagInv e s' := by
  simp only [averPolyCheck, Option.bind_eq_bind, Option.bind_eq_some_iff, Option.some.injEq] at hs
  obtain ⟨ok, hok, rfl⟩ := hs
  constructor
  · exact h.ab
  · have hr : APolyOK e ⟨s.polys, mod64 (e.polySeed s.polyBatches), s.used, ans⟩ ↔ ok = true := by
      simp only [APolyOK, hok, Option.some.injEq]
    simp only [List.forall_mem_append, List.forall_mem_singleton, hr, Bool.or_eq_false_iff, h.ch, Bool.not_eq_false']

theorem FlagInv.step {e : AEnv} {s s' : AVer} (h : FlagInv e s) {m : AMsg} {op : AOp}
    (hs : averStep e s m op = some s') : FlagInv e s' := by
  cases op with
  | input w => simp only [averStep, Option.some.injEq] at hs; subst hs; exact h.congr rfl rfl rfl rfl rfl
  | pub w => simp only [averStep, Option.some.injEq] at hs; subst hs; exact h.congr rfl rfl rfl rfl rfl
  | add i j =>
    simp only [averStep, Option.bind_eq_bind, Option.bind_eq_some_iff, Option.some.injEq] at hs
    obtain ⟨a, _, b, _, rfl⟩ := hs
    exact h.congr rfl rfl rfl rfl rfl
  | mulc i c =>
    simp only [averStep, Option.bind_eq_bind, Option.bind_eq_some_iff, Option.some.injEq] at hs
    obtain ⟨a, _, rfl⟩ := hs
    exact h.congr rfl rfl rfl rfl rfl
  | reveal i =>
    simp only [averStep, Option.bind_eq_bind, Option.bind_eq_some_iff, Option.some.injEq] at hs
    obtain ⟨a, _, rfl⟩ := hs
    exact h.congr rfl rfl rfl rfl rfl
  | revealZero i =>
    simp only [averStep, Option.bind_eq_bind, Option.bind_eq_some_iff, Option.some.injEq] at hs
    obtain ⟨a, _, rfl⟩ := hs
    exact h.congr rfl rfl rfl rfl rfl
  | revealCheck i x =>
    simp only [averStep, Option.bind_eq_bind, Option.bind_eq_some_iff, Option.some.injEq] at hs
    obtain ⟨a, _, rfl⟩ := hs
    constructor
    · simp only [List.forall_mem_append, List.forall_mem_singleton, Bool.or_eq_false_iff, h.ab, Bool.not_eq_false',
        beq_iff_eq]
      tauto
    · exact h.ch
  | mul i j =>
    simp only [averStep, Option.bind_eq_bind, Option.bind_eq_some_iff] at hs
    obtain ⟨a, _, b, _, r, hr, hs⟩ := hs
    have hr' : FlagInv e r := by
      unfold averMulRoom at hr
      split at hr
      · exact h.mulCheck hr
      · cases hr; exact h
    unfold averMulPush at hs
    split at hs
    · simp only [Option.some.injEq] at hs
      subst hs
      exact hr'.congr rfl rfl rfl rfl rfl
    · simp at hs
  | poly st =>
    simp only [averStep, Option.bind_eq_bind, Option.bind_eq_some_iff] at hs
    obtain ⟨p, _, r, hr, hs⟩ := hs
    have hr' : FlagInv e r := by
      unfold averPolyRoom at hr
      split at hr
      · exact h.polyCheck hr
      · cases hr; exact h
    unfold averPolyPush at hs
    split at hs
    · simp only [Option.some.injEq] at hs
      subst hs
      exact hr'.congr rfl rfl rfl rfl rfl
    · simp at hs

theorem FlagInv.run {e : AEnv} (ops : List AOp) : ∀ {s s' : AVer} {ms : List AMsg}, FlagInv e s →
    averRun e s ops ms = some s' → FlagInv e s' := by
  induction ops with
  | nil =>
    intro s s' ms h hs
    cases ms with
    | nil => simp only [averRun, Option.some.injEq] at hs; subst hs; exact h
    | cons => simp [averRun] at hs
  | cons o os ih =>
    intro s s' ms h hs
    cases ms with
    | nil => simp [averRun] at hs
    | cons m ms =>
      simp only [averRun, Option.bind_eq_bind, Option.bind_eq_some_iff] at hs
      obtain ⟨t, ht, hs⟩ := hs
      exact ih (h.step ht) hs

/-- A session is accepted exactly when all equations and comparisons hold and the digest is the hash of the verifier's own
list. -/
theorem accepted_session {e : AEnv} {ops : List AOp} {ms : List AMsg} {fin : AFin} {s : AVer}
    (hs : averSession e ops ms fin = some s) :
    s.accepted = true ↔ (∀ r ∈ s.mulLog, AMulOK e r) ∧ (∀ x ∈ s.expLog, x.1 = x.2) ∧ (∀ r ∈ s.polyLog, APolyOK e r) ∧
      fin.digest = e.hash s.stored := by
  simp only [averSession, averFinalize, Option.bind_eq_bind, Option.bind_eq_some_iff, Option.some.injEq] at hs
  obtain ⟨s1, h1, s2, h2, s3, h3, rfl⟩ := hs
  have i1 := FlagInv.run ops (FlagInv.init e) h1
  have i2 : FlagInv e s2 := by
    unfold averFinPoly at h2
    split at h2
    · exact i1.polyCheck h2
    · cases h2; exact i1
  have i3 : FlagInv e s3 := by
    unfold averFinMul at h3
    split at h3
    · exact i2.mulCheck h3
    · cases h3; exact i2
  simp only [AVer.accepted, averFinHash, Bool.and_eq_true, Bool.not_eq_true', Bool.or_eq_false_iff,
    i3.ab, i3.ch, Bool.not_eq_false', beq_iff_eq]
  rw [eq_comm (a := fin.digest)]
  tauto

/-! ### honest prover -/

/-- The honest prover's state determined by a committed state. -/
def aprvOf (c : ACom) : APrv where
  wires := c.wires.map lab
  used := c.used
  gates := c.gates.map CGate.lab
  polys := c.polys.map (fun p => apolyA (p.map lab))
  stored := c.opened.map (fun o => toW o.1.2)
  outs := c.outs.map toW
  mulBatches := c.mulBatches
  polyBatches := c.polyBatches

/-- All statements of a committed state, in order. -/
def ACom.stmts (c : ACom) : List (APoly (Fp × Fp)) := c.polyLog.flatMap ComAPoly.polys ++ c.polys

/-- All multiplications of a committed state, in order. -/
def ACom.allGates (c : ACom) : List CGate := c.mulLog.flatMap ComMul.gates ++ c.gates

/-- What holds of committed states produced by the honest prover. -/
structure AHon (v : AView) (c : ACom) : Prop where
  opened : ∀ o ∈ c.opened, o.2 = o.1.1 ∨ o.2 = 0
  gates : ∀ g ∈ c.allGates, g.Correct
  mulLog : ∀ r ∈ c.mulLog, ∃ ts, mulTasks r.gates.length v.threads = some ts ∧
    r.ans = (toW (mulAns r.gates r.seeds ts (v.cor r.ope)).1, toW (mulAns r.gates r.seeds ts (v.cor r.ope)).2)
  polyLog : ∀ r ∈ c.polyLog, r.polys ≠ [] ∧
    r.ans = (toW (polyAns r.polys r.seed (v.cor r.ope)).1, toW (polyAns r.polys r.seed (v.cor r.ope)).2)
  canon : ∀ p ∈ c.stmts, p.CanonC

theorem AHon.init (v : AView) : AHon v ACom.init := by
  constructor <;> simp [ACom.init, ACom.allGates, ACom.stmts]

/-- The plain values behind a committed state: wires and revealed values; `cl` the claims. -/
def ACom.vals (c : ACom) : List Fp := c.wires.map Prod.fst

/-- Link between a committed state of the honest prover and the plain program. -/
structure APlainOf (c : ACom) (pl : APlain) : Prop where
  wires : pl.wires = c.wires.map Prod.fst
  outs : pl.outs = c.outs
  claims : (∀ x ∈ pl.claims, x = 0) → (∀ o ∈ c.opened, o.2 = o.1.1) ∧ (∀ p ∈ c.stmts, p.value = 0) ∧
    ∀ x ∈ c.exps, x.1 = toW x.2

theorem APlainOf.init : APlainOf ACom.init ⟨[], [], []⟩ := by
  constructor <;> simp [ACom.init, ACom.stmts]

theorem APlainOf.mulCheck {v : AView} {c : ACom} {pl : APlain} (h : APlainOf c pl) (ans : W × W) :
    APlainOf (acomMulCheck v c ans) pl := ⟨h.wires, h.outs, h.claims⟩

theorem acomPolyCheck_stmts (v : AView) (c : ACom) (ans : W × W) : (acomPolyCheck v c ans).stmts = c.stmts := by
  simp [ACom.stmts, acomPolyCheck]

theorem acomMulCheck_gates (v : AView) (c : ACom) (ans : W × W) : (acomMulCheck v c ans).allGates = c.allGates := by
  simp [ACom.allGates, acomMulCheck]

theorem APlainOf.polyCheck {v : AView} {c : ACom} {pl : APlain} (h : APlainOf c pl) (ans : W × W) :
    APlainOf (acomPolyCheck v c ans) pl :=
  ⟨h.wires, h.outs, fun hc => ⟨(h.claims hc).1, by rw [acomPolyCheck_stmts]; exact (h.claims hc).2.1, (h.claims hc).2.2⟩⟩

theorem aprvMulCheck_com (v : AView) (d : Fp) {c : ACom} {q : APrv × (W × W)}
    (h : aprvMulCheck (v.env d) (aprvOf c) = some q) (hon : AHon v c) :
    (mulTasks c.gates.length v.threads).isSome ∧ q.1 = aprvOf (acomMulCheck v c q.2) ∧
      AHon v (acomMulCheck v c q.2) := by
  have e : mulCheckA (aprvOf c).gates (v.env d).threads ((v.env d).seed (aprvOf c).mulBatches)
      ((v.env d).cor (aprvOf c).used) =
      mulCheckA (c.gates.map CGate.lab) v.threads (v.seed c.mulBatches) (lab (v.cor c.used)) := rfl
  simp only [aprvMulCheck, e, mulCheckA_lab, Option.bind_eq_bind, Option.bind_eq_some_iff, Option.some.injEq,
    Option.map_eq_some_iff] at h
  obtain ⟨a, ⟨ts, hts, rfl⟩, rfl⟩ := h
  refine ⟨by rw [hts]; rfl, rfl, ?_⟩
  constructor
  · exact hon.opened
  · rw [acomMulCheck_gates]; exact hon.gates
  · intro r hr
    simp only [acomMulCheck, List.mem_append, List.mem_singleton] at hr
    rcases hr with hr | rfl
    · exact hon.mulLog r hr
    · exact ⟨ts, hts, rfl⟩
  · exact hon.polyLog
  · exact hon.canon

theorem aprvPolyCheck_com (v : AView) (d : Fp) {c : ACom} (hp : c.polys ≠ []) (hon : AHon v c) :
    ∃ ans, aprvPolyCheck (v.env d) (aprvOf c) = some (aprvOf (acomPolyCheck v c ans), ans) ∧
      AHon v (acomPolyCheck v c ans) := by
  have hcan : ∀ p ∈ c.polys, p.CanonC := fun p hp => hon.canon p (by simp [ACom.stmts, hp])
  have e : apolyCheckA (aprvOf c).polys (mod64 ((v.env d).polySeed (aprvOf c).polyBatches))
      ((v.env d).cor (aprvOf c).used) =
      apolyCheckA (c.polys.map (fun p => apolyA (p.map lab))) (toW (fp (v.polySeed c.polyBatches)))
        (lab (v.cor c.used)) := by
    rw [mod64_eq_toW]; rfl
  simp only [aprvPolyCheck, e, apolyCheckA_lab _ hcan hp, Option.bind_eq_bind, Option.bind_some]
  refine ⟨_, rfl, ?_⟩
  constructor
  · exact hon.opened
  · exact hon.gates
  · exact hon.mulLog
  · intro r hr
    simp only [acomPolyCheck, List.mem_append, List.mem_singleton] at hr
    rcases hr with hr | rfl
    · exact hon.polyLog r hr
    · exact ⟨hp, rfl⟩
  · rw [acomPolyCheck_stmts]; exact hon.canon

theorem aprvStep_com (v : AView) (d : Fp) {c : ACom} {op : AOp} (ho : op.CanonC) {q : APrv × AMsg}
    (h : aprvStep (v.env d) (aprvOf c) op = some q) (hon : AHon v c) {pl : APlain} (hpl : APlainOf c pl) :
    ∃ c', acomStep v c q.2 op = some c' ∧ q.1 = aprvOf c' ∧ AHon v c' ∧ q.2.CanonM ∧
      ∃ pl', aplainStep pl op = some pl' ∧ APlainOf c' pl' := by
  have hw : (aprvOf c).wires = c.wires.map lab := rfl
  have hpw : ∀ i : Nat, pl.wires[i]? = (c.wires[i]?).map Prod.fst := by
    intro i; rw [hpl.wires, List.getElem?_map]
  cases op with
  | input w =>
    have hcw : Canon w := ho
    have e := feedA_lab (v.cor c.used) (fp w)
    rw [toW_fp hcw] at e
    have e' : feedA ((v.env d).cor (aprvOf c).used) w = (lab (fp w, v.mac c.used), toW (v.u c.used - fp w)) := e
    simp only [aprvStep, Option.some.injEq, e'] at h
    subst h
    refine ⟨_, rfl, ?_, ⟨hon.opened, hon.gates, hon.mulLog, hon.polyLog, hon.canon⟩, canon_toW _, _, rfl, ?_⟩
    · simp [aprvOf]
    · refine ⟨?_, hpl.outs, hpl.claims⟩
      simp [hpl.wires]
  | pub w =>
    have hcw : Canon w := ho
    have e : pubA (v.env d).pubMac w = lab (fp w, v.pubMac) := by
      have := pubA_lab v.pubMac (fp w)
      rw [toW_fp hcw] at this
      exact this
    simp only [aprvStep, Option.some.injEq, e] at h
    subst h
    refine ⟨_, rfl, ?_, ⟨hon.opened, hon.gates, hon.mulLog, hon.polyLog, hon.canon⟩, canon_zero, _, rfl, ?_⟩
    · simp [aprvOf]
    · refine ⟨?_, hpl.outs, hpl.claims⟩
      simp [hpl.wires]
  | add i j =>
    simp only [aprvStep, hw, List.getElem?_map, Option.bind_eq_bind, Option.bind_eq_some_iff, Option.some.injEq,
      Option.map_eq_some_iff] at h
    obtain ⟨_, ⟨a, ha, rfl⟩, _, ⟨b, hb, rfl⟩, rfl⟩ := h
    refine ⟨_, by simp only [acomStep, ha, hb, Option.bind_eq_bind, Option.bind_some]; rfl, ?_,
      ?_, canon_zero, _, by
        simp only [aplainStep, hpw, ha, hb, Option.map_some, Option.bind_eq_bind, Option.bind_some]; rfl, ?_⟩
    · simp [aprvOf, addGateA_lab]
    · exact ⟨hon.opened, hon.gates, hon.mulLog, hon.polyLog, hon.canon⟩
    · refine ⟨?_, hpl.outs, hpl.claims⟩
      simp [hpl.wires]
  | mulc i k =>
    simp only [aprvStep, hw, List.getElem?_map, Option.bind_eq_bind, Option.bind_eq_some_iff, Option.some.injEq,
      Option.map_eq_some_iff] at h
    obtain ⟨_, ⟨a, ha, rfl⟩, rfl⟩ := h
    have e := mulConstA_lab a (fp k)
    rw [toW_fp (show Canon k from ho)] at e
    refine ⟨_, by simp only [acomStep, ha, Option.bind_eq_bind, Option.bind_some]; rfl, ?_,
      ?_, canon_zero, _, by
        simp only [aplainStep, hpw, ha, Option.map_some, Option.bind_eq_bind, Option.bind_some]; rfl, ?_⟩
    · simp [aprvOf, e]
    · exact ⟨hon.opened, hon.gates, hon.mulLog, hon.polyLog, hon.canon⟩
    · refine ⟨?_, hpl.outs, hpl.claims⟩
      simp [hpl.wires]
  | reveal i =>
    simp only [aprvStep, hw, List.getElem?_map, Option.bind_eq_bind, Option.bind_eq_some_iff, Option.some.injEq,
      Option.map_eq_some_iff] at h
    obtain ⟨_, ⟨a, ha, rfl⟩, rfl⟩ := h
    simp only [high64_lab, low64_lab]
    refine ⟨_, by simp only [acomStep, ha, Option.bind_eq_bind, Option.bind_some, fp_toW]; rfl, ?_,
      ?_, canon_toW _, _, by
        simp only [aplainStep, hpw, ha, Option.map_some, Option.bind_eq_bind, Option.bind_some]; rfl, ?_⟩
    · simp [aprvOf]
    · refine ⟨?_, hon.gates, hon.mulLog, hon.polyLog, hon.canon⟩
      intro o h
      simp only [List.mem_append, List.mem_singleton] at h
      rcases h with h | rfl
      · exact hon.opened o h
      · exact Or.inl rfl
    · refine ⟨hpl.wires, by simp [hpl.outs], ?_⟩
      intro hc
      refine ⟨?_, (hpl.claims hc).2⟩
      intro o h
      simp only [List.mem_append, List.mem_singleton] at h
      rcases h with h | rfl
      · exact (hpl.claims hc).1 o h
      · rfl
  | revealCheck i x =>
    simp only [aprvStep, hw, List.getElem?_map, Option.bind_eq_bind, Option.bind_eq_some_iff, Option.some.injEq,
      Option.map_eq_some_iff] at h
    obtain ⟨_, ⟨a, ha, rfl⟩, rfl⟩ := h
    simp only [high64_lab, low64_lab]
    refine ⟨_, by simp only [acomStep, ha, Option.bind_eq_bind, Option.bind_some, fp_toW]; rfl, ?_,
      ?_, canon_toW _, _, by
        simp only [aplainStep, hpw, ha, Option.map_some, Option.bind_eq_bind, Option.bind_some]; rfl, ?_⟩
    · simp [aprvOf]
    · refine ⟨?_, hon.gates, hon.mulLog, hon.polyLog, hon.canon⟩
      intro o h
      simp only [List.mem_append, List.mem_singleton] at h
      rcases h with h | rfl
      · exact hon.opened o h
      · exact Or.inl rfl
    · refine ⟨hpl.wires, hpl.outs, ?_⟩
      intro hc
      simp only [List.forall_mem_append, List.forall_mem_singleton] at hc
      obtain ⟨c1, c2, c3⟩ := hpl.claims hc.1
      refine ⟨?_, c2, ?_⟩
      · simp only [List.forall_mem_append, List.forall_mem_singleton]
        exact ⟨c1, trivial⟩
      · simp only [List.forall_mem_append, List.forall_mem_singleton]
        refine ⟨c3, ?_⟩
        rw [sub_eq_zero.1 hc.2, toW_fp (show Canon x from ho)]
  | revealZero i =>
    simp only [aprvStep, hw, List.getElem?_map, Option.bind_eq_bind, Option.bind_eq_some_iff, Option.some.injEq,
      Option.map_eq_some_iff] at h
    obtain ⟨_, ⟨a, ha, rfl⟩, rfl⟩ := h
    simp only [low64_lab]
    refine ⟨_, by simp only [acomStep, ha, Option.bind_eq_bind, Option.bind_some]; rfl, ?_,
      ?_, canon_zero, _, by
        simp only [aplainStep, hpw, ha, Option.map_some, Option.bind_eq_bind, Option.bind_some]; rfl, ?_⟩
    · simp [aprvOf]
    · refine ⟨?_, hon.gates, hon.mulLog, hon.polyLog, hon.canon⟩
      intro o h
      simp only [List.mem_append, List.mem_singleton] at h
      rcases h with h | rfl
      · exact hon.opened o h
      · exact Or.inr rfl
    · refine ⟨hpl.wires, hpl.outs, ?_⟩
      intro hc
      simp only [List.forall_mem_append, List.forall_mem_singleton] at hc
      obtain ⟨c1, c2, c3⟩ := hpl.claims hc.1
      refine ⟨?_, c2, c3⟩
      simp only [List.forall_mem_append, List.forall_mem_singleton]
      exact ⟨c1, hc.2.symm⟩
  | mul i j =>
    simp only [aprvStep, hw, List.getElem?_map, Option.bind_eq_bind, Option.bind_eq_some_iff, Option.some.injEq,
      Option.map_eq_some_iff] at h
    obtain ⟨_, ⟨a, ha, rfl⟩, _, ⟨b, hb, rfl⟩, r, hr, q', hq, rfl⟩ := h
    have hroom : ∃ c1, acomMulRoom v c r.2 = some c1 ∧ r.1 = aprvOf c1 ∧ AHon v c1 ∧ APlainOf c1 pl := by
      unfold aprvMulRoom at hr
      unfold acomMulRoom
      have e1 : (v.env d).checkSz = v.checkSz := rfl
      have e2 : (aprvOf c).gates.length = c.gates.length := by simp [aprvOf]
      rw [e1, e2] at hr
      split at hr
      · rename_i hfull
        obtain ⟨k1, k2, k3⟩ := aprvMulCheck_com v d hr hon
        exact ⟨_, by rw [if_pos hfull, if_pos k1], k2, k3, hpl.mulCheck _⟩
      · rename_i hfull
        simp only [Option.some.injEq] at hr
        subst hr
        exact ⟨c, by rw [if_neg hfull], rfl, hon, hpl⟩
    obtain ⟨c1, k1, k2, k3, k4⟩ := hroom
    unfold aprvMulPush at hq
    have e1 : (v.env d).checkSz = v.checkSz := rfl
    have e2 : (aprvOf c1).gates.length = c1.gates.length := by simp [aprvOf]
    have e3 : mulSend ((v.env d).cor (aprvOf c1).used) (lab a) (lab b) =
      (lab (a.1 * b.1, v.mac c1.used), toW (v.u c1.used - a.1 * b.1)) := mulSend_lab (v.cor c1.used) a b
    rw [k2, e1, e2, e3] at hq
    split at hq
    · rename_i hlt
      simp only [Option.some.injEq] at hq
      subst hq
      refine ⟨_, by
        simp only [acomStep, ha, hb, Option.bind_eq_bind, Option.bind_some, k1, acomMulPush, if_pos hlt, fp_toW,
          sub_sub_cancel]; rfl,
        ?_, ?_, canon_toW _, _, by
        simp only [aplainStep, hpw, ha, hb, Option.map_some, Option.bind_eq_bind, Option.bind_some]; rfl, ?_⟩
      · simp [aprvOf, CGate.lab]
      · refine ⟨k3.opened, ?_, k3.mulLog, k3.polyLog, k3.canon⟩
        intro g hg
        simp only [ACom.allGates, ← List.append_assoc, List.mem_append, List.mem_singleton] at hg
        rcases hg with hg | rfl
        · exact k3.gates g (by simpa [ACom.allGates] using hg)
        · rfl
      · refine ⟨?_, k4.outs, k4.claims⟩
        simp [k4.wires]
    · simp at hq
  | poly st =>
    simp only [aprvStep, hw, alookup_map, Option.bind_eq_bind, Option.bind_eq_some_iff, Option.some.injEq,
      Option.map_eq_some_iff] at h
    obtain ⟨_, ⟨p, hp, rfl⟩, r, hr, q', hq, rfl⟩ := h
    have hroom : ∃ c1, acomPolyRoom v c r.2 = c1 ∧ r.1 = aprvOf c1 ∧ AHon v c1 ∧ APlainOf c1 pl := by
      unfold aprvPolyRoom at hr
      unfold acomPolyRoom
      have hpp : ((aprvOf c).polys.length ≥ (v.env d).polySz ∧ (aprvOf c).polys ≠ []) ↔
        (c.polys.length ≥ v.polySz ∧ c.polys ≠ []) := by simp [aprvOf, AView.env]
      by_cases hf : c.polys.length ≥ v.polySz ∧ c.polys ≠ []
      · rw [if_pos (hpp.2 hf)] at hr
        obtain ⟨ans, m1, m2⟩ := aprvPolyCheck_com v d hf.2 hon
        rw [m1, Option.some.injEq] at hr
        subst hr
        exact ⟨_, by rw [if_pos hf], rfl, m2, hpl.polyCheck _⟩
      · rw [if_neg (fun h' => hf (hpp.1 h')), Option.some.injEq] at hr
        subst hr
        exact ⟨c, by rw [if_neg hf], rfl, hon, hpl⟩
    obtain ⟨c1, k1, k2, k3, k4⟩ := hroom
    unfold aprvPolyPush at hq
    have e1 : (v.env d).polySz = v.polySz := rfl
    have e2 : (aprvOf c1).polys.length = c1.polys.length := by simp [aprvOf]
    rw [k2, e1, e2] at hq
    split at hq
    · rename_i hlt
      simp only [Option.some.injEq] at hq
      subst hq
      have hpe : st.lookup pl.wires = some (p.map Prod.fst) := by rw [hpl.wires, alookup_map, hp]; rfl
      refine ⟨_, by
        simp only [acomStep, hp, Option.bind_eq_bind, Option.bind_some, k1, acomPolyPush, if_pos hlt]; rfl,
        ?_, ?_, canon_zero, _, by
        simp only [aplainStep, hpe, Option.bind_eq_bind, Option.bind_some]; rfl, ?_⟩
      · simp [aprvOf]
      · refine ⟨k3.opened, k3.gates, k3.mulLog, k3.polyLog, ?_⟩
        intro x hx
        simp only [ACom.stmts, ← List.append_assoc, List.mem_append, List.mem_singleton] at hx
        rcases hx with hx | rfl
        · exact k3.canon x (by simpa [ACom.stmts] using hx)
        · exact alookup_canon hp ho
      · refine ⟨k4.wires, k4.outs, ?_⟩
        intro hc
        simp only [List.forall_mem_append, List.forall_mem_singleton] at hc
        obtain ⟨c1', c2, c3⟩ := k4.claims hc.1
        refine ⟨c1', ?_, c3⟩
        intro x hx
        simp only [ACom.stmts, ← List.append_assoc, List.mem_append, List.mem_singleton] at hx
        rcases hx with hx | rfl
        · exact c2 x (by simpa [ACom.stmts] using hx)
        · exact hc.2
    · simp at hq

theorem aprvRun_com (v : AView) (d : Fp) (ops : List AOp) : ∀ {c : ACom} {q : APrv × List AMsg} {pl : APlain},
    (∀ o ∈ ops, o.CanonC) → aprvRun (v.env d) (aprvOf c) ops = some q → AHon v c → APlainOf c pl →
    ∃ c', acomRun v c ops q.2 = some c' ∧ q.1 = aprvOf c' ∧ AHon v c' ∧ (∀ m ∈ q.2, m.CanonM) ∧
      ∃ pl', ops.foldlM aplainStep pl = some pl' ∧ APlainOf c' pl' := by
  induction ops with
  | nil =>
    intro c q pl _ h hon hpl
    simp only [aprvRun, Option.some.injEq] at h
    subst h
    exact ⟨c, rfl, rfl, hon, by simp, pl, rfl, hpl⟩
  | cons o os ih =>
    intro c q pl ho h hon hpl
    simp only [aprvRun, Option.bind_eq_bind, Option.bind_eq_some_iff, Option.some.injEq] at h
    obtain ⟨r, hr, t, ht, rfl⟩ := h
    obtain ⟨c1, k1, k2, k3, k5, pl1, k4, k6⟩ := aprvStep_com v d (ho o (by simp)) hr hon hpl
    rw [k2] at ht
    obtain ⟨c2, l1, l2, l3, l5, pl2, l4, l6⟩ := ih (fun x hx => ho x (by simp [hx])) ht k3 k6
    refine ⟨c2, ?_, l2, l3, ?_, pl2, ?_, l6⟩
    · simp only [acomRun, k1, Option.bind_eq_bind, Option.bind_some, l1]
    · intro m hm
      simp only [List.mem_cons] at hm
      rcases hm with rfl | hm
      · exact k5
      · exact l5 m hm
    · simp only [List.foldlM_cons, k4, Option.bind_eq_bind, Option.bind_some, l4]

theorem aprvSession_com (v : AView) (d : Fp) {ops : List AOp} (ho : ∀ o ∈ ops, o.CanonC)
    {q : APrv × List AMsg × AFin} (h : aprvSession (v.env d) ops = some q) :
    ∃ c, acomSession v ops q.2.1 q.2.2 = some c ∧ q.1 = aprvOf c ∧ AHon v c ∧ (∀ m ∈ q.2.1, m.CanonM) ∧
      (∃ pl, aplainRun ops = some pl ∧ APlainOf c pl) ∧ q.2.2.digest = v.hash (c.opened.map (fun o => toW o.1.2)) := by
  simp only [aprvSession, Option.bind_eq_bind, Option.bind_eq_some_iff, Option.some.injEq] at h
  obtain ⟨r, hr, t, ht, rfl⟩ := h
  obtain ⟨c1, k1, k2, k3, k5, pl, k4, k6⟩ := aprvRun_com v d ops (c := ACom.init) ho hr (AHon.init v) APlainOf.init
  simp only [aprvFinalize, Option.bind_eq_bind, Option.bind_eq_some_iff, Option.some.injEq] at ht
  obtain ⟨p, hp, u, hu, rfl⟩ := ht
  rw [k2] at hp
  have hpoly : ∃ c2, acomFinPoly v c1 p.2 = c2 ∧ p.1 = aprvOf c2 ∧ AHon v c2 ∧ APlainOf c2 pl := by
    unfold aprvFinPoly at hp
    unfold acomFinPoly
    have hpp : (aprvOf c1).polys ≠ [] ↔ c1.polys ≠ [] := by simp [aprvOf]
    by_cases hf : c1.polys ≠ []
    · rw [if_pos (hpp.2 hf)] at hp
      obtain ⟨ans, m1, m2⟩ := aprvPolyCheck_com v d hf k3
      rw [m1, Option.some.injEq] at hp
      subst hp
      exact ⟨_, by rw [if_pos hf], rfl, m2, k6.polyCheck _⟩
    · rw [if_neg (fun h' => hf (hpp.1 h')), Option.some.injEq] at hp
      subst hp
      exact ⟨c1, by rw [if_neg hf], rfl, k3, k6⟩
  obtain ⟨c2, l1, l2, l3, l4⟩ := hpoly
  rw [l2] at hu
  have hmul : ∃ c3, acomFinMul v c2 u.2 = some c3 ∧ u.1 = aprvOf c3 ∧ AHon v c3 ∧ APlainOf c3 pl := by
    unfold aprvFinMul at hu
    unfold acomFinMul
    have e2 : (aprvOf c2).gates ≠ [] ↔ c2.gates ≠ [] := by simp [aprvOf]
    by_cases hf : c2.gates ≠ []
    · rw [if_pos (e2.2 hf)] at hu
      obtain ⟨m1, m2, m3⟩ := aprvMulCheck_com v d hu l3
      exact ⟨_, by rw [if_pos hf, if_pos m1], m2, m3, l4.mulCheck _⟩
    · rw [if_neg (fun h' => hf (e2.1 h')), Option.some.injEq] at hu
      subst hu
      exact ⟨c2, by rw [if_neg hf], rfl, l3, l4⟩
  obtain ⟨c3, n1, n2, n3, n4⟩ := hmul
  refine ⟨c3, ?_, n2, n3, k5, ⟨pl, k4, n4⟩, ?_⟩
  · simp only [acomSession, k1, Option.bind_eq_bind, Option.bind_some, acomFinalize, l1, n1]
  · simp only [n2]
    rfl

end EmpZk
