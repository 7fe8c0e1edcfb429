/-
Invariants of the session state machines.
-/
import Verif.Lemmas.BoolAlg

namespace EmpZk

section
variable {F : Type} [Field F] [BlockField F]

/-! ### lookups -/

theorem lookupPairs_map {α β : Type} (f : α → β) (w : List α) (l : List (Nat × Nat)) :
    lookupPairs (w.map f) l = (lookupPairs w l).map (fun r => r.map (fun t => (f t.1, f t.2))) := by
  induction l with
  | nil => rfl
  | cons p l ih =>
    obtain ⟨i, j⟩ := p
    simp only [lookupPairs, ih, List.getElem?_map]
    cases w[i]? with
    | none => rfl
    | some a =>
      cases w[j]? with
      | none => rfl
      | some b =>
        cases lookupPairs w l with
        | none => rfl
        | some r => rfl

theorem lookupTerms_map {κ α β : Type} (f : α → β) (w : List α) (l : List (κ × Nat × Nat)) :
    lookupTerms (w.map f) l = (lookupTerms w l).map (fun r => r.map (fun t => (t.1, f t.2.1, f t.2.2))) := by
  induction l with
  | nil => rfl
  | cons p l ih =>
    obtain ⟨c, i, j⟩ := p
    simp only [lookupTerms, ih, List.getElem?_map]
    cases w[i]? with
    | none => rfl
    | some a =>
      cases w[j]? with
      | none => rfl
      | some b =>
        cases lookupTerms w l with
        | none => rfl
        | some r => rfl

theorem lookup_map {α β : Type} (f : α → β) (w : List α) (s : PolyStmt Nat) :
    s.lookup (w.map f) = (s.lookup w).map (PolyStmt.map f) := by
  cases s with
  | deg2 c0 terms =>
    simp only [PolyStmt.lookup, lookupTerms_map]
    cases lookupTerms w terms <;> rfl
  | inner c xy =>
    simp only [PolyStmt.lookup, lookupPairs_map]
    cases lookupPairs w xy <;> rfl
  | innerEq xy rs =>
    simp only [PolyStmt.lookup, lookupPairs_map]
    cases lookupPairs w xy <;> cases lookupPairs w rs <;> rfl
  | innerEqOne xy rs rr ss =>
    simp only [PolyStmt.lookup, lookupPairs_map, List.getElem?_map]
    cases lookupPairs w xy <;> cases lookupPairs w rs <;> cases w[rr]? <;> cases w[ss]? <;> rfl
  | multiOne xy r s =>
    simp only [PolyStmt.lookup, lookupPairs_map, List.getElem?_map]
    cases lookupPairs w xy <;> cases w[r]? <;> cases w[s]? <;> rfl

/-! ### the verifier's state is the image of the committed state -/

/-- The verifier's state determined by a committed state and `delta`, apart from the cheat record. -/
def verImg (delta : F) (c : ComSt F) (ch : List Cheat) : VerSt F where
  wires := c.wires.map (keyOf delta)
  used := c.used
  gates := c.gates.map (Gate.key delta)
  polys := c.polys.map (fun s => stmtVer delta (s.map (keyOf delta)))
  transcript := c.transcript
  digest := c.opened.map (fun o => openVer delta (keyOf delta o.1) o.2)
  outs := c.opened.map Prod.snd
  andBatches := c.andBatches
  polyBatches := c.polyBatches
  cheats := ch
  andLog := c.andLog.map (fun r => ⟨r.gates.map (Gate.key delta), r.seeds, r.ope, r.ans⟩)
  polyLog := c.polyLog.map (fun r =>
    ⟨r.polys.map (fun s => stmtVer delta (s.map (keyOf delta))), r.seed, r.ope, r.ans⟩)

variable [DecidableEq F]

theorem verAndCheck_img (v : BView F) (delta : F) (c : ComSt F) (ch : List Cheat) (ans : F × F) :
    ∃ ch', verAndCheck (v.env delta) (verImg delta c ch) ans =
      if (splitTasks c.gates.length v.threads).isSome then some (verImg delta (comAndCheck v c ans) ch') else none := by
  have h := andCheckVer_keyOf delta c.gates v.threads (v.chal c.andBatches c.transcript)
    (fun i => v.mac (c.used + i)) ans
  simp only [verAndCheck, verImg, BView.env, comAndCheck, h]
  cases hs : splitTasks c.gates.length v.threads with
  | none => exact ⟨[], by simp⟩
  | some tasks =>
    simp only [Option.map_some, Option.isSome_some, if_true]
    exact ⟨_, by simp only [List.map_append, List.map_cons, List.map_nil]; rfl⟩

theorem verAndRoom_img (v : BView F) (delta : F) (c : ComSt F) (ch : List Cheat) (ans : F × F) :
    ∃ ch', verAndRoom (v.env delta) (verImg delta c ch) ans =
      (comAndRoom v c ans).map (fun c' => verImg delta c' ch') := by
  obtain ⟨ch', h⟩ := verAndCheck_img v delta c ch ans
  have hg : (verImg delta c ch).gates.length = c.gates.length := by simp [verImg]
  have e1 : (v.env delta).checkSz = v.checkSz := rfl
  rw [verAndRoom, comAndRoom, hg, e1]
  split
  · refine ⟨ch', ?_⟩
    rw [h]
    split <;> rfl
  · exact ⟨ch, rfl⟩

omit [DecidableEq F] in
theorem verAndPush_img (v : BView F) {delta : F} (hd : lsb delta = true) (c : ComSt F) (ch : List Cheat) (a b : F)
    (d : Bool) :
    verAndPush (v.env delta) (verImg delta c ch) (keyOf delta a) (keyOf delta b) d =
      (comAndPush v c a b d).map (fun c' => verImg delta c' ch) := by
  have hg : (verImg delta c ch).gates.length = c.gates.length := by simp [verImg]
  have e1 : (v.env delta).checkSz = v.checkSz := rfl
  rw [verAndPush, comAndPush, hg, e1]
  split
  · simp only [Option.map_some, verImg, BView.env, List.map_append, List.map_cons, List.map_nil, Gate.key]
    rw [andVer_keyOf hd]
  · rfl

theorem verPolyCheck_img (v : BView F) (delta : F) (c : ComSt F) (ch : List Cheat) (ans : F × F) :
    ∃ ch', verPolyCheck (v.env delta) (verImg delta c ch) ans = verImg delta (comPolyCheck v c ans) ch' := by
  simp only [verPolyCheck, verImg, BView.env, comPolyCheck, List.map_append, List.map_cons, List.map_nil]
  exact ⟨_, rfl⟩

theorem verPolyRoom_img (v : BView F) (delta : F) (c : ComSt F) (ch : List Cheat) (ans : F × F) :
    ∃ ch', verPolyRoom (v.env delta) (verImg delta c ch) ans = verImg delta (comPolyRoom v c ans) ch' := by
  have hp : ((verImg delta c ch).polys.length ≥ (v.env delta).polySz ∧ (verImg delta c ch).polys ≠ []) ↔
      (c.polys.length ≥ v.polySz ∧ c.polys ≠ []) := by
    simp [verImg, BView.env]
  rw [verPolyRoom, comPolyRoom]
  by_cases h : c.polys.length ≥ v.polySz ∧ c.polys ≠ []
  · rw [if_pos h, if_pos (hp.2 h)]
    exact verPolyCheck_img v delta c ch ans
  · rw [if_neg h, if_neg (fun h' => h (hp.1 h'))]
    exact ⟨ch, rfl⟩

omit [DecidableEq F] in
theorem verPolyPush_img (v : BView F) (delta : F) (c : ComSt F) (ch : List Cheat) (p : PolyStmt F) :
    verPolyPush (v.env delta) (verImg delta c ch) (p.map (keyOf delta)) =
      (comPolyPush v c p).map (fun c' => verImg delta c' ch) := by
  have hg : (verImg delta c ch).polys.length = c.polys.length := by simp [verImg]
  have e1 : (v.env delta).polySz = v.polySz := rfl
  rw [verPolyPush, comPolyPush, hg, e1]
  split
  · simp only [Option.map_some, verImg, BView.env, List.map_append, List.map_cons, List.map_nil]
  · rfl

theorem verStep_img (v : BView F) {delta : F} (hd : lsb delta = true) (c : ComSt F) (ch : List Cheat) (m : BMsg F)
    (op : BOp) :
    ∃ ch', verStep (v.env delta) (verImg delta c ch) m op = (comStep v c m op).map (fun c' => verImg delta c' ch') := by
  cases op with
  | input b =>
    refine ⟨ch, ?_⟩
    simp only [verStep, comStep, Option.map_some, verImg, List.map_append, List.map_cons, List.map_nil]
    rw [← inputVer_keyOf hd]
    rfl
  | pub b =>
    refine ⟨ch, ?_⟩
    simp only [verStep, comStep, Option.map_some, verImg, List.map_append, List.map_cons, List.map_nil]
    rw [← pubVer_keyOf]
    rfl
  | xor i j =>
    refine ⟨ch, ?_⟩
    simp only [verStep, comStep, verImg, List.getElem?_map]
    cases c.wires[i]? with
    | none => rfl
    | some a =>
      cases c.wires[j]? with
      | none => rfl
      | some b =>
        simp only [Option.map_some, Option.bind_eq_bind, Option.bind_some, List.map_append, List.map_cons, List.map_nil,
          xor_keyOf, verImg]
  | not i =>
    refine ⟨ch, ?_⟩
    simp only [verStep, comStep, verImg, List.getElem?_map]
    cases c.wires[i]? with
    | none => rfl
    | some a =>
      simp only [Option.map_some, Option.bind_eq_bind, Option.bind_some, List.map_append, List.map_cons, List.map_nil,
          verImg, BView.env, notVer_keyOf]
  | reveal i =>
    refine ⟨ch, ?_⟩
    simp only [verStep, comStep, verImg, List.getElem?_map]
    cases c.wires[i]? with
    | none => rfl
    | some a =>
      simp only [Option.map_some, Option.bind_eq_bind, Option.bind_some, List.map_append, List.map_cons, List.map_nil,
          verImg, BView.env]
  | and i j =>
    have hw : (verImg delta c ch).wires = c.wires.map (keyOf delta) := rfl
    simp only [verStep, comStep, hw, List.getElem?_map]
    cases c.wires[i]? with
    | none => exact ⟨[], rfl⟩
    | some a =>
      cases c.wires[j]? with
      | none => exact ⟨[], rfl⟩
      | some b =>
        obtain ⟨ch', hch⟩ := verAndRoom_img v delta c ch m.ans
        refine ⟨ch', ?_⟩
        simp only [Option.map_some, Option.bind_eq_bind, Option.bind_some, hch]
        cases comAndRoom v c m.ans with
        | none => rfl
        | some c' => exact verAndPush_img v hd c' ch' a b m.bit
  | poly st =>
    have hw : (verImg delta c ch).wires = c.wires.map (keyOf delta) := rfl
    simp only [verStep, comStep, hw, lookup_map]
    cases st.lookup c.wires with
    | none => exact ⟨[], rfl⟩
    | some p =>
      obtain ⟨ch', hch⟩ := verPolyRoom_img v delta c ch m.ans
      refine ⟨ch', ?_⟩
      simp only [Option.map_some, Option.bind_eq_bind, Option.bind_some, hch]
      exact verPolyPush_img v delta _ ch' p

theorem verRun_img (v : BView F) {delta : F} (hd : lsb delta = true) (ops : List BOp) :
    ∀ (c : ComSt F) (ch : List Cheat) (ms : List (BMsg F)),
    ∃ ch', verRun (v.env delta) (verImg delta c ch) ops ms = (comRun v c ops ms).map (fun c' => verImg delta c' ch') := by
  induction ops with
  | nil =>
    intro c ch ms
    cases ms with
    | nil => exact ⟨ch, rfl⟩
    | cons m ms => exact ⟨ch, rfl⟩
  | cons o os ih =>
    intro c ch ms
    cases ms with
    | nil => exact ⟨ch, rfl⟩
    | cons m ms =>
      simp only [verRun, comRun]
      obtain ⟨ch', h⟩ := verStep_img v hd c ch m o
      rw [h]
      cases comStep v c m o with
      | none => exact ⟨ch, rfl⟩
      | some c' => exact ih c' ch' ms

theorem verFinalize_img (v : BView F) {delta : F} (c : ComSt F) (ch : List Cheat) (m : BFin F) :
    ∃ ch', verFinalize (v.env delta) (verImg delta c ch) m =
      (comFinalize v c m).map (fun c' => verImg delta c' ch') := by
  have h1 : ∃ ch', verFinPoly (v.env delta) (verImg delta c ch) m.polyAns =
      verImg delta (comFinPoly v c m.polyAns) ch' := by
    have hp : ((verImg delta c ch).polys ≠ []) ↔ c.polys ≠ [] := by simp [verImg]
    rw [verFinPoly, comFinPoly]
    by_cases h : c.polys ≠ []
    · rw [if_pos h, if_pos (hp.2 h)]
      exact verPolyCheck_img v delta c ch m.polyAns
    · rw [if_neg h, if_neg (fun h' => h (hp.1 h'))]
      exact ⟨ch, rfl⟩
  have h2 : ∀ c ch, ∃ ch', verFinAnd (v.env delta) (verImg delta c ch) m.andAns =
      (comFinAnd v c m.andAns).map (fun c' => verImg delta c' ch') := by
    intro c ch
    have hp : ((verImg delta c ch).gates ≠ []) ↔ c.gates ≠ [] := by simp [verImg]
    rw [verFinAnd, comFinAnd]
    by_cases h : c.gates ≠ []
    · rw [if_pos h, if_pos (hp.2 h)]
      obtain ⟨ch', h⟩ := verAndCheck_img v delta c ch m.andAns
      refine ⟨ch', ?_⟩
      rw [h]
      split <;> rfl
    · rw [if_neg h, if_neg (fun h' => h (hp.1 h'))]
      exact ⟨ch, rfl⟩
  have h3 : ∀ c ch, ∃ ch', verFinHash (v.env delta) (verImg delta c ch) m.digest = verImg delta c ch' := by
    intro c ch
    rw [verFinHash]
    split
    · exact ⟨ch, rfl⟩
    · exact ⟨ch ++ [.finalize], rfl⟩
  obtain ⟨ch1, h1⟩ := h1
  obtain ⟨ch2, h2⟩ := h2 (comFinPoly v c m.polyAns) ch1
  simp only [verFinalize, comFinalize, h1, h2]
  cases comFinAnd v (comFinPoly v c m.polyAns) m.andAns with
  | none => exact ⟨[], rfl⟩
  | some c' =>
    obtain ⟨ch3, h3⟩ := h3 c' ch2
    refine ⟨ch3, ?_⟩
    simp only [Option.map_some, Option.bind_eq_bind, Option.bind_some, h3]

theorem verImg_init (delta : F) : verImg delta (ComSt.init : ComSt F) [] = VerSt.init := rfl

/-- A session of the verifier with arbitrary messages is the image of the committed session. -/
theorem verSession_img (v : BView F) {delta : F} (hd : lsb delta = true) (ops : List BOp) (ms : List (BMsg F))
    (fin : BFin F) :
    ∃ ch, verSession (v.env delta) ops ms fin = (comSession v ops ms fin).map (fun c => verImg delta c ch) := by
  simp only [verSession, comSession]
  obtain ⟨ch', h⟩ := verRun_img v hd ops ComSt.init [] ms
  rw [verImg_init] at h
  rw [h]
  cases comRun v ComSt.init ops ms with
  | none => exact ⟨[], rfl⟩
  | some c => exact verFinalize_img v c ch' fin

end
end EmpZk
