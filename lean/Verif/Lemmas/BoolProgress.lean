/-
The honest prover never gets stuck; buffers; batches cover the program in order.
-/
import Verif.Lemmas.BoolHonest

namespace EmpZk

section
variable {F : Type} [Field F] [BlockField F]

theorem splitTasks_isSome (cnt threads : Nat) :
    (splitTasks cnt threads).isSome ↔ 0 < threads ∧ threads ≤ cnt := by
  unfold splitTasks
  by_cases h0 : threads = 0
  · simp [h0]
  · by_cases h1 : cnt / threads = 0
    · have : cnt < threads := by
        rcases Nat.div_eq_zero_iff.1 h1 with h | h
        · exact absurd h h0
        · exact h
      simp only [h0, h1, if_true, if_false]
      constructor
      · intro h; simp at h
      · intro h; omega
    · have : ¬ cnt < threads := fun h => h1 (Nat.div_eq_of_lt h)
      simp only [h0, h1, if_false, Option.isSome_some, true_iff]
      omega

theorem prvAndCheck_isSome (e : BEnv F) (s : PrvSt F) :
    (prvAndCheck e s).isSome ↔ 0 < e.threads ∧ e.threads ≤ s.gates.length := by
  rw [← splitTasks_isSome]
  unfold prvAndCheck andCheckPrv
  cases splitTasks s.gates.length e.threads <;> simp

/-- Buffers never exceed their allocation. -/
structure PrvBounds (e : BEnv F) (s : PrvSt F) : Prop where
  gates : s.gates.length ≤ e.checkSz
  polys : s.polys.length ≤ e.polySz

theorem prvStep_bounds {e : BEnv F} (h0 : 0 < e.checkSz) (hp0 : 0 < e.polySz) {s : PrvSt F} (hb : PrvBounds e s)
    {op : BOp} {q : PrvSt F × BMsg F} (h : prvStep e s op = some q) : PrvBounds e q.1 := by
  cases op with
  | input b => simp only [prvStep, Option.some.injEq] at h; subst h; exact ⟨hb.gates, hb.polys⟩
  | pub b => simp only [prvStep, Option.some.injEq] at h; subst h; exact ⟨hb.gates, hb.polys⟩
  | xor i j =>
    simp only [prvStep, Option.bind_eq_bind, Option.bind_eq_some_iff, Option.some.injEq] at h
    obtain ⟨_, _, _, _, rfl⟩ := h; exact ⟨hb.gates, hb.polys⟩
  | not i =>
    simp only [prvStep, Option.bind_eq_bind, Option.bind_eq_some_iff, Option.some.injEq] at h
    obtain ⟨_, _, rfl⟩ := h; exact ⟨hb.gates, hb.polys⟩
  | reveal i =>
    simp only [prvStep, Option.bind_eq_bind, Option.bind_eq_some_iff, Option.some.injEq] at h
    obtain ⟨_, _, rfl⟩ := h; exact ⟨hb.gates, hb.polys⟩
  | and i j =>
    simp only [prvStep, Option.bind_eq_bind, Option.bind_eq_some_iff, Option.some.injEq] at h
    obtain ⟨_, _, _, _, r, hr, q', hq, rfl⟩ := h
    have hr' : PrvBounds e r.1 := by
      unfold prvAndRoom at hr
      split at hr
      · unfold prvAndCheck at hr
        split at hr
        · simp at hr
        · simp only [Option.some.injEq] at hr; subst hr; exact ⟨by simp, hb.polys⟩
      · simp only [Option.some.injEq] at hr; subst hr; exact hb
    unfold prvAndPush at hq
    split at hq
    · rename_i hlt
      simp only [Option.some.injEq] at hq; subst hq
      exact ⟨by simpa using hlt, hr'.polys⟩
    · simp at hq
  | poly st =>
    simp only [prvStep, Option.bind_eq_bind, Option.bind_eq_some_iff, Option.some.injEq] at h
    obtain ⟨p, hp, q', hq, rfl⟩ := h
    have hr' : PrvBounds e (prvPolyRoom e s).1 := by
      unfold prvPolyRoom
      split
      · exact ⟨hb.gates, by simp [prvPolyCheck]⟩
      · exact hb
    unfold prvPolyPush at hq
    split at hq
    · rename_i hlt
      simp only [Option.some.injEq] at hq; subst hq
      exact ⟨hr'.gates, by simpa using hlt⟩
    · simp at hq

theorem prvStep_isSome {e : BEnv F} (ht : 0 < e.threads) (htc : e.threads ≤ e.checkSz) (hp0 : 0 < e.polySz)
    {s : PrvSt F} (hb : PrvBounds e s) (op : BOp) (pl : Plain) (hpl : pl.wires = s.wires.map lsb) :
    (prvStep e s op).isSome ↔ (plainStep pl op).isSome := by
  have hwi : ∀ i : Nat, pl.wires[i]? = (s.wires[i]?).map (lsb : F → Bool) := by intro i; rw [hpl, List.getElem?_map]
  cases op with
  | input b => simp [prvStep, plainStep]
  | pub b => simp [prvStep, plainStep]
  | xor i j => simp only [prvStep, plainStep, hwi]; cases s.wires[i]? <;> cases s.wires[j]? <;> simp
  | not i => simp only [prvStep, plainStep, hwi]; cases s.wires[i]? <;> simp
  | reveal i => simp only [prvStep, plainStep, hwi]; cases s.wires[i]? <;> simp
  | and i j =>
    simp only [prvStep, plainStep, hwi]
    cases s.wires[i]? with
    | none => simp
    | some a =>
      cases s.wires[j]? with
      | none => simp
      | some b =>
        simp only [Option.map_some, Option.bind_eq_bind, Option.bind_some, Option.isSome_some, iff_true]
        have hroom : ∃ r, prvAndRoom e s = some r ∧ r.1.gates.length < e.checkSz := by
          unfold prvAndRoom
          by_cases hf : s.gates.length = e.checkSz
          · rw [if_pos hf]
            have := (prvAndCheck_isSome e s).2 ⟨ht, by omega⟩
            obtain ⟨r, hr⟩ := Option.isSome_iff_exists.1 this
            refine ⟨r, hr, ?_⟩
            unfold prvAndCheck at hr
            split at hr
            · simp at hr
            · simp only [Option.some.injEq] at hr; subst hr; simp; omega
          · rw [if_neg hf]
            exact ⟨_, rfl, lt_of_le_of_ne hb.gates hf⟩
        obtain ⟨r, hr, hlt⟩ := hroom
        simp only [hr, Option.bind_some, prvAndPush, if_pos hlt, Option.isSome_some]
  | poly st =>
    simp only [prvStep, plainStep, hpl, lookup_map]
    cases st.lookup s.wires with
    | none => simp
    | some p =>
      simp only [Option.map_some, Option.bind_eq_bind, Option.bind_some, Option.isSome_some, iff_true]
      have hlt : (prvPolyRoom e s).1.polys.length < e.polySz := by
        unfold prvPolyRoom
        by_cases hf : s.polys.length ≥ e.polySz ∧ s.polys ≠ []
        · rw [if_pos hf]; simpa [prvPolyCheck] using hp0
        · rw [if_neg hf]
          have : s.polys.length < e.polySz ∨ s.polys = [] := by
            by_contra hcon
            push Not at hcon
            exact hf hcon
          rcases this with h | h
          · exact h
          · simpa [h] using hp0
      simp only [prvPolyPush, if_pos hlt, Option.bind_some, Option.isSome_some]

/-- The honest prover runs to the end exactly on well-formed programs. -/
theorem prvRun_isSome (v : BView F) (delta : F) (ht : 0 < v.threads) (htc : v.threads ≤ v.checkSz) (hp0 : 0 < v.polySz)
    (ops : List BOp) : ∀ {c : ComSt F}, PrvBounds (v.env delta) (prvOf c) → Hon v c →
    ((prvRun (v.env delta) (prvOf c) ops).isSome ↔ (ops.foldlM plainStep c.plain).isSome) := by
  induction ops with
  | nil => intro c _ _; simp [prvRun]
  | cons o os ih =>
    intro c hb hon
    have h1 := prvStep_isSome (e := v.env delta) ht htc hp0 hb o c.plain rfl
    cases hs : prvStep (v.env delta) (prvOf c) o with
    | none =>
      rw [hs] at h1
      simp only [Option.isSome_none, Bool.false_eq_true, false_iff, Bool.not_eq_true, Option.isSome_eq_false_iff,
        Option.isNone_iff_eq_none] at h1
      simp [prvRun, hs, List.foldlM_cons, h1]
    | some q =>
      obtain ⟨c1, k1, k2, k3, k4⟩ := prvStep_com v delta hs hon
      have hb' := prvStep_bounds (e := v.env delta) (Nat.lt_of_lt_of_le ht htc) hp0 hb hs
      rw [k2] at hb'
      have := ih hb' k3
      simp only [prvRun, hs, Option.bind_eq_bind, Option.bind_some, List.foldlM_cons, k4, k2]
      rw [← this]
      cases prvRun (v.env delta) (prvOf c1) os <;> simp

/-! ### batches -/

theorem forall2_append {α β : Type} {R : α → β → Prop} {l1 l2 : List α} {m1 m2 : List β} (h1 : List.Forall₂ R l1 m1)
    (h2 : List.Forall₂ R l2 m2) : List.Forall₂ R (l1 ++ l2) (m1 ++ m2) := by
  induction h1 with
  | nil => exact h2
  | cons h _ ih => exact .cons h ih

omit [Field F] [BlockField F] in
theorem GateAt.append {w : List F} {t : Nat × Nat × Nat} {g : Gate F} (h : GateAt w t g) (w' : List F) :
    GateAt (w ++ w') t g := by
  have key : ∀ {i : Nat} {x : F}, w[i]? = some x → (w ++ w')[i]? = some x := by
    intro i x hx
    have hi : i < w.length := by
      rcases Nat.lt_or_ge i w.length with h | h
      · exact h
      · rw [List.getElem?_eq_none h] at hx; simp at hx
    rw [List.getElem?_append_left hi, hx]
  exact ⟨key h.1, key h.2.1, key h.2.2⟩

theorem getElem?_append_of_some {α : Type} {w : List α} {i : Nat} {x : α} (hx : w[i]? = some x) (w' : List α) :
    (w ++ w')[i]? = some x := by
  have hi : i < w.length := by
    rcases Nat.lt_or_ge i w.length with h | h
    · exact h
    · rw [List.getElem?_eq_none h] at hx; simp at hx
  rw [List.getElem?_append_left hi, hx]

theorem lookupPairs_append {α : Type} {w : List α} (w' : List α) (l : List (Nat × Nat)) :
    ∀ {r : List (α × α)}, lookupPairs w l = some r → lookupPairs (w ++ w') l = some r := by
  induction l with
  | nil => intro r h; exact h
  | cons p l ih =>
    intro r h
    obtain ⟨i, j⟩ := p
    simp only [lookupPairs, Option.bind_eq_bind, Option.bind_eq_some_iff] at h ⊢
    obtain ⟨a, ha, b, hb, u, hu, h⟩ := h
    exact ⟨a, getElem?_append_of_some ha _, b, getElem?_append_of_some hb _, u, ih hu, h⟩

theorem lookupTerms_append {κ α : Type} {w : List α} (w' : List α) (l : List (κ × Nat × Nat)) :
    ∀ {r : List (κ × α × α)}, lookupTerms w l = some r → lookupTerms (w ++ w') l = some r := by
  induction l with
  | nil => intro r h; exact h
  | cons p l ih =>
    intro r h
    obtain ⟨c, i, j⟩ := p
    simp only [lookupTerms, Option.bind_eq_bind, Option.bind_eq_some_iff] at h ⊢
    obtain ⟨a, ha, b, hb, u, hu, h⟩ := h
    exact ⟨a, getElem?_append_of_some ha _, b, getElem?_append_of_some hb _, u, ih hu, h⟩

theorem lookup_append {α : Type} {w : List α} (w' : List α) (s : PolyStmt Nat) {p : PolyStmt α}
    (h : s.lookup w = some p) : s.lookup (w ++ w') = some p := by
  cases s with
  | deg2 c0 terms =>
    simp only [PolyStmt.lookup, Option.bind_eq_bind, Option.bind_eq_some_iff] at h ⊢
    obtain ⟨t, ht, h⟩ := h
    exact ⟨t, lookupTerms_append _ _ ht, h⟩
  | inner c xy =>
    simp only [PolyStmt.lookup, Option.bind_eq_bind, Option.bind_eq_some_iff] at h ⊢
    obtain ⟨t, ht, h⟩ := h
    exact ⟨t, lookupPairs_append _ _ ht, h⟩
  | innerEq xy rs =>
    simp only [PolyStmt.lookup, Option.bind_eq_bind, Option.bind_eq_some_iff] at h ⊢
    obtain ⟨t, ht, u, hu, h⟩ := h
    exact ⟨t, lookupPairs_append _ _ ht, u, lookupPairs_append _ _ hu, h⟩
  | innerEqOne xy rs rr ss =>
    simp only [PolyStmt.lookup, Option.bind_eq_bind, Option.bind_eq_some_iff] at h ⊢
    obtain ⟨t, ht, u, hu, a, ha, b, hb, h⟩ := h
    exact ⟨t, lookupPairs_append _ _ ht, u, lookupPairs_append _ _ hu, a, getElem?_append_of_some ha _,
      b, getElem?_append_of_some hb _, h⟩
  | multiOne xy r s =>
    simp only [PolyStmt.lookup, Option.bind_eq_bind, Option.bind_eq_some_iff] at h ⊢
    obtain ⟨t, ht, a, ha, b, hb, h⟩ := h
    exact ⟨t, lookupPairs_append _ _ ht, a, getElem?_append_of_some ha _, b, getElem?_append_of_some hb _, h⟩

/-- What is recorded in a committed state about the program executed so far. -/
structure Rec (v : BView F) (c : ComSt F) (ts : List (Nat × Nat × Nat)) (ss : List (PolyStmt Nat)) (rs : List Nat) :
    Prop where
  gates : List.Forall₂ (GateAt c.wires) ts c.allGates
  stmts : List.Forall₂ (fun s p => s.lookup c.wires = some p) ss c.stmts
  opened : List.Forall₂ (fun i o => c.wires[i]? = some o.1) rs c.opened
  cur : c.gates.length ≤ v.checkSz
  curP : c.polys.length ≤ v.polySz
  full : ∀ r ∈ c.andLog, r.gates.length = v.checkSz
  fullP : ∀ r ∈ c.polyLog, r.polys.length = v.polySz

omit [Field F] [BlockField F] in
theorem Rec.init (v : BView F) : Rec v ComSt.init [] [] [] := by
  constructor <;> simp [ComSt.init, ComSt.allGates, ComSt.stmts]

omit [Field F] [BlockField F] in
theorem Rec.grow {v : BView F} {c c' : ComSt F} {ts ss rs} (h : Rec v c ts ss rs) (w' : List F)
    (hw : c'.wires = c.wires ++ w') (h1 : c'.gates = c.gates) (h2 : c'.polys = c.polys) (h3 : c'.opened = c.opened)
    (h4 : c'.andLog = c.andLog) (h5 : c'.polyLog = c.polyLog) : Rec v c' ts ss rs := by
  constructor
  · have : c'.allGates = c.allGates := by simp [ComSt.allGates, h1, h4]
    rw [this, hw]
    exact h.gates.imp (fun _ _ hg => hg.append w')
  · have : c'.stmts = c.stmts := by simp [ComSt.stmts, h2, h5]
    rw [this, hw]
    exact h.stmts.imp (fun _ _ hg => lookup_append w' _ hg)
  · rw [h3, hw]
    exact h.opened.imp (fun _ _ hg => getElem?_append_of_some hg w')
  · rw [h1]; exact h.cur
  · rw [h2]; exact h.curP
  · rw [h4]; exact h.full
  · rw [h5]; exact h.fullP

omit [Field F] [BlockField F] in
theorem Rec.andCheck {v : BView F} {c : ComSt F} {ts ss rs} (h : Rec v c ts ss rs)
    (hf : c.gates.length = v.checkSz) (ans : F × F) : Rec v (comAndCheck v c ans) ts ss rs := by
  constructor
  · simpa [ComSt.allGates, comAndCheck] using h.gates
  · exact h.stmts
  · exact h.opened
  · simp [comAndCheck]
  · exact h.curP
  · intro r hr
    simp only [comAndCheck, List.mem_append, List.mem_singleton] at hr
    rcases hr with hr | rfl
    · exact h.full r hr
    · exact hf
  · exact h.fullP

omit [Field F] [BlockField F] in
theorem Rec.polyCheck {v : BView F} {c : ComSt F} {ts ss rs} (h : Rec v c ts ss rs)
    (hf : c.polys.length = v.polySz) (ans : F × F) : Rec v (comPolyCheck v c ans) ts ss rs := by
  constructor
  · exact h.gates
  · simpa [ComSt.stmts, comPolyCheck] using h.stmts
  · exact h.opened
  · exact h.cur
  · simp [comPolyCheck]
  · exact h.full
  · intro r hr
    simp only [comPolyCheck, List.mem_append, List.mem_singleton] at hr
    rcases hr with hr | rfl
    · exact h.fullP r hr
    · exact hf

theorem comStep_rec {v : BView F} {c c' : ComSt F} {ts ss rs} (h : Rec v c ts ss rs) {m : BMsg F} {op : BOp}
    (hs : comStep v c m op = some c') :
    Rec v c' (ts ++ andTriples c.wires.length [op]) (ss ++ polyStmts [op]) (rs ++ revealed [op]) ∧
      andTriples c.wires.length [op] = andTriples c.wires.length [op] ∧
      (∀ os, andTriples c.wires.length (op :: os) = andTriples c.wires.length [op] ++ andTriples c'.wires.length os) := by
  cases op with
  | input b =>
    simp only [comStep, Option.some.injEq] at hs
    subst hs
    simp only [andTriples, polyStmts, revealed, List.append_nil, List.nil_append, List.length_append,
      List.length_singleton, implies_true, and_true]
    exact h.grow _ rfl rfl rfl rfl rfl rfl
  | pub b =>
    simp only [comStep, Option.some.injEq] at hs
    subst hs
    simp only [andTriples, polyStmts, revealed, List.append_nil, List.nil_append, List.length_append,
      List.length_singleton, implies_true, and_true]
    exact h.grow _ rfl rfl rfl rfl rfl rfl
  | xor i j =>
    simp only [comStep, Option.bind_eq_bind, Option.bind_eq_some_iff, Option.some.injEq] at hs
    obtain ⟨a, _, b, _, rfl⟩ := hs
    simp only [andTriples, polyStmts, revealed, List.append_nil, List.nil_append, List.length_append,
      List.length_singleton, implies_true, and_true]
    exact h.grow _ rfl rfl rfl rfl rfl rfl
  | not i =>
    simp only [comStep, Option.bind_eq_bind, Option.bind_eq_some_iff, Option.some.injEq] at hs
    obtain ⟨a, _, rfl⟩ := hs
    simp only [andTriples, polyStmts, revealed, List.append_nil, List.nil_append, List.length_append,
      List.length_singleton, implies_true, and_true]
    exact h.grow _ rfl rfl rfl rfl rfl rfl
  | reveal i =>
    simp only [comStep, Option.bind_eq_bind, Option.bind_eq_some_iff, Option.some.injEq] at hs
    obtain ⟨a, ha, rfl⟩ := hs
    simp only [andTriples, polyStmts, revealed, List.append_nil, List.nil_append, implies_true, and_true]
    exact ⟨h.gates, h.stmts, forall2_append h.opened (.cons ha .nil), h.cur, h.curP, h.full, h.fullP⟩
  | and i j =>
    simp only [comStep, Option.bind_eq_bind, Option.bind_eq_some_iff] at hs
    obtain ⟨a, ha, b, hb, r, hr, hs⟩ := hs
    have hr' : Rec v r ts ss rs ∧ r.wires = c.wires := by
      unfold comAndRoom at hr
      split at hr
      · rename_i hf
        split at hr
        · simp only [Option.some.injEq] at hr; subst hr
          exact ⟨h.andCheck hf _, rfl⟩
        · simp at hr
      · simp only [Option.some.injEq] at hr; subst hr
        exact ⟨h, rfl⟩
    obtain ⟨hr1, hrw⟩ := hr'
    unfold comAndPush at hs
    split at hs
    · rename_i hlt
      simp only [Option.some.injEq] at hs
      subst hs
      simp only [andTriples, polyStmts, revealed, List.append_nil, List.cons_append, List.nil_append,
        List.length_append, List.length_singleton, hrw, implies_true, and_true]
      refine ⟨?_, ?_, ?_, ?_, hr1.curP, hr1.full, hr1.fullP⟩
      · simp only [ComSt.allGates, ← List.append_assoc]
        refine forall2_append ?_ ?_
        · have := hr1.gates.imp (fun _ _ hg => hg.append [v.mac r.used + bit m.bit])
          rw [hrw] at this
          exact this
        · refine .cons ⟨getElem?_append_of_some ha _, getElem?_append_of_some hb _, ?_⟩ .nil
          simp
      · have := hr1.stmts.imp (fun _ _ hg => lookup_append [v.mac r.used + bit m.bit] _ hg)
        rw [hrw] at this
        exact this
      · have := hr1.opened.imp (fun _ _ hg => getElem?_append_of_some hg [v.mac r.used + bit m.bit])
        rw [hrw] at this
        exact this
      · simpa using hlt
    · simp at hs
  | poly st =>
    simp only [comStep, Option.bind_eq_bind, Option.bind_eq_some_iff] at hs
    obtain ⟨p, hp, hs⟩ := hs
    have hr' : Rec v (comPolyRoom v c m.ans) ts ss rs ∧ (comPolyRoom v c m.ans).wires = c.wires := by
      unfold comPolyRoom
      split
      · rename_i hf
        exact ⟨h.polyCheck (le_antisymm h.curP hf.1) _, rfl⟩
      · exact ⟨h, rfl⟩
    obtain ⟨hr1, hrw⟩ := hr'
    unfold comPolyPush at hs
    split at hs
    · rename_i hlt
      simp only [Option.some.injEq] at hs
      subst hs
      simp only [andTriples, polyStmts, revealed, List.append_nil, List.nil_append, hrw, implies_true, and_true]
      refine ⟨?_, ?_, ?_, hr1.cur, ?_, hr1.full, hr1.fullP⟩
      · rw [← hrw]; exact hr1.gates
      · simp only [ComSt.stmts, ← List.append_assoc]
        have := hr1.stmts
        rw [hrw] at this
        exact forall2_append this (.cons hp .nil)
      · rw [← hrw]; exact hr1.opened
      · simpa using hlt
    · simp at hs

theorem polyStmts_cons (op : BOp) (os : List BOp) : polyStmts (op :: os) = polyStmts [op] ++ polyStmts os := by
  cases op <;> simp [polyStmts]

theorem revealed_cons (op : BOp) (os : List BOp) : revealed (op :: os) = revealed [op] ++ revealed os := by
  cases op <;> simp [revealed]

theorem comRun_rec {v : BView F} (ops : List BOp) : ∀ {c c' : ComSt F} {ts ss rs} {ms : List (BMsg F)},
    Rec v c ts ss rs → comRun v c ops ms = some c' →
    Rec v c' (ts ++ andTriples c.wires.length ops) (ss ++ polyStmts ops) (rs ++ revealed ops) := by
  induction ops with
  | nil =>
    intro c c' ts ss rs ms h hs
    cases ms with
    | nil => simp only [comRun, Option.some.injEq] at hs; subst hs; simpa [andTriples, polyStmts, revealed] using h
    | cons => simp [comRun] at hs
  | cons o os ih =>
    intro c c' ts ss rs ms h hs
    cases ms with
    | nil => simp [comRun] at hs
    | cons m ms =>
      simp only [comRun, Option.bind_eq_bind, Option.bind_eq_some_iff] at hs
      obtain ⟨c1, h1, h2⟩ := hs
      obtain ⟨k1, _, k3⟩ := comStep_rec h h1
      have := ih k1 h2
      rw [k3 os, polyStmts_cons, revealed_cons, ← List.append_assoc, ← List.append_assoc, ← List.append_assoc]
      exact this

end
end EmpZk

namespace EmpZk
section
variable {F : Type} [Field F] [BlockField F]

theorem map_unit_eq {α β : Type} {w : List α} {w' : List β} (h : w.length = w'.length) :
    w.map (fun _ => ()) = w'.map (fun _ => ()) := by
  rw [List.map_const', List.map_const', h]

theorem lookup_isSome_congr {α β : Type} {w : List α} {w' : List β} (h : w.length = w'.length) (s : PolyStmt Nat) :
    (s.lookup w).isSome = (s.lookup w').isSome := by
  have h1 := lookup_map (fun _ => ()) w s
  have h2 := lookup_map (fun _ => ()) w' s
  rw [map_unit_eq h] at h1
  have := h1.symm.trans h2
  have := congrArg Option.isSome this
  simpa using this

theorem getElem?_isSome_congr {α β : Type} {w : List α} {w' : List β} (h : w.length = w'.length) (i : Nat) :
    (w[i]?).isSome = (w'[i]?).isSome := by
  by_cases hi : i < w.length
  · rw [List.getElem?_eq_getElem hi, List.getElem?_eq_getElem (h ▸ hi)]; rfl
  · rw [List.getElem?_eq_none (by omega), List.getElem?_eq_none (by omega)]; rfl

/-- The verifier accepts an instruction exactly when it is well-formed, whatever the messages are, and the number of
wires evolves as in the plain program. -/
theorem comStep_isSome {v : BView F} (ht : 0 < v.threads) (htc : v.threads ≤ v.checkSz) (hp0 : 0 < v.polySz)
    {c : ComSt F} (hb : c.gates.length ≤ v.checkSz) (m : BMsg F) (op : BOp)
    (pl : Plain) (hpl : pl.wires.length = c.wires.length) :
    ((comStep v c m op).isSome = (plainStep pl op).isSome) ∧
    ∀ c' pl', comStep v c m op = some c' → plainStep pl op = some pl' → pl'.wires.length = c'.wires.length := by
  have hwi : ∀ i : Nat, (pl.wires[i]?).isSome = (c.wires[i]?).isSome := getElem?_isSome_congr hpl
  cases op with
  | input b =>
    simp only [comStep, plainStep, Option.isSome_some, Option.some.injEq, true_and]
    rintro c' pl' rfl rfl
    simp [hpl]
  | pub b =>
    simp only [comStep, plainStep, Option.isSome_some, Option.some.injEq, true_and]
    rintro c' pl' rfl rfl
    simp [hpl]
  | xor i j =>
    have h1 := hwi i
    have h2 := hwi j
    simp only [comStep, plainStep]
    cases hx : pl.wires[i]? <;> cases hy : c.wires[i]? <;> rw [hx, hy] at h1 <;> simp at h1 ⊢
    cases hx' : pl.wires[j]? <;> cases hy' : c.wires[j]? <;> rw [hx', hy'] at h2 <;> simp at h2 ⊢
    exact hpl
  | not i =>
    have h1 := hwi i
    simp only [comStep, plainStep]
    cases hx : pl.wires[i]? <;> cases hy : c.wires[i]? <;> rw [hx, hy] at h1 <;> simp at h1 ⊢
    exact hpl
  | reveal i =>
    have h1 := hwi i
    simp only [comStep, plainStep]
    cases hx : pl.wires[i]? <;> cases hy : c.wires[i]? <;> rw [hx, hy] at h1 <;> simp at h1 ⊢
    exact hpl
  | and i j =>
    have h1 := hwi i
    have h2 := hwi j
    simp only [comStep, plainStep]
    cases hx : pl.wires[i]? <;> cases hy : c.wires[i]? <;> rw [hx, hy] at h1 <;> simp at h1 ⊢
    cases hx' : pl.wires[j]? <;> cases hy' : c.wires[j]? <;> rw [hx', hy'] at h2 <;> simp at h2 ⊢
    have hroom : ∃ r, comAndRoom v c m.ans = some r ∧ r.gates.length < v.checkSz ∧ r.wires = c.wires := by
      unfold comAndRoom
      by_cases hf : c.gates.length = v.checkSz
      · rw [if_pos hf, if_pos ((splitTasks_isSome _ _).2 ⟨ht, by omega⟩)]
        exact ⟨_, rfl, by simp [comAndCheck]; omega, rfl⟩
      · rw [if_neg hf]
        exact ⟨_, rfl, lt_of_le_of_ne hb hf, rfl⟩
    obtain ⟨r, hr, hlt, hw⟩ := hroom
    simp only [hr, Option.bind_some, comAndPush, if_pos hlt, Option.isSome_some, Option.some.injEq, true_and]
    rintro c' rfl
    simp [hpl, hw]
  | poly st =>
    have h1 := lookup_isSome_congr hpl st
    simp only [comStep, plainStep]
    cases hx : st.lookup pl.wires <;> cases hy : st.lookup c.wires <;> rw [hx, hy] at h1 <;> simp at h1 ⊢
    have hlt : (comPolyRoom v c m.ans).polys.length < v.polySz ∧ (comPolyRoom v c m.ans).wires = c.wires := by
      unfold comPolyRoom
      by_cases hf : c.polys.length ≥ v.polySz ∧ c.polys ≠ []
      · rw [if_pos hf]; exact ⟨by simpa [comPolyCheck] using hp0, rfl⟩
      · rw [if_neg hf]
        refine ⟨?_, rfl⟩
        have : c.polys.length < v.polySz ∨ c.polys = [] := by
          by_contra hcon
          push Not at hcon
          exact hf hcon
        rcases this with h | h
        · exact h
        · simpa [h] using hp0
    simp only [comPolyPush, if_pos hlt.1, Option.isSome_some, Option.some.injEq, true_and]
    rintro c' rfl
    simp [hpl, hlt.2]

theorem comRun_isSome {v : BView F} (ht : 0 < v.threads) (htc : v.threads ≤ v.checkSz) (hp0 : 0 < v.polySz)
    (ops : List BOp) : ∀ {c : ComSt F} {ts ss rs} (ms : List (BMsg F)) (pl : Plain), Rec v c ts ss rs →
    ms.length = ops.length → pl.wires.length = c.wires.length →
    ((comRun v c ops ms).isSome = (ops.foldlM plainStep pl).isSome) := by
  induction ops with
  | nil =>
    intro c ts ss rs ms pl _ hl _
    have : ms = [] := List.length_eq_zero_iff.1 (by simpa using hl)
    subst this
    rfl
  | cons o os ih =>
    intro c ts ss rs ms pl hr hl hpl
    cases ms with
    | nil => simp at hl
    | cons m ms =>
      obtain ⟨k1, k2⟩ := comStep_isSome ht htc hp0 hr.cur m o pl hpl
      simp only [comRun, List.foldlM_cons]
      cases hc : comStep v c m o with
      | none =>
        rw [hc] at k1
        cases hp : plainStep pl o with
        | none => rfl
        | some _ => rw [hp] at k1; simp at k1
      | some c' =>
        rw [hc] at k1
        cases hp : plainStep pl o with
        | none => rw [hp] at k1; simp at k1
        | some pl' =>
          exact ih ms pl' (comStep_rec hr hc).1 (by simpa using hl) (k2 c' pl' hc hp)

/-! ### size of the last batch -/

omit [Field F] [BlockField F] in
theorem flatMap_length_const {v : BView F} (l : List (ComAnd F)) (h : ∀ r ∈ l, r.gates.length = v.checkSz) :
    (l.flatMap ComAnd.gates).length = l.length * v.checkSz := by
  induction l with
  | nil => simp
  | cons a l ih =>
    simp only [List.flatMap_cons, List.length_append, List.length_cons, ih (fun r hr => h r (by simp [hr])),
      h a (by simp)]
    ring

/-- The current batch is empty only if no gate was executed. -/
def PosInv (c : ComSt F) : Prop := c.gates = [] → c.andLog = []

theorem comStep_pos {v : BView F} {c c' : ComSt F} (h : PosInv c) {m : BMsg F} {op : BOp}
    (hs : comStep v c m op = some c') : PosInv c' := by
  cases op with
  | input b => simp only [comStep, Option.some.injEq] at hs; subst hs; exact h
  | pub b => simp only [comStep, Option.some.injEq] at hs; subst hs; exact h
  | xor i j =>
    simp only [comStep, Option.bind_eq_bind, Option.bind_eq_some_iff, Option.some.injEq] at hs
    obtain ⟨_, _, _, _, rfl⟩ := hs; exact h
  | not i =>
    simp only [comStep, Option.bind_eq_bind, Option.bind_eq_some_iff, Option.some.injEq] at hs
    obtain ⟨_, _, rfl⟩ := hs; exact h
  | reveal i =>
    simp only [comStep, Option.bind_eq_bind, Option.bind_eq_some_iff, Option.some.injEq] at hs
    obtain ⟨_, _, rfl⟩ := hs; exact h
  | and i j =>
    simp only [comStep, Option.bind_eq_bind, Option.bind_eq_some_iff] at hs
    obtain ⟨_, _, _, _, r, _, hs⟩ := hs
    unfold comAndPush at hs
    split at hs
    · simp only [Option.some.injEq] at hs
      subst hs
      intro hg
      simp at hg
    · simp at hs
  | poly st =>
    simp only [comStep, Option.bind_eq_bind, Option.bind_eq_some_iff] at hs
    obtain ⟨p, hp, hs⟩ := hs
    unfold comPolyPush at hs
    split at hs
    · simp only [Option.some.injEq] at hs
      subst hs
      unfold comPolyRoom
      split
      · exact h
      · exact h
    · simp at hs

theorem comRun_pos {v : BView F} (ops : List BOp) : ∀ {c c' : ComSt F} {ms : List (BMsg F)},
    PosInv c → comRun v c ops ms = some c' → PosInv c' := by
  induction ops with
  | nil =>
    intro c c' ms h hs
    cases ms with
    | nil => simp only [comRun, Option.some.injEq] at hs; subst hs; exact h
    | cons => simp [comRun] at hs
  | cons o os ih =>
    intro c c' ms h hs
    cases ms with
    | nil => simp [comRun] at hs
    | cons m ms =>
      simp only [comRun, Option.bind_eq_bind, Option.bind_eq_some_iff] at hs
      obtain ⟨c1, h1, h2⟩ := hs
      exact ih (comStep_pos h h1) h2

/-- Number of gates in the last (unchecked) batch when `n` gates were executed. -/
def lastBatch (n checkSz : Nat) : Nat := if n = 0 then 0 else (n - 1) % checkSz + 1

theorem comRun_lastBatch {v : BView F} {ops : List BOp} {c : ComSt F} {ms : List (BMsg F)}
    (h : comRun v ComSt.init ops ms = some c) :
    c.gates.length = lastBatch (andTriples 0 ops).length v.checkSz := by
  have hr := comRun_rec ops (Rec.init v) h
  have hp : PosInv c := comRun_pos ops (fun _ => rfl) h
  have hl : (andTriples 0 ops).length = c.andLog.length * v.checkSz + c.gates.length := by
    have := hr.gates.length_eq
    simp only [ComSt.init, List.length_nil, List.nil_append] at this
    rw [this, ComSt.allGates, List.length_append, flatMap_length_const _ hr.full]
  have hle := hr.cur
  unfold lastBatch
  by_cases hg : c.gates = []
  · have := hp hg
    rw [this, hg] at hl
    simp at hl
    rw [hl, hg]; simp
  · have hgl : 0 < c.gates.length := List.length_pos_iff.2 hg
    rw [if_neg (by omega), hl]
    have : c.andLog.length * v.checkSz + c.gates.length - 1 = v.checkSz * c.andLog.length + (c.gates.length - 1) := by
      rw [Nat.mul_comm]; omega
    rw [this, Nat.mul_add_mod, Nat.mod_eq_of_lt (by omega)]
    omega

end
end EmpZk
