/-
Arithmetic protocol, verifier's side with arbitrary messages: batches cover the program, buffers never overflow.
-/
import Verif.Lemmas.ArithAuth

namespace EmpZk

/-- Wires of a buffered multiplication. -/
def AGateAt (w : List U128) (t : Nat × Nat × Nat) (g : AGate) : Prop :=
  w[t.1]? = some g.left ∧ w[t.2.1]? = some g.right ∧ w[t.2.2]? = some g.out

theorem AGateAt.append {w : List U128} {t : Nat × Nat × Nat} {g : AGate} (h : AGateAt w t g) (w' : List U128) :
    AGateAt (w ++ w') t g :=
  ⟨getElem?_append_of_some h.1 w', getElem?_append_of_some h.2.1 w', getElem?_append_of_some h.2.2 w'⟩

/-- The verifier's value of a statement. -/
def StmtAt (delta : W) (w : List U128) (s : APoly Nat) (x : W) : Prop := ∃ p, s.lookup w = some p ∧ x = apolyB delta p

theorem StmtAt.append {delta : W} {w : List U128} {s : APoly Nat} {x : W} (h : StmtAt delta w s x) (w' : List U128) :
    StmtAt delta (w ++ w') s x := by
  obtain ⟨p, hp, hx⟩ := h
  exact ⟨p, alookup_append w' s hp, hx⟩

/-- All multiplications of a verifier's state, in order. -/
def AVer.allGates (s : AVer) : List AGate := s.mulLog.flatMap AMulRec.gates ++ s.gates
/-- All statements of a verifier's state, in order. -/
def AVer.stmts (s : AVer) : List W := s.polyLog.flatMap APolyRec.polys ++ s.polys

/-- What the verifier's state records of the program executed so far. -/
structure VRec (e : AEnv) (s : AVer) (ts : List (Nat × Nat × Nat)) (ss : List (APoly Nat)) : Prop where
  gates : List.Forall₂ (AGateAt s.wires) ts s.allGates
  stmts : List.Forall₂ (StmtAt e.delta s.wires) ss s.stmts
  cur : s.gates.length ≤ e.checkSz
  curP : s.polys.length ≤ e.polySz
  full : ∀ r ∈ s.mulLog, r.gates.length = e.checkSz
  fullP : ∀ r ∈ s.polyLog, r.polys.length = e.polySz

theorem VRec.init (e : AEnv) : VRec e AVer.init [] [] := by
  constructor <;> simp [AVer.init, AVer.allGates, AVer.stmts]

theorem VRec.grow {e : AEnv} {s s' : AVer} {ts ss} (h : VRec e s ts ss) (w' : List U128)
    (hw : s'.wires = s.wires ++ w') (h1 : s'.allGates = s.allGates) (h2 : s'.stmts = s.stmts) (h3 : s'.gates = s.gates)
    (h6 : s'.polys = s.polys)
    (h4 : s'.mulLog = s.mulLog) (h5 : s'.polyLog = s.polyLog) : VRec e s' ts ss := by
  constructor
  · rw [h1, hw]
    exact h.gates.imp (fun _ _ hg => hg.append w')
  · rw [h2, hw]
    exact h.stmts.imp (fun _ _ hg => hg.append w')
  · rw [h3]; exact h.cur
  · rw [h6]; exact h.curP
  · rw [h4]; exact h.full
  · rw [h5]; exact h.fullP

theorem averMulCheck_facts {e : AEnv} {s s' : AVer} {ans : W × W} (h : averMulCheck e s ans = some s') :
    s'.allGates = s.allGates ∧ s'.stmts = s.stmts ∧ s'.wires = s.wires ∧ s'.gates = [] ∧ s'.polys = s.polys ∧
      s'.polyLog = s.polyLog ∧ ∃ r, r.gates = s.gates ∧ s'.mulLog = s.mulLog ++ [r] := by
  simp only [averMulCheck, Option.bind_eq_bind, Option.bind_eq_some_iff, Option.some.injEq] at h
  obtain ⟨ok, _, rfl⟩ := h
  exact ⟨by simp [AVer.allGates], rfl, rfl, rfl, rfl, rfl, ⟨_, rfl, rfl⟩⟩

theorem averPolyCheck_facts {e : AEnv} {s s' : AVer} {ans : W × W} (h : averPolyCheck e s ans = some s') :
    s'.allGates = s.allGates ∧ s'.stmts = s.stmts ∧ s'.wires = s.wires ∧ s'.polys = [] ∧ s'.gates = s.gates ∧
      s'.mulLog = s.mulLog ∧ ∃ r, r.polys = s.polys ∧ s'.polyLog = s.polyLog ++ [r] := by
  simp only [averPolyCheck, Option.bind_eq_bind, Option.bind_eq_some_iff, Option.some.injEq] at h
  obtain ⟨ok, _, rfl⟩ := h
  exact ⟨rfl, by simp [AVer.stmts], rfl, rfl, rfl, rfl, ⟨_, rfl, rfl⟩⟩

theorem averStep_rec {e : AEnv} {c c' : AVer} {ts ss} (h : VRec e c ts ss) {m : AMsg} {op : AOp}
    (hs : averStep e c m op = some c') :
    VRec e c' (ts ++ mulTriples c.wires.length [op]) (ss ++ apolyStmts [op]) ∧
      (∀ os, mulTriples c.wires.length (op :: os) = mulTriples c.wires.length [op] ++ mulTriples c'.wires.length os) := by
  cases op with
  | input b =>
    simp only [averStep, Option.some.injEq] at hs
    subst hs
    simp only [mulTriples, apolyStmts, List.append_nil, List.nil_append, List.length_append,
      List.length_singleton, implies_true, and_true]
    exact h.grow _ rfl rfl rfl rfl rfl rfl rfl
  | pub b =>
    simp only [averStep, Option.some.injEq] at hs
    subst hs
    simp only [mulTriples, apolyStmts, List.append_nil, List.nil_append, List.length_append,
      List.length_singleton, implies_true, and_true]
    exact h.grow _ rfl rfl rfl rfl rfl rfl rfl
  | add i j =>
    simp only [averStep, Option.bind_eq_bind, Option.bind_eq_some_iff, Option.some.injEq] at hs
    obtain ⟨a, _, b, _, rfl⟩ := hs
    simp only [mulTriples, apolyStmts, List.append_nil, List.nil_append, List.length_append,
      List.length_singleton, implies_true, and_true]
    exact h.grow _ rfl rfl rfl rfl rfl rfl rfl
  | mulc i k =>
    simp only [averStep, Option.bind_eq_bind, Option.bind_eq_some_iff, Option.some.injEq] at hs
    obtain ⟨a, _, rfl⟩ := hs
    simp only [mulTriples, apolyStmts, List.append_nil, List.nil_append, List.length_append,
      List.length_singleton, implies_true, and_true]
    exact h.grow _ rfl rfl rfl rfl rfl rfl rfl
  | reveal i =>
    simp only [averStep, Option.bind_eq_bind, Option.bind_eq_some_iff, Option.some.injEq] at hs
    obtain ⟨a, ha, rfl⟩ := hs
    simp only [mulTriples, apolyStmts, List.append_nil, List.nil_append, implies_true, and_true]
    exact ⟨h.gates, h.stmts, h.cur, h.curP, h.full, h.fullP⟩
  | revealCheck i x =>
    simp only [averStep, Option.bind_eq_bind, Option.bind_eq_some_iff, Option.some.injEq] at hs
    obtain ⟨a, ha, rfl⟩ := hs
    simp only [mulTriples, apolyStmts, List.append_nil, List.nil_append, implies_true, and_true]
    exact ⟨h.gates, h.stmts, h.cur, h.curP, h.full, h.fullP⟩
  | revealZero i =>
    simp only [averStep, Option.bind_eq_bind, Option.bind_eq_some_iff, Option.some.injEq] at hs
    obtain ⟨a, ha, rfl⟩ := hs
    simp only [mulTriples, apolyStmts, List.append_nil, List.nil_append, implies_true, and_true]
    exact ⟨h.gates, h.stmts, h.cur, h.curP, h.full, h.fullP⟩
  | mul i j =>
    simp only [averStep, Option.bind_eq_bind, Option.bind_eq_some_iff] at hs
    obtain ⟨a, ha, b, hb, r, hr, hs⟩ := hs
    have hr' : r.allGates = c.allGates ∧ r.stmts = c.stmts ∧ r.polys = c.polys ∧ r.polyLog = c.polyLog ∧
        r.wires = c.wires ∧ (∀ x ∈ r.mulLog, x.gates.length = e.checkSz) := by
      unfold averMulRoom at hr
      split at hr
      · rename_i hf
        obtain ⟨f1, f2, f3, _, f5, f6, x, hx, f7⟩ := averMulCheck_facts hr
        refine ⟨f1, f2, f5, f6, f3, ?_⟩
        intro y hy
        rw [f7, List.mem_append, List.mem_singleton] at hy
        rcases hy with hy | rfl
        · exact h.full y hy
        · rw [hx]; exact hf
      · simp only [Option.some.injEq] at hr; subst hr
        exact ⟨rfl, rfl, rfl, rfl, rfl, h.full⟩
    obtain ⟨hrg, hrs, hrp, hrpl, hrw, hrf⟩ := hr'
    unfold averMulPush at hs
    split at hs
    · rename_i hlt
      simp only [Option.some.injEq] at hs
      subst hs
      simp only [mulTriples, apolyStmts, List.append_nil, List.cons_append, List.nil_append,
        List.length_append, List.length_singleton, hrw, implies_true, and_true]
      generalize mulRecv e.delta (e.keyU r.used) m.w = lbl
      refine ⟨?_, ?_, ?_, ?_, hrf, ?_⟩
      · show List.Forall₂ _ _ (r.mulLog.flatMap AMulRec.gates ++ (r.gates ++ [_]))
        rw [← List.append_assoc]
        refine forall2_append ?_ ?_
        · have := h.gates
          rw [← hrg] at this
          exact this.imp (fun _ _ hg => hg.append _)
        · refine .cons ⟨getElem?_append_of_some ha _, getElem?_append_of_some hb _, ?_⟩ .nil
          simp
      · show List.Forall₂ _ _ (r.polyLog.flatMap APolyRec.polys ++ r.polys)
        have := h.stmts
        rw [← hrs] at this
        exact this.imp (fun _ _ hg => hg.append _)
      · simpa using hlt
      · show r.polys.length ≤ _
        rw [hrp]; exact h.curP
      · show ∀ x ∈ r.polyLog, _
        rw [hrpl]; exact h.fullP
    · simp at hs
  | poly st =>
    simp only [averStep, Option.bind_eq_bind, Option.bind_eq_some_iff] at hs
    obtain ⟨p, hp, r, hr, hs⟩ := hs
    have hr' : r.stmts = c.stmts ∧ r.allGates = c.allGates ∧ r.gates = c.gates ∧
        r.mulLog = c.mulLog ∧ r.wires = c.wires ∧
        (∀ x ∈ r.polyLog, x.polys.length = e.polySz) := by
      unfold averPolyRoom at hr
      split at hr
      · rename_i hf
        obtain ⟨f1, f2, f3, _, f5, f6, x, hx, f7⟩ := averPolyCheck_facts hr
        refine ⟨f2, f1, f5, f6, f3, ?_⟩
        intro y hy
        rw [f7, List.mem_append, List.mem_singleton] at hy
        rcases hy with hy | rfl
        · exact h.fullP y hy
        · rw [hx]; exact le_antisymm h.curP hf.1
      · simp only [Option.some.injEq] at hr; subst hr
        exact ⟨rfl, rfl, rfl, rfl, rfl, h.fullP⟩
    obtain ⟨hrs, hra, hrg, hrl, hrw, hrf⟩ := hr'
    unfold averPolyPush at hs
    split at hs
    · rename_i hlt
      simp only [Option.some.injEq] at hs
      subst hs
      simp only [mulTriples, apolyStmts, List.append_nil, List.nil_append, hrw, implies_true, and_true]
      refine ⟨?_, ?_, ?_, ?_, ?_, hrf⟩
      · show List.Forall₂ _ _ (r.mulLog.flatMap AMulRec.gates ++ r.gates)
        have := h.gates
        rw [← hra] at this
        exact this
      · show List.Forall₂ _ _ (r.polyLog.flatMap APolyRec.polys ++ (r.polys ++ [_]))
        rw [← List.append_assoc]
        have := h.stmts
        rw [← hrs] at this
        exact forall2_append this (.cons ⟨p, hp, rfl⟩ .nil)
      · show r.gates.length ≤ _
        rw [hrg]; exact h.cur
      · simpa using hlt
      · show ∀ x ∈ r.mulLog, _
        rw [hrl]; exact h.full
    · simp at hs

theorem averRun_rec {e : AEnv} (ops : List AOp) : ∀ {c c' : AVer} {ts ss} {ms : List AMsg},
    VRec e c ts ss → averRun e c ops ms = some c' →
    VRec e c' (ts ++ mulTriples c.wires.length ops) (ss ++ apolyStmts ops) := by
  induction ops with
  | nil =>
    intro c c' ts ss ms h hs
    cases ms with
    | nil => simp only [averRun, Option.some.injEq] at hs; subst hs; simpa [mulTriples, apolyStmts] using h
    | cons => simp [averRun] at hs
  | cons o os ih =>
    intro c c' ts ss ms h hs
    cases ms with
    | nil => simp [averRun] at hs
    | cons m ms =>
      simp only [averRun, Option.bind_eq_bind, Option.bind_eq_some_iff] at hs
      obtain ⟨c1, h1, h2⟩ := hs
      obtain ⟨k1, k3⟩ := averStep_rec h h1
      have := ih k1 h2
      rw [k3 os, apolyStmts_cons, ← List.append_assoc, ← List.append_assoc]
      exact this

theorem flatMap_of_nil {α β : Type} (l : List α) (f : α → List β) (tail : List β) (h : tail = []) :
    l.flatMap f ++ tail = l.flatMap f := by rw [h, List.append_nil]

/-- At the end of a session. -/
theorem averSession_rec {e : AEnv} {ops : List AOp} {ms : List AMsg} {fin : AFin} {V : AVer}
    (h : averSession e ops ms fin = some V) :
    List.Forall₂ (AGateAt V.wires) (mulTriples 0 ops) (V.mulLog.flatMap AMulRec.gates) ∧
    List.Forall₂ (StmtAt e.delta V.wires) (apolyStmts ops) (V.polyLog.flatMap APolyRec.polys) ∧
    V.gates = [] ∧ V.polys = [] ∧
    (∀ r ∈ V.mulLog.dropLast, r.gates.length = e.checkSz) ∧ (∀ r ∈ V.mulLog, r.gates.length ≤ e.checkSz) ∧
    (∀ r ∈ V.polyLog.dropLast, r.polys.length = e.polySz) ∧ (∀ r ∈ V.polyLog, r.polys.length ≤ e.polySz) := by
  simp only [averSession, averFinalize, Option.bind_eq_bind, Option.bind_eq_some_iff, Option.some.injEq] at h
  obtain ⟨s1, h1, s2, h2, s3, h3, rfl⟩ := h
  have hr := averRun_rec ops (VRec.init e) h1
  simp only [AVer.init, List.nil_append, List.length_nil] at hr
  have hlogs : ∀ {α : Type} (l l' : List α) (n : α → Nat) (N : Nat), (∀ r ∈ l, n r = N) →
      (l' = l ∨ ∃ x, n x ≤ N ∧ l' = l ++ [x]) → (∀ r ∈ l'.dropLast, n r = N) ∧ ∀ r ∈ l', n r ≤ N := by
    intro α l l' n N hl hcase
    rcases hcase with rfl | ⟨x, hx, rfl⟩
    · exact ⟨fun r h => hl r (List.mem_of_mem_dropLast h), fun r h => le_of_eq (hl r h)⟩
    · constructor
      · intro r h
        rw [List.dropLast_concat] at h
        exact hl r h
      · intro r h
        rw [List.mem_append, List.mem_singleton] at h
        rcases h with h | rfl
        · exact le_of_eq (hl r h)
        · exact hx
  have hp : s2.allGates = s1.allGates ∧ s2.stmts = s1.stmts ∧ s2.wires = s1.wires ∧ s2.polys = [] ∧
      s2.gates = s1.gates ∧ s2.mulLog = s1.mulLog ∧
      (s2.polyLog = s1.polyLog ∨ ∃ x : APolyRec, x.polys.length ≤ e.polySz ∧ s2.polyLog = s1.polyLog ++ [x]) := by
    unfold averFinPoly at h2
    split at h2
    · obtain ⟨f1, f2, f3, f4, f5, f6, x, hx, f7⟩ := averPolyCheck_facts h2
      exact ⟨f1, f2, f3, f4, f5, f6, Or.inr ⟨x, by rw [hx]; exact hr.curP, f7⟩⟩
    · rename_i hn
      simp only [Option.some.injEq] at h2
      subst h2
      exact ⟨rfl, rfl, rfl, by simpa using hn, rfl, rfl, Or.inl rfl⟩
  obtain ⟨p1, p2, p3, p4, p5, p6, p7⟩ := hp
  have hq : s3.allGates = s2.allGates ∧ s3.stmts = s2.stmts ∧ s3.wires = s2.wires ∧ s3.gates = [] ∧
      s3.polys = s2.polys ∧ s3.polyLog = s2.polyLog ∧
      (s3.mulLog = s2.mulLog ∨ ∃ x : AMulRec, x.gates.length ≤ e.checkSz ∧ s3.mulLog = s2.mulLog ++ [x]) := by
    unfold averFinMul at h3
    split at h3
    · obtain ⟨f1, f2, f3, f4, f5, f6, x, hx, f7⟩ := averMulCheck_facts h3
      exact ⟨f1, f2, f3, f4, f5, f6, Or.inr ⟨x, by rw [hx, p5]; exact hr.cur, f7⟩⟩
    · rename_i hn
      simp only [Option.some.injEq] at h3
      subst h3
      exact ⟨rfl, rfl, rfl, by simpa using hn, rfl, rfl, Or.inl rfl⟩
  obtain ⟨q1, q2, q3, q4, q5, q6, q7⟩ := hq
  have hg := hr.gates
  rw [← p1, ← q1, ← p3, ← q3, AVer.allGates, flatMap_of_nil _ _ _ q4] at hg
  have hst := hr.stmts
  rw [← p2, ← q2, ← p3, ← q3, AVer.stmts, flatMap_of_nil _ _ _ (q5.trans p4)] at hst
  obtain ⟨m1, m2⟩ := hlogs s1.mulLog s3.mulLog (fun r => r.gates.length) e.checkSz hr.full (by rw [← p6]; exact q7)
  obtain ⟨n1, n2⟩ := hlogs s1.polyLog s3.polyLog (fun r => r.polys.length) e.polySz hr.fullP (by rw [q6]; exact p7)
  exact ⟨hg, hst, q4, q5.trans p4, m1, m2, n1, n2⟩

end EmpZk
