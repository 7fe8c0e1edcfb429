/-
Arithmetic protocol: progress, soundness of the checks, extraction.
-/
import Verif.Lemmas.ArithSession
import Mathlib.Algebra.Field.ZMod

namespace EmpZk

/-! ### progress -/

theorem mulTasks_isSome (cnt threads : Nat) :
    (mulTasks cnt threads).isSome ↔ 0 < cnt ∧ (cnt < 32 ∨ (0 < threads ∧ threads ≤ cnt)) := by
  unfold mulTasks
  by_cases h : cnt < 32
  · rw [if_pos h]
    by_cases h0 : cnt = 0
    · simp [h0]
    · simp [h0, h]; omega
  · rw [if_neg h, splitTasks_isSome]
    omega

/-- Buffers of a committed state stay within their allocation. -/
structure ABounds (v : AView) (c : ACom) : Prop where
  gates : c.gates.length ≤ v.checkSz
  polys : c.polys.length ≤ v.polySz

theorem ABounds.init (v : AView) : ABounds v ACom.init := ⟨Nat.zero_le _, Nat.zero_le _⟩

theorem aprvStep_isSome {v : AView} {d : Fp} (h0 : (mulTasks v.checkSz v.threads).isSome) (hp0 : 0 < v.polySz)
    {c : ACom} (hb : ABounds v c) (hon : AHon v c) (op : AOp) {pl : APlain} (hpl : pl.wires = c.wires.map Prod.fst) :
    (aprvStep (v.env d) (aprvOf c) op).isSome ↔ (aplainStep pl op).isSome := by
  have hw : (aprvOf c).wires = c.wires.map lab := rfl
  have hpw : ∀ i : Nat, pl.wires[i]? = (c.wires[i]?).map Prod.fst := by intro i; rw [hpl, List.getElem?_map]
  have hcs : 0 < v.checkSz := ((mulTasks_isSome _ _).1 h0).1
  cases op with
  | input w => simp [aprvStep, aplainStep]
  | pub w => simp [aprvStep, aplainStep]
  | add i j =>
    simp only [aprvStep, aplainStep, hpw, hw, List.getElem?_map]; cases c.wires[i]? <;> cases c.wires[j]? <;> simp
  | mulc i k => simp only [aprvStep, aplainStep, hpw, hw, List.getElem?_map]; cases c.wires[i]? <;> simp
  | reveal i => simp only [aprvStep, aplainStep, hpw, hw, List.getElem?_map]; cases c.wires[i]? <;> simp
  | revealCheck i x => simp only [aprvStep, aplainStep, hpw, hw, List.getElem?_map]; cases c.wires[i]? <;> simp
  | revealZero i => simp only [aprvStep, aplainStep, hpw, hw, List.getElem?_map]; cases c.wires[i]? <;> simp
  | mul i j =>
    simp only [aprvStep, aplainStep, hpw, hw, List.getElem?_map]
    cases c.wires[i]? with
    | none => simp
    | some a =>
      cases c.wires[j]? with
      | none => simp
      | some b =>
        simp only [Option.map_some, Option.bind_eq_bind, Option.bind_some, Option.isSome_some, iff_true]
        have hroom : ∃ r, aprvMulRoom (v.env d) (aprvOf c) = some r ∧ r.1.gates.length < v.checkSz := by
          unfold aprvMulRoom
          have hg : (aprvOf c).gates.length = c.gates.length := by simp [aprvOf]
          have e1 : (v.env d).checkSz = v.checkSz := rfl
          rw [hg, e1]
          by_cases hf : c.gates.length = v.checkSz
          · rw [if_pos hf]
            have e : mulCheckA (aprvOf c).gates (v.env d).threads ((v.env d).seed (aprvOf c).mulBatches)
                ((v.env d).cor (aprvOf c).used) =
                mulCheckA (c.gates.map CGate.lab) v.threads (v.seed c.mulBatches) (lab (v.cor c.used)) := rfl
            rw [← hf] at h0
            obtain ⟨ts, hts⟩ := Option.isSome_iff_exists.1 h0
            simp only [aprvMulCheck, e, mulCheckA_lab, hts, Option.map_some, Option.bind_eq_bind, Option.bind_some]
            exact ⟨_, rfl, hcs⟩
          · rw [if_neg hf]
            exact ⟨_, rfl, by rw [hg]; exact lt_of_le_of_ne hb.gates hf⟩
        obtain ⟨r, hr, hlt⟩ := hroom
        have e1 : (v.env d).checkSz = v.checkSz := rfl
        simp only [hr, Option.bind_some, aprvMulPush, e1, if_pos hlt, Option.isSome_some]
  | poly st =>
    simp only [aprvStep, aplainStep, hpl, hw, alookup_map]
    cases st.lookup c.wires with
    | none => simp
    | some p =>
      simp only [Option.map_some, Option.bind_eq_bind, Option.bind_some, Option.isSome_some, iff_true]
      have hroom : ∃ r, aprvPolyRoom (v.env d) (aprvOf c) = some r ∧ r.1.polys.length < v.polySz := by
        unfold aprvPolyRoom
        have hpp : ((aprvOf c).polys.length ≥ (v.env d).polySz ∧ (aprvOf c).polys ≠ []) ↔
          (c.polys.length ≥ v.polySz ∧ c.polys ≠ []) := by simp [aprvOf, AView.env]
        by_cases hf : c.polys.length ≥ v.polySz ∧ c.polys ≠ []
        · rw [if_pos (hpp.2 hf)]
          obtain ⟨ans, m1, m2⟩ := aprvPolyCheck_com v d hf.2 hon
          exact ⟨_, m1, by simpa [aprvOf, acomPolyCheck] using hp0⟩
        · rw [if_neg (fun h' => hf (hpp.1 h'))]
          refine ⟨_, rfl, ?_⟩
          have hg : (aprvOf c).polys.length = c.polys.length := by simp [aprvOf]
          rw [hg]
          by_contra hcon
          apply hf
          refine ⟨by omega, ?_⟩
          intro h
          rw [h] at hcon
          simp at hcon
          omega
      obtain ⟨r, hr, hlt⟩ := hroom
      have e1 : (v.env d).polySz = v.polySz := rfl
      simp only [hr, Option.bind_some, aprvPolyPush, e1, if_pos hlt, Option.isSome_some]

/-- Operands of a recorded multiplication. -/
def CGateAt (w : List (Fp × Fp)) (t : Nat × Nat × Nat) (g : CGate) : Prop :=
  w[t.1]? = some g.left ∧ w[t.2.1]? = some g.right ∧ w[t.2.2]? = some g.out

theorem CGateAt.append {w : List (Fp × Fp)} {t : Nat × Nat × Nat} {g : CGate} (h : CGateAt w t g) (w' : List (Fp × Fp)) :
    CGateAt (w ++ w') t g :=
  ⟨getElem?_append_of_some h.1 w', getElem?_append_of_some h.2.1 w', getElem?_append_of_some h.2.2 w'⟩

/-- What is recorded in a committed state about the program executed so far. -/
structure ARec (v : AView) (c : ACom) (ts : List (Nat × Nat × Nat)) (ss : List (APoly Nat)) : Prop where
  gates : List.Forall₂ (CGateAt c.wires) ts c.allGates
  stmts : List.Forall₂ (fun s p => s.lookup c.wires = some p) ss c.stmts
  cur : c.gates.length ≤ v.checkSz
  curP : c.polys.length ≤ v.polySz
  full : ∀ r ∈ c.mulLog, r.gates.length = v.checkSz
  fullP : ∀ r ∈ c.polyLog, r.polys.length = v.polySz
  pos : c.gates = [] → c.mulLog = []
  posP : c.polys = [] → c.polyLog = []

theorem ARec.init (v : AView) : ARec v ACom.init [] [] := by
  constructor <;> simp [ACom.init, ACom.allGates, ACom.stmts]

theorem ARec.grow {v : AView} {c c' : ACom} {ts ss} (h : ARec v c ts ss) (w' : List (Fp × Fp))
    (hw : c'.wires = c.wires ++ w') (h1 : c'.gates = c.gates) (h2 : c'.polys = c.polys)
    (h4 : c'.mulLog = c.mulLog) (h5 : c'.polyLog = c.polyLog) : ARec v c' ts ss := by
  constructor
  · have : c'.allGates = c.allGates := by simp [ACom.allGates, h1, h4]
    rw [this, hw]
    exact h.gates.imp (fun _ _ hg => hg.append w')
  · have : c'.stmts = c.stmts := by simp [ACom.stmts, h2, h5]
    rw [this, hw]
    exact h.stmts.imp (fun _ _ hg => alookup_append w' _ hg)
  · rw [h1]; exact h.cur
  · rw [h2]; exact h.curP
  · rw [h4]; exact h.full
  · rw [h5]; exact h.fullP
  · rw [h1, h4]; exact h.pos
  · rw [h2, h5]; exact h.posP

/-- Wires of the multiplications of a program, `n` being the number of wires before it. -/
def mulTriples : Nat → List AOp → List (Nat × Nat × Nat)
  | _, [] => []
  | n, .mul i j :: os => (i, j, n) :: mulTriples (n + 1) os
  | n, .input _ :: os => mulTriples (n + 1) os
  | n, .pub _ :: os => mulTriples (n + 1) os
  | n, .add _ _ :: os => mulTriples (n + 1) os
  | n, .mulc _ _ :: os => mulTriples (n + 1) os
  | n, _ :: os => mulTriples n os

/-- Statements of a program. -/
def apolyStmts : List AOp → List (APoly Nat)
  | [] => []
  | .poly s :: os => s :: apolyStmts os
  | _ :: os => apolyStmts os

theorem acomStep_rec {v : AView} {c c' : ACom} {ts ss} (h : ARec v c ts ss) {m : AMsg} {op : AOp}
    (hs : acomStep v c m op = some c') :
    ARec v c' (ts ++ mulTriples c.wires.length [op]) (ss ++ apolyStmts [op]) ∧
      (∀ os, mulTriples c.wires.length (op :: os) = mulTriples c.wires.length [op] ++ mulTriples c'.wires.length os) := by
  cases op with
  | input b =>
    simp only [acomStep, Option.some.injEq] at hs
    subst hs
    simp only [mulTriples, apolyStmts, List.append_nil, List.nil_append, List.length_append,
      List.length_singleton, implies_true, and_true]
    exact h.grow _ rfl rfl rfl rfl rfl
  | pub b =>
    simp only [acomStep, Option.some.injEq] at hs
    subst hs
    simp only [mulTriples, apolyStmts, List.append_nil, List.nil_append, List.length_append,
      List.length_singleton, implies_true, and_true]
    exact h.grow _ rfl rfl rfl rfl rfl
  | add i j =>
    simp only [acomStep, Option.bind_eq_bind, Option.bind_eq_some_iff, Option.some.injEq] at hs
    obtain ⟨a, _, b, _, rfl⟩ := hs
    simp only [mulTriples, apolyStmts, List.append_nil, List.nil_append, List.length_append,
      List.length_singleton, implies_true, and_true]
    exact h.grow _ rfl rfl rfl rfl rfl
  | mulc i k =>
    simp only [acomStep, Option.bind_eq_bind, Option.bind_eq_some_iff, Option.some.injEq] at hs
    obtain ⟨a, _, rfl⟩ := hs
    simp only [mulTriples, apolyStmts, List.append_nil, List.nil_append, List.length_append,
      List.length_singleton, implies_true, and_true]
    exact h.grow _ rfl rfl rfl rfl rfl
  | reveal i =>
    simp only [acomStep, Option.bind_eq_bind, Option.bind_eq_some_iff, Option.some.injEq] at hs
    obtain ⟨a, ha, rfl⟩ := hs
    simp only [mulTriples, apolyStmts, List.append_nil, List.nil_append, implies_true, and_true]
    exact ⟨h.gates, h.stmts, h.cur, h.curP, h.full, h.fullP, h.pos, h.posP⟩
  | revealCheck i x =>
    simp only [acomStep, Option.bind_eq_bind, Option.bind_eq_some_iff, Option.some.injEq] at hs
    obtain ⟨a, ha, rfl⟩ := hs
    simp only [mulTriples, apolyStmts, List.append_nil, List.nil_append, implies_true, and_true]
    exact ⟨h.gates, h.stmts, h.cur, h.curP, h.full, h.fullP, h.pos, h.posP⟩
  | revealZero i =>
    simp only [acomStep, Option.bind_eq_bind, Option.bind_eq_some_iff, Option.some.injEq] at hs
    obtain ⟨a, ha, rfl⟩ := hs
    simp only [mulTriples, apolyStmts, List.append_nil, List.nil_append, implies_true, and_true]
    exact ⟨h.gates, h.stmts, h.cur, h.curP, h.full, h.fullP, h.pos, h.posP⟩
  | mul i j =>
    simp only [acomStep, Option.bind_eq_bind, Option.bind_eq_some_iff] at hs
    obtain ⟨a, ha, b, hb, r, hr, hs⟩ := hs
    have hr' : r.allGates = c.allGates ∧ r.polys = c.polys ∧ r.polyLog = c.polyLog ∧ r.wires = c.wires ∧
        (∀ x ∈ r.mulLog, x.gates.length = v.checkSz) := by
      unfold acomMulRoom at hr
      split at hr
      · rename_i hf
        split at hr
        · simp only [Option.some.injEq] at hr; subst hr
          refine ⟨acomMulCheck_gates v c _, rfl, rfl, rfl, ?_⟩
          intro x hx
          simp only [acomMulCheck, List.mem_append, List.mem_singleton] at hx
          rcases hx with hx | rfl
          · exact h.full x hx
          · exact hf
        · simp at hr
      · simp only [Option.some.injEq] at hr; subst hr
        exact ⟨rfl, rfl, rfl, rfl, h.full⟩
    obtain ⟨hrg, hrp, hrpl, hrw, hrf⟩ := hr'
    unfold acomMulPush at hs
    split at hs
    · rename_i hlt
      simp only [Option.some.injEq] at hs
      subst hs
      simp only [mulTriples, apolyStmts, List.append_nil, List.cons_append, List.nil_append,
        List.length_append, List.length_singleton, hrw, implies_true, and_true]
      refine ⟨?_, ?_, ?_, ?_, hrf, ?_, ?_, ?_⟩
      · have e : ∀ g, (ACom.allGates ⟨c.wires ++ [(v.u r.used - fp m.w, v.mac r.used)], r.used + 1, r.gates ++ [g], r.polys,
            r.opened, r.outs, r.exps, r.mulBatches, r.polyBatches, r.mulLog, r.polyLog⟩) = c.allGates ++ [g] := by
          intro g
          rw [← hrg]
          simp [ACom.allGates]
        rw [e]
        refine forall2_append (h.gates.imp (fun _ _ hg => hg.append _)) ?_
        refine .cons ⟨getElem?_append_of_some ha _, getElem?_append_of_some hb _, ?_⟩ .nil
        simp
      · have e : ∀ g : List CGate, (ACom.stmts ⟨c.wires ++ [(v.u r.used - fp m.w, v.mac r.used)], r.used + 1, g, r.polys,
            r.opened, r.outs, r.exps, r.mulBatches, r.polyBatches, r.mulLog, r.polyLog⟩) = c.stmts := by
          intro g
          simp [ACom.stmts, hrp, hrpl]
        rw [e]
        exact h.stmts.imp (fun _ _ hg => alookup_append _ _ hg)
      · simpa using hlt
      · rw [hrp]; exact h.curP
      · rw [hrpl]; exact h.fullP
      · intro h0; simp at h0
      · rw [hrp, hrpl]; exact h.posP
    · simp at hs
  | poly st =>
    simp only [acomStep, Option.bind_eq_bind, Option.bind_eq_some_iff] at hs
    obtain ⟨p, hp, hs⟩ := hs
    have hr' : (acomPolyRoom v c m.ans).stmts = c.stmts ∧ (acomPolyRoom v c m.ans).gates = c.gates ∧
        (acomPolyRoom v c m.ans).mulLog = c.mulLog ∧ (acomPolyRoom v c m.ans).wires = c.wires ∧
        (∀ x ∈ (acomPolyRoom v c m.ans).polyLog, x.polys.length = v.polySz) := by
      unfold acomPolyRoom
      split
      · rename_i hf
        refine ⟨acomPolyCheck_stmts v c _, rfl, rfl, rfl, ?_⟩
        intro x hx
        simp only [acomPolyCheck, List.mem_append, List.mem_singleton] at hx
        rcases hx with hx | rfl
        · exact h.fullP x hx
        · exact le_antisymm h.curP hf.1
      · exact ⟨rfl, rfl, rfl, rfl, h.fullP⟩
    obtain ⟨hrs, hrg, hrl, hrw, hrf⟩ := hr'
    generalize acomPolyRoom v c m.ans = r at *
    unfold acomPolyPush at hs
    split at hs
    · rename_i hlt
      simp only [Option.some.injEq] at hs
      subst hs
      simp only [mulTriples, apolyStmts, List.append_nil, List.nil_append, hrw, implies_true, and_true]
      refine ⟨?_, ?_, ?_, ?_, ?_, hrf, ?_, ?_⟩
      · have e : ∀ q : List (APoly (Fp × Fp)), (ACom.allGates ⟨c.wires, r.used, r.gates, q,
            r.opened, r.outs, r.exps, r.mulBatches, r.polyBatches, r.mulLog, r.polyLog⟩) = c.allGates := by
          intro g
          simp [ACom.allGates, hrg, hrl]
        rw [e]
        exact h.gates
      · have e : ∀ q : APoly (Fp × Fp), (ACom.stmts ⟨c.wires, r.used, r.gates, r.polys ++ [q],
            r.opened, r.outs, r.exps, r.mulBatches, r.polyBatches, r.mulLog, r.polyLog⟩) = c.stmts ++ [q] := by
          intro g
          rw [← hrs]
          simp [ACom.stmts]
        rw [e]
        exact forall2_append h.stmts (.cons hp .nil)
      · rw [hrg]; exact h.cur
      · simpa using hlt
      · rw [hrl]; exact h.full
      · rw [hrg, hrl]; exact h.pos
      · intro h0; simp at h0
    · simp at hs

theorem apolyStmts_cons (op : AOp) (os : List AOp) : apolyStmts (op :: os) = apolyStmts [op] ++ apolyStmts os := by
  cases op <;> simp [apolyStmts]

theorem acomRun_rec {v : AView} (ops : List AOp) : ∀ {c c' : ACom} {ts ss} {ms : List AMsg},
    ARec v c ts ss → acomRun v c ops ms = some c' →
    ARec v c' (ts ++ mulTriples c.wires.length ops) (ss ++ apolyStmts ops) := by
  induction ops with
  | nil =>
    intro c c' ts ss ms h hs
    cases ms with
    | nil => simp only [acomRun, Option.some.injEq] at hs; subst hs; simpa [mulTriples, apolyStmts] using h
    | cons => simp [acomRun] at hs
  | cons o os ih =>
    intro c c' ts ss ms h hs
    cases ms with
    | nil => simp [acomRun] at hs
    | cons m ms =>
      simp only [acomRun, Option.bind_eq_bind, Option.bind_eq_some_iff] at hs
      obtain ⟨c1, h1, h2⟩ := hs
      obtain ⟨k1, k3⟩ := acomStep_rec h h1
      have := ih k1 h2
      rw [k3 os, apolyStmts_cons, ← List.append_assoc, ← List.append_assoc]
      exact this

/-- The honest prover runs to the end exactly on well-formed programs. -/
theorem aprvRun_isSome (v : AView) (d : Fp) (h0 : (mulTasks v.checkSz v.threads).isSome) (hp0 : 0 < v.polySz)
    (ops : List AOp) : ∀ {c : ACom} {pl : APlain} {ts ss}, (∀ o ∈ ops, o.CanonC) → ARec v c ts ss → AHon v c →
    APlainOf c pl → ((aprvRun (v.env d) (aprvOf c) ops).isSome ↔ (ops.foldlM aplainStep pl).isSome) := by
  induction ops with
  | nil => intro c pl ts ss _ _ _ _; simp [aprvRun]
  | cons o os ih =>
    intro c pl ts ss ho hr hon hpl
    have h1 := aprvStep_isSome (d := d) h0 hp0 ⟨hr.cur, hr.curP⟩ hon o hpl.wires
    cases hs : aprvStep (v.env d) (aprvOf c) o with
    | none =>
      rw [hs] at h1
      simp only [Option.isSome_none, Bool.false_eq_true, false_iff, Bool.not_eq_true, Option.isSome_eq_false_iff,
        Option.isNone_iff_eq_none] at h1
      simp [aprvRun, hs, List.foldlM_cons, h1]
    | some q =>
      obtain ⟨c1, k1, k2, k3, _, pl1, k4, k6⟩ := aprvStep_com v d (ho o (by simp)) hs hon hpl
      have := ih (fun x hx => ho x (by simp [hx])) (acomStep_rec hr k1).1 k3 k6
      simp only [aprvRun, hs, Option.bind_eq_bind, Option.bind_some, List.foldlM_cons, k4, k2]
      rw [← this]
      cases aprvRun (v.env d) (aprvOf c1) os <;> simp

theorem mulTriples_length (n : Nat) (ops : List AOp) : (mulTriples n ops).length = mulCount ops := by
  induction ops generalizing n with
  | nil => rfl
  | cons o os ih => cases o <;> simp [mulTriples, mulCount, ih]

theorem aflatMap_length_const {v : AView} (l : List ComMul) (h : ∀ r ∈ l, r.gates.length = v.checkSz) :
    (l.flatMap ComMul.gates).length = l.length * v.checkSz := by
  induction l with
  | nil => simp
  | cons a l ih =>
    simp only [List.flatMap_cons, List.length_append, List.length_cons, ih (fun r hr => h r (by simp [hr])),
      h a (by simp)]
    ring

theorem acomRun_lastBatch {v : AView} {ops : List AOp} {c : ACom} {ms : List AMsg}
    (h : acomRun v ACom.init ops ms = some c) : c.gates.length = lastBatch (mulCount ops) v.checkSz := by
  have hr := acomRun_rec ops (ARec.init v) h
  have hl : mulCount ops = c.mulLog.length * v.checkSz + c.gates.length := by
    have := hr.gates.length_eq
    simp only [ACom.init, List.length_nil, List.nil_append, mulTriples_length] at this
    rw [this, ACom.allGates, List.length_append, aflatMap_length_const _ hr.full]
  have hle := hr.cur
  unfold lastBatch
  by_cases hg : c.gates = []
  · have := hr.pos hg
    rw [this, hg] at hl
    simp at hl
    rw [hl, hg]; simp
  · have hgl : 0 < c.gates.length := List.length_pos_iff.2 hg
    rw [if_neg (by omega), hl]
    have : c.mulLog.length * v.checkSz + c.gates.length - 1 = v.checkSz * c.mulLog.length + (c.gates.length - 1) := by
      rw [Nat.mul_comm]; omega
    rw [this, Nat.mul_add_mod, Nat.mod_eq_of_lt (by omega)]
    omega

theorem acomFinalize_facts {v : AView} {c c' : ACom} {m : AFin} (h : acomFinalize v c m = some c') :
    c'.allGates = c.allGates ∧ c'.opened = c.opened ∧ c'.outs = c.outs ∧ c'.exps = c.exps ∧ c'.wires = c.wires ∧
      c'.gates = [] ∧ c'.polys = [] ∧ c'.stmts = c.stmts := by
  have h1 : (acomFinPoly v c m.polyAns).allGates = c.allGates ∧ (acomFinPoly v c m.polyAns).opened = c.opened ∧
      (acomFinPoly v c m.polyAns).outs = c.outs ∧ (acomFinPoly v c m.polyAns).exps = c.exps ∧
      (acomFinPoly v c m.polyAns).wires = c.wires ∧
      (acomFinPoly v c m.polyAns).polys = [] ∧ (acomFinPoly v c m.polyAns).stmts = c.stmts := by
    unfold acomFinPoly
    split
    · exact ⟨rfl, rfl, rfl, rfl, rfl, rfl, acomPolyCheck_stmts _ _ _⟩
    · rename_i hp
      exact ⟨rfl, rfl, rfl, rfl, rfl, by simpa using hp, rfl⟩
  obtain ⟨a1, a2, a3, a4, a5, a6, a7⟩ := h1
  unfold acomFinalize acomFinMul at h
  split at h
  · split at h
    · simp only [Option.some.injEq] at h
      subst h
      exact ⟨by rw [acomMulCheck_gates, a1], a2, a3, a4, a5, rfl, a6, a7⟩
    · simp at h
  · rename_i hg
    simp only [Option.some.injEq] at h
    subst h
    exact ⟨a1, a2, a3, a4, a5, by simpa using hg, a6, a7⟩

/-! ### honest sessions are accepted -/

theorem taskSum_correct (buf : List CGate) (hc : ∀ g ∈ buf, g.Correct) (seeds : Nat → Fp) (ts : List (Nat × Nat)) (i : Nat) :
    taskSum CGate.err buf seeds ts i = 0 := by
  induction ts generalizing i with
  | nil => rfl
  | cons t ts ih =>
    rw [taskSum, ih, add_zero]
    apply chiSum_zero
    intro g hg
    exact CGate.err_eq_zero.2 (hc g (List.mem_of_mem_drop (List.mem_of_mem_take hg)))

theorem ahonest_accepts (v : AView) (d : Fp) {ops : List AOp} (ho : ∀ o ∈ ops, o.CanonC)
    {ms : List AMsg} (hm : ∀ m ∈ ms, m.CanonM) {fin : AFin} {c : ACom} (k1 : acomSession v ops ms fin = some c)
    (hon : AHon v c) {pl : APlain} (hpl : APlainOf c pl) (hz : ∀ x ∈ pl.claims, x = 0)
    (k5 : fin.digest = v.hash (c.opened.map (fun o => toW o.1.2))) :
    ∃ ab ch, averSession (v.env d) ops ms fin = some (averImg d c ab ch) ∧ (averImg d c ab ch).accepted = true := by
  obtain ⟨ab, ch, k6⟩ := averSession_img v d ops ho ms hm fin
  rw [k1, Option.map_some] at k6
  refine ⟨ab, ch, k6, ?_⟩
  obtain ⟨z1, z2, z3⟩ := hpl.claims hz
  rw [accepted_session k6]
  refine ⟨?_, ?_, ?_, ?_⟩
  · intro r hr
    simp only [averImg, List.mem_map] at hr
    obtain ⟨r', hr', rfl⟩ := hr
    obtain ⟨ts, hts, hans⟩ := hon.mulLog r' hr'
    have hgc : ∀ g ∈ r'.gates, g.Correct := by
      intro g hg
      apply hon.gates
      simp only [ACom.allGates, List.mem_append, List.mem_flatMap]
      exact Or.inl ⟨r', hr', hg⟩
    refine (mulCheckB_keyAt d r'.gates v.threads r'.seeds (v.cor r'.ope) r'.ans).trans ?_
    rw [hts, Option.map_some, hans]
    simp only [Option.some.injEq, beq_iff_eq, multMod_toW, addMod_toW]
    congr 1
    rw [mulErr, taskSum_correct _ hgc]
    ring
  · intro x hx
    simp only [averImg, List.mem_map] at hx
    obtain ⟨y, hy, rfl⟩ := hx
    exact z3 y hy
  · intro r hr
    simp only [averImg, List.mem_map] at hr
    obtain ⟨r', hr', rfl⟩ := hr
    obtain ⟨hne, hans⟩ := hon.polyLog r' hr'
    have hcan : ∀ p ∈ r'.polys, p.CanonC := by
      intro p hp
      apply hon.canon
      simp only [ACom.stmts, List.mem_append, List.mem_flatMap]
      exact Or.inl ⟨r', hr', hp⟩
    refine (apolyCheckB_keyAt d r'.polys hcan hne r'.seed (v.cor r'.ope) r'.ans).trans ?_
    rw [chiSum_zero _ _ _ (fun p hp => by
      apply z2
      simp only [ACom.stmts, List.mem_append, List.mem_flatMap]
      exact Or.inl ⟨r', hr', hp⟩), hans]
    simp only [Option.some.injEq, beq_iff_eq, multMod_toW, addMod_toW]
    congr 1
    ring
  · rw [k5]
    show v.hash _ = v.hash _
    congr 1
    simp only [averImg]
    apply List.map_congr_left
    intro o h
    rw [z1 o h]
    congr 1
    ring

/-! ### soundness -/

theorem taskSum_agree {α : Type} (f : α → Fp) (buf : List α) (tasks : List (Nat × Nat)) :
    ∀ (i t : Nat) (ht : t < tasks.length) (s s' : Nat → Fp), (∀ j, j ≠ i + t → s j = s' j) →
    taskSum f buf s tasks i + chiSum (s' (i + t)) ((taskSlice buf tasks[t]).map f) =
      taskSum f buf s' tasks i + chiSum (s (i + t)) ((taskSlice buf tasks[t]).map f) := by
  induction tasks with
  | nil => intro i t ht; simp at ht
  | cons a ts ih =>
    intro i t ht s s' hag
    have hrest : ∀ (k : Nat), i + t < k → taskSum f buf s ts k = taskSum f buf s' ts k := by
      clear ih ht
      induction ts with
      | nil => intro k _; rfl
      | cons b ts ih2 =>
        intro k hk
        rw [taskSum, taskSum, ih2 (k + 1) (by omega), hag k (by omega)]
    cases t with
    | zero =>
      simp only [List.getElem_cons_zero, taskSum, Nat.add_zero] at *
      rw [hrest (i + 1) (by omega)]
      ring
    | succ t =>
      have := ih (i + 1) t (by simpa using ht) s s' (by intro j hj; exact hag j (by omega))
      rw [show i + 1 + t = i + (t + 1) by omega] at this
      simp only [List.getElem_cons_succ, taskSum, hag i (by omega)]
      linear_combination this

/-- Few seeds hide a wrong product. -/
theorem card_bad_seedsA (buf : List CGate) (T : Nat) (tasks : List (Nat × Nat))
    (t : Fin T) (ht : t.1 < tasks.length) (hbad : ∃ g ∈ taskSlice buf tasks[t.1], ¬ g.Correct) :
    (Finset.univ.filter (fun s : Fin T → Fp => taskSum CGate.err buf (extendSeeds s) tasks 0 = 0)).card ≤
      (tasks[t.1]).2 * Fintype.card Fp ^ (T - 1) := by
  have := card_coord_le (ι := Fin T) (F := Fp) (fun s => taskSum CGate.err buf (extendSeeds s) tasks 0 = 0) t
    ((tasks[t.1]).2) (by
      intro s0 xs hxs
      obtain ⟨g, hg, hne⟩ := hbad
      have hle : ∀ c, (Finset.univ.filter (fun x : Fp => chiSum x ((taskSlice buf tasks[t.1]).map CGate.err) = c)).card ≤
          (tasks[t.1]).2 := by
        intro c
        refine (card_seeds_le _ ⟨g.err, List.mem_map_of_mem hg, fun h => hne (CGate.err_eq_zero.1 h)⟩ c).trans ?_
        rw [List.length_map]
        exact taskSlice_length _ _
      refine (Finset.card_le_card ?_).trans (hle (chiSum (extendSeeds s0 t.1) ((taskSlice buf tasks[t.1]).map CGate.err) -
        taskSum CGate.err buf (extendSeeds s0) tasks 0))
      intro x hx
      rw [Finset.mem_filter]
      refine ⟨Finset.mem_univ _, ?_⟩
      have h1 := hxs x hx
      have h2 := taskSum_agree CGate.err buf tasks 0 t.1 ht (extendSeeds (Function.update s0 t x)) (extendSeeds s0) (by
        intro j hj
        rw [extendSeeds_update, if_neg (by omega)])
      rw [h1, zero_add, Nat.zero_add, extendSeeds_update, if_pos rfl] at h2
      rw [h2]; ring)
  rw [Fintype.card_fin] at this
  exact this

/-- Solutions of one of two equations. -/
theorem card_or_le {α : Type} [DecidableEq α] (D : Finset α) (P Q : α → Prop) (n m : Nat)
    (h : ∀ d ∈ D, P d ∨ Q d) (hP : ∀ E : Finset α, (∀ d ∈ E, P d) → E.card ≤ n)
    (hQ : ∀ E : Finset α, (∀ d ∈ E, Q d) → E.card ≤ m) : D.card ≤ n + m := by
  classical
  have : D ⊆ D.filter P ∪ D.filter Q := by
    intro d hd
    rw [Finset.mem_union, Finset.mem_filter, Finset.mem_filter]
    rcases h d hd with h | h
    · exact Or.inl ⟨hd, h⟩
    · exact Or.inr ⟨hd, h⟩
  refine (Finset.card_le_card this).trans ((Finset.card_union_le _ _).trans (Nat.add_le_add ?_ ?_))
  · exact hP _ (fun d hd => (Finset.mem_filter.1 hd).2)
  · exact hQ _ (fun d hd => (Finset.mem_filter.1 hd).2)

/-- The words compared by the checks: at most four `Delta` for arbitrary answers, two for canonical ones. -/
theorem word_quad_le (a b k : Fp) (x y : W) (ha : a ≠ 0) (D : Finset Fp)
    (hD : ∀ d ∈ D, x = addMod (multMod y (toW d)) (toW (k + b * d + a * (d * d)))) :
    D.card ≤ 4 ∧ (Canon y → D.card ≤ 2) := by
  constructor
  · refine card_or_le D (fun d => a * (d * d) + (b + fp y) * d + (k - fp x) = 0)
      (fun d => a * (d * d) + (b + fp y) * d + (k - fp x - 8) = 0) 2 2 ?_ (fun E hE => card_quad_le _ _ _ ha E hE)
      (fun E hE => card_quad_le _ _ _ ha E hE)
    intro d hd
    obtain ⟨c, hc⟩ := fp_open_any y d (k + b * d + a * (d * d))
    rw [← hD d hd] at hc
    cases c with
    | false => left; simp only [Bool.false_eq_true, if_false] at hc; rw [hc]; ring
    | true => right; simp only [if_true] at hc; rw [hc]; ring
  · intro hy
    refine card_quad_le a (b + fp y) (k - fp x) ha D ?_
    intro d hd
    have h := hD d hd
    conv at h => rhs; rw [← toW_fp hy]
    rw [multMod_toW, addMod_toW] at h
    rw [h, fp_toW]
    ring

/-- Arithmetic multiplication check: at most four values of `Delta` (two if the answer is canonical) pass once the combined
error is not zero. -/
theorem adelta_le (buf : List CGate) (threads : Nat) (seeds : Nat → U128) (ope : Fp × Fp) (ans : W × W)
    (tasks : List (Nat × Nat)) (hs : mulTasks buf.length threads = some tasks) (he : mulErr buf seeds tasks ≠ 0)
    (D : Finset Fp) (hD : ∀ d ∈ D,
      mulCheckB (toW d) (buf.map (CGate.keyAt d)) threads seeds (keyAt d ope) ans = some true) :
    D.card ≤ 4 ∧ (Canon ans.2 → D.card ≤ 2) := by
  refine word_quad_le (mulErr buf seeds tasks) (-(mulAns buf seeds tasks ope).2) (mulAns buf seeds tasks ope).1 ans.1 ans.2
    he D ?_
  intro d hd
  have := hD d hd
  rw [mulCheckB_keyAt, hs, Option.map_some, Option.some.injEq, beq_iff_eq] at this
  rw [this]
  congr 2
  ring

theorem apdelta_le (buf : List (APoly (Fp × Fp))) (hc : ∀ p ∈ buf, p.CanonC) (hb : buf ≠ []) (seed : Fp) (ope : Fp × Fp)
    (ans : W × W) (he : chiSum seed (buf.map APoly.value) ≠ 0) (D : Finset Fp)
    (hD : ∀ d ∈ D, apolyCheckB (toW d) (buf.map (fun p => apolyB (toW d) (p.map (keyAt d)))) (toW seed) (keyAt d ope) ans
      = some true) :
    D.card ≤ 4 ∧ (Canon ans.2 → D.card ≤ 2) := by
  refine word_quad_le (chiSum seed (buf.map APoly.value)) (-(polyAns buf seed ope).2) (polyAns buf seed ope).1 ans.1 ans.2
    he D ?_
  intro d hd
  have := hD d hd
  rw [apolyCheckB_keyAt d buf hc hb, Option.some.injEq, beq_iff_eq] at this
  rw [← this]
  unfold addMod
  rw [BitVec.add_comm]
  congr 3
  ring

/-! ### extraction -/

/-- What has to be checked of a committed state for it to describe a plain run. -/
structure AFaithful (c : ACom) : Prop where
  gates : ∀ g ∈ c.allGates, g.Correct
  opened : ∀ o ∈ c.opened, o.2 = o.1.1
  stmts : ∀ p ∈ c.stmts, p.value = 0
  exps : ∀ x ∈ c.exps, x.1 = toW x.2

theorem acomMulRoom_facts {v : AView} {c r : ACom} {ans : W × W} (h : acomMulRoom v c ans = some r) :
    r.allGates = c.allGates ∧ r.opened = c.opened ∧ r.stmts = c.stmts ∧ r.exps = c.exps ∧ r.wires = c.wires ∧
      r.outs = c.outs := by
  unfold acomMulRoom at h
  split at h
  · split at h
    · simp only [Option.some.injEq] at h
      subst h
      exact ⟨acomMulCheck_gates _ _ _, rfl, rfl, rfl, rfl, rfl⟩
    · simp at h
  · simp only [Option.some.injEq] at h
    subst h
    exact ⟨rfl, rfl, rfl, rfl, rfl, rfl⟩

theorem acomPolyRoom_facts {v : AView} {c : ACom} {ans : W × W} :
    (acomPolyRoom v c ans).allGates = c.allGates ∧ (acomPolyRoom v c ans).opened = c.opened ∧
      (acomPolyRoom v c ans).stmts = c.stmts ∧ (acomPolyRoom v c ans).exps = c.exps ∧
      (acomPolyRoom v c ans).wires = c.wires ∧ (acomPolyRoom v c ans).outs = c.outs := by
  unfold acomPolyRoom
  split
  · exact ⟨rfl, rfl, acomPolyCheck_stmts _ _ _, rfl, rfl, rfl⟩
  · exact ⟨rfl, rfl, rfl, rfl, rfl, rfl⟩

theorem acomStep_faithful {v : AView} {c c' : ACom} {m : AMsg} {op : AOp} (h : acomStep v c m op = some c')
    (hf : AFaithful c') : AFaithful c ∧ ∃ op', AOp.same op op' ∧ (op.CanonC → op'.CanonC) ∧
      ∀ pl : APlain, pl.wires = c.wires.map Prod.fst → pl.outs = c.outs → (∀ x ∈ pl.claims, x = 0) →
        ∃ pl', aplainStep pl op' = some pl' ∧ pl'.wires = c'.wires.map Prod.fst ∧ pl'.outs = c'.outs ∧
          (op.CanonC → ∀ x ∈ pl'.claims, x = 0) := by
  have hpw : ∀ pl : APlain, pl.wires = c.wires.map Prod.fst → ∀ i : Nat, pl.wires[i]? = (c.wires[i]?).map Prod.fst := by
    intro pl h i; rw [h, List.getElem?_map]
  cases op with
  | input w =>
    simp only [acomStep, Option.some.injEq] at h
    subst h
    refine ⟨⟨hf.gates, hf.opened, hf.stmts, hf.exps⟩, .input (toW (v.u c.used - fp m.w)), trivial,
      fun _ => canon_toW _, fun pl h1 h2 h3 => ⟨_, rfl, ?_, h2, fun _ => h3⟩⟩
    simp [h1, fp_toW]
  | pub w =>
    simp only [acomStep, Option.some.injEq] at h
    subst h
    refine ⟨⟨hf.gates, hf.opened, hf.stmts, hf.exps⟩, .pub w, rfl,
      id, fun pl h1 h2 h3 => ⟨_, rfl, ?_, h2, fun _ => h3⟩⟩
    simp [h1]
  | add i j =>
    simp only [acomStep, Option.bind_eq_bind, Option.bind_eq_some_iff, Option.some.injEq] at h
    obtain ⟨a, ha, b, hb, rfl⟩ := h
    refine ⟨⟨hf.gates, hf.opened, hf.stmts, hf.exps⟩, .add i j, rfl, id, fun pl h1 h2 h3 =>
      ⟨{ pl with wires := pl.wires ++ [a.1 + b.1] }, ?_, ?_, h2, fun _ => h3⟩⟩
    · simp [aplainStep, hpw pl h1, ha, hb]
    · simp [h1]
  | mulc i k =>
    simp only [acomStep, Option.bind_eq_bind, Option.bind_eq_some_iff, Option.some.injEq] at h
    obtain ⟨a, ha, rfl⟩ := h
    refine ⟨⟨hf.gates, hf.opened, hf.stmts, hf.exps⟩, .mulc i k, rfl, id, fun pl h1 h2 h3 =>
      ⟨{ pl with wires := pl.wires ++ [a.1 * fp k] }, ?_, ?_, h2, fun _ => h3⟩⟩
    · simp [aplainStep, hpw pl h1, ha]
    · simp [h1]
  | reveal i =>
    simp only [acomStep, Option.bind_eq_bind, Option.bind_eq_some_iff, Option.some.injEq] at h
    obtain ⟨a, ha, rfl⟩ := h
    have ho : fp m.w = a.1 := hf.opened (a, fp m.w) (by simp)
    refine ⟨⟨hf.gates, fun o h => hf.opened o (by simp [h]), hf.stmts, hf.exps⟩, .reveal i, rfl, id, fun pl h1 h2 h3 =>
      ⟨{ pl with outs := pl.outs ++ [a.1] }, ?_, h1, ?_, fun _ => h3⟩⟩
    · simp [aplainStep, hpw pl h1, ha]
    · simp [h2, ho]
  | revealCheck i x =>
    simp only [acomStep, Option.bind_eq_bind, Option.bind_eq_some_iff, Option.some.injEq] at h
    obtain ⟨a, ha, rfl⟩ := h
    have ho : fp m.w = a.1 := hf.opened (a, fp m.w) (by simp)
    have hx : x = toW (fp m.w) := hf.exps (x, fp m.w) (by simp)
    refine ⟨⟨hf.gates, fun o h => hf.opened o (by simp [h]), hf.stmts, fun o h => hf.exps o (by simp [h])⟩,
      .revealCheck i x, rfl, id, fun pl h1 h2 h3 =>
      ⟨{ pl with claims := pl.claims ++ [a.1 - fp x] }, ?_, h1, h2, fun _ => ?_⟩⟩
    · simp [aplainStep, hpw pl h1, ha]
    · simp only [List.forall_mem_append, List.forall_mem_singleton]
      exact ⟨h3, by rw [hx, fp_toW, ho, sub_self]⟩
  | revealZero i =>
    simp only [acomStep, Option.bind_eq_bind, Option.bind_eq_some_iff, Option.some.injEq] at h
    obtain ⟨a, ha, rfl⟩ := h
    have ho : 0 = a.1 := hf.opened (a, 0) (by simp)
    refine ⟨⟨hf.gates, fun o h => hf.opened o (by simp [h]), hf.stmts, hf.exps⟩,
      .revealZero i, rfl, id, fun pl h1 h2 h3 =>
      ⟨{ pl with claims := pl.claims ++ [a.1] }, ?_, h1, h2, fun _ => ?_⟩⟩
    · simp [aplainStep, hpw pl h1, ha]
    · simp only [List.forall_mem_append, List.forall_mem_singleton]
      exact ⟨h3, ho.symm⟩
  | mul i j =>
    simp only [acomStep, Option.bind_eq_bind, Option.bind_eq_some_iff] at h
    obtain ⟨a, ha, b, hb, r, hr, hs⟩ := h
    obtain ⟨k1, k2, k3, k4, k5, k6⟩ := acomMulRoom_facts hr
    unfold acomMulPush at hs
    split at hs
    · simp only [Option.some.injEq] at hs
      subst hs
      have hc : v.u r.used - fp m.w = a.1 * b.1 :=
        hf.gates ⟨a, b, v.u r.used - fp m.w, v.mac r.used⟩ (by simp [ACom.allGates])
      refine ⟨⟨?_, ?_, ?_, ?_⟩, .mul i j, rfl, id, fun pl h1 h2 h3 =>
        ⟨{ pl with wires := pl.wires ++ [a.1 * b.1] }, ?_, ?_, ?_, fun _ => h3⟩⟩
      · intro g hg
        apply hf.gates
        rw [← k1] at hg
        simp only [ACom.allGates, ← List.append_assoc, List.mem_append] at hg ⊢
        exact Or.inl hg
      · rw [← k2]; exact hf.opened
      · rw [← k3]; exact hf.stmts
      · rw [← k4]; exact hf.exps
      · simp [aplainStep, hpw pl h1, ha, hb]
      · simp [h1, k5, hc]
      · simp [h2, k6]
    · simp at hs
  | poly st =>
    simp only [acomStep, Option.bind_eq_bind, Option.bind_eq_some_iff] at h
    obtain ⟨p, hp, hs⟩ := h
    obtain ⟨k1, k2, k3, k4, k5, k6⟩ := acomPolyRoom_facts (v := v) (c := c) (ans := m.ans)
    unfold acomPolyPush at hs
    split at hs
    · simp only [Option.some.injEq] at hs
      subst hs
      refine ⟨⟨?_, ?_, ?_, ?_⟩, .poly st, rfl, id, fun pl h1 h2 h3 =>
        ⟨{ pl with claims := pl.claims ++ [p.value] }, ?_, ?_, ?_, fun _ => ?_⟩⟩
      · rw [← k1]; exact hf.gates
      · rw [← k2]; exact hf.opened
      · intro s hs
        apply hf.stmts
        rw [← k3] at hs
        simp only [ACom.stmts, ← List.append_assoc, List.mem_append] at hs ⊢
        exact Or.inl hs
      · rw [← k4]; exact hf.exps
      · simp [aplainStep, h1, alookup_map, hp, APoly.value]
      · simp [h1, k5]
      · simp [h2, k6]
      · simp only [List.forall_mem_append, List.forall_mem_singleton]
        exact ⟨h3, hf.stmts p (by simp [ACom.stmts])⟩
    · simp at hs

theorem acomRun_faithful {v : AView} (ops : List AOp) : ∀ {c c' : ACom} {ms : List AMsg}, (∀ o ∈ ops, o.CanonC) →
    acomRun v c ops ms = some c' → AFaithful c' → AFaithful c ∧
    ∃ ops', List.Forall₂ AOp.same ops ops' ∧ (∀ o ∈ ops', o.CanonC) ∧
      ∀ pl : APlain, pl.wires = c.wires.map Prod.fst → pl.outs = c.outs → (∀ x ∈ pl.claims, x = 0) →
        ∃ pl', ops'.foldlM aplainStep pl = some pl' ∧ pl'.wires = c'.wires.map Prod.fst ∧ pl'.outs = c'.outs ∧
          ∀ x ∈ pl'.claims, x = 0 := by
  induction ops with
  | nil =>
    intro c c' ms _ hs hf
    cases ms with
    | nil =>
      simp only [acomRun, Option.some.injEq] at hs; subst hs
      exact ⟨hf, [], .nil, by simp, fun pl h1 h2 h3 => ⟨pl, rfl, h1, h2, h3⟩⟩
    | cons => simp [acomRun] at hs
  | cons o os ih =>
    intro c c' ms ho hs hf
    cases ms with
    | nil => simp [acomRun] at hs
    | cons m ms =>
      simp only [acomRun, Option.bind_eq_bind, Option.bind_eq_some_iff] at hs
      obtain ⟨c1, h1, h2⟩ := hs
      obtain ⟨f1, ops', k1, kc, k2⟩ := ih (fun x hx => ho x (by simp [hx])) h2 hf
      obtain ⟨f0, o', l1, lc, l2⟩ := acomStep_faithful h1 f1
      refine ⟨f0, o' :: ops', .cons l1 k1, ?_, ?_⟩
      · intro x hx
        simp only [List.mem_cons] at hx
        rcases hx with rfl | hx
        · exact lc (ho o (by simp))
        · exact kc x hx
      · intro pl p1 p2 p3
        obtain ⟨pl1, q1, q2, q3, q4⟩ := l2 pl p1 p2 p3
        obtain ⟨pl2, r1, r2, r3, r4⟩ := k2 pl1 q2 q3 (q4 (ho o (by simp)))
        exact ⟨pl2, by simp only [List.foldlM_cons, q1, Option.bind_eq_bind, Option.bind_some, r1], r2, r3, r4⟩

/-- A whole session. -/
theorem acomSession_faithful {v : AView} {ops : List AOp} (ho : ∀ o ∈ ops, o.CanonC) {ms : List AMsg} {fin : AFin}
    {c : ACom} (h : acomSession v ops ms fin = some c) (hf : AFaithful c) :
    ∃ ops' pl, List.Forall₂ AOp.same ops ops' ∧ (∀ o ∈ ops', o.CanonC) ∧ aplainRun ops' = some pl ∧
      pl.wires = c.wires.map Prod.fst ∧ pl.outs = c.outs ∧ ∀ x ∈ pl.claims, x = 0 := by
  simp only [acomSession, Option.bind_eq_bind, Option.bind_eq_some_iff] at h
  obtain ⟨c1, h1, h2⟩ := h
  obtain ⟨k1, k2, k3, k4, k5, _, _, k8⟩ := acomFinalize_facts h2
  obtain ⟨_, ops', l1, lc, l2⟩ := acomRun_faithful ops ho h1
    ⟨by rw [← k1]; exact hf.gates, by rw [← k2]; exact hf.opened, by rw [← k8]; exact hf.stmts, by rw [← k4]; exact hf.exps⟩
  obtain ⟨pl, p1, p2, p3, p4⟩ := l2 ⟨[], [], []⟩ rfl rfl (by simp)
  exact ⟨ops', pl, l1, lc, p1, by rw [p2, k5], by rw [p3, k3], p4⟩

end EmpZk
