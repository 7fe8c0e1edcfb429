/-
Arithmetic protocol against a strategy: what is committed in a batch does not depend on its seeds; counting.
-/
import Verif.Spec.ArithGame
import Verif.Lemmas.ArithSound
import Verif.Lemmas.Count
import Mathlib.Data.Nat.Find

namespace EmpZk

/-! ### positions -/

/-- The last position at which a counter is at most `lim`. -/
def lastIdx (f : Nat → Nat) (lim n : Nat) : Nat := Nat.findGreatest (fun k => f k ≤ lim) n

theorem lastIdx_le (f : Nat → Nat) (lim n : Nat) : lastIdx f lim n ≤ n := Nat.findGreatest_le n

theorem lastIdx_spec (f : Nat → Nat) (lim n : Nat) (h0 : f 0 = 0) : f (lastIdx f lim n) ≤ lim :=
  Nat.findGreatest_spec (P := fun k => f k ≤ lim) (Nat.zero_le n) (by rw [h0]; exact Nat.zero_le _)

theorem lastIdx_top (f : Nat → Nat) (lim n : Nat) (h : f n ≤ lim) : lastIdx f lim n = n := by
  unfold lastIdx
  rw [Nat.findGreatest_eq_iff]
  exact ⟨le_refl _, fun _ => h, fun k h1 h2 => absurd h1 (by omega)⟩

theorem lastIdx_mid (f : Nat → Nat) (hm : Monotone f) (lim n m : Nat) (hmn : m ≤ n) (h : f m ≤ lim) (h2 : lim < f (m + 1)) :
    lastIdx f lim n = m := by
  unfold lastIdx
  rw [Nat.findGreatest_eq_iff]
  refine ⟨hmn, fun _ => h, ?_⟩
  intro k h1 _ hk
  have := hm (show m + 1 ≤ k by omega)
  omega

theorem lastIdx_reach (f : Nat → Nat) (hs : ∀ k, f (k + 1) ≤ f k + 1) (h0 : f 0 = 0) (lim n : Nat) : min lim (f n) ≤ f (lastIdx f lim n) := by
  rcases Nat.lt_or_ge (lastIdx f lim n) n with h | h
  · have h1 := Nat.findGreatest_is_greatest (P := fun k => f k ≤ lim) (n := n) (k := lastIdx f lim n + 1)
      (Nat.lt_succ_self _) h
    have := hs (lastIdx f lim n)
    have h1' : ¬ f (lastIdx f lim n + 1) ≤ lim := h1
    omega
  · have : lastIdx f lim n = n := le_antisymm (lastIdx_le _ _ _) h
    rw [this]; exact Nat.min_le_right _ _

/-! ### counters of a program -/

theorem mulCount_append (a b : List AOp) : mulCount (a ++ b) = mulCount a + mulCount b := by
  induction a with
  | nil => simp [mulCount]
  | cons o a ih => cases o <;> simp [mulCount, ih] <;> omega

theorem stmtCount_append (a b : List AOp) : stmtCount (a ++ b) = stmtCount a + stmtCount b := by
  induction a with
  | nil => simp [stmtCount]
  | cons o a ih => cases o <;> simp [stmtCount, ih] <;> omega

theorem apolyStmts_length (ops : List AOp) : (apolyStmts ops).length = stmtCount ops := by
  induction ops with
  | nil => rfl
  | cons o os ih => cases o <;> simp [apolyStmts, stmtCount, ih]

/-- A counter of a program: additive, at most one per instruction. -/
structure Counter (cnt : List AOp → Nat) : Prop where
  nil : cnt [] = 0
  app : ∀ a b, cnt (a ++ b) = cnt a + cnt b
  one : ∀ o, cnt [o] ≤ 1

theorem counter_mul : Counter mulCount := ⟨rfl, mulCount_append, fun o => by cases o <;> simp [mulCount]⟩
theorem counter_stmt : Counter stmtCount := ⟨rfl, stmtCount_append, fun o => by cases o <;> simp [stmtCount]⟩

theorem Counter.succ {cnt : List AOp → Nat} (h : Counter cnt) (ops : List AOp) (k : Nat) :
    cnt (ops.take (k + 1)) ≤ cnt (ops.take k) + 1 := by
  rw [List.take_add_one, h.app]
  have : cnt (ops[k]?).toList ≤ 1 := by
    cases ops[k]? with
    | none => simp [h.nil]
    | some o => exact h.one o
  omega

theorem Counter.mono {cnt : List AOp → Nat} (h : Counter cnt) (ops : List AOp) : Monotone fun k => cnt (ops.take k) := by
  refine monotone_nat_of_le_succ fun k => ?_
  simp only [List.take_add_one, h.app]
  omega

theorem Counter.zero {cnt : List AOp → Nat} (h : Counter cnt) (ops : List AOp) : cnt (ops.take 0) = 0 := by
  rw [List.take_zero, h.nil]

/-- The end of the prefix of a program that fills the first `b + 1` batches. -/
def batchEnd (cnt : List AOp → Nat) (ops : List AOp) (sz b : Nat) : Nat :=
  lastIdx (fun k => cnt (ops.take k)) ((b + 1) * sz) ops.length

/-! ### runs and their prefixes -/

theorem acomRun_len {v : AView} (ops : List AOp) : ∀ {s s' : ACom} {ms : List AMsg}, acomRun v s ops ms = some s' →
    ms.length = ops.length := by
  induction ops with
  | nil => intro s s' ms h; cases ms with
    | nil => rfl
    | cons => simp [acomRun] at h
  | cons o os ih => intro s s' ms h; cases ms with
    | nil => simp [acomRun] at h
    | cons m ms =>
      simp only [acomRun, Option.bind_eq_bind, Option.bind_eq_some_iff] at h
      obtain ⟨c1, _, h2⟩ := h
      simp [ih h2]

/-- What a step does to the log of multiplications. -/
theorem acomStep_mulLog {v : AView} {s s' : ACom} {m : AMsg} {o : AOp} (h : acomStep v s m o = some s') :
    (s'.mulLog = s.mulLog ∧ s'.mulBatches = s.mulBatches) ∨
    (∃ r : ComMul, s'.mulLog = s.mulLog ++ [r] ∧ s'.mulBatches = s.mulBatches + 1 ∧ r.gates = s.gates ∧
      r.seeds = v.seed s.mulBatches ∧ s.gates.length = v.checkSz ∧ mulCount [o] = 1) := by
  cases o with
  | input b => simp only [acomStep, Option.some.injEq] at h; subst h; exact Or.inl ⟨rfl, rfl⟩
  | pub b => simp only [acomStep, Option.some.injEq] at h; subst h; exact Or.inl ⟨rfl, rfl⟩
  | add i j =>
    simp only [acomStep, Option.bind_eq_bind, Option.bind_eq_some_iff, Option.some.injEq] at h
    obtain ⟨a, _, b, _, rfl⟩ := h; exact Or.inl ⟨rfl, rfl⟩
  | mulc i c =>
    simp only [acomStep, Option.bind_eq_bind, Option.bind_eq_some_iff, Option.some.injEq] at h
    obtain ⟨a, _, rfl⟩ := h; exact Or.inl ⟨rfl, rfl⟩
  | reveal i =>
    simp only [acomStep, Option.bind_eq_bind, Option.bind_eq_some_iff, Option.some.injEq] at h
    obtain ⟨a, _, rfl⟩ := h; exact Or.inl ⟨rfl, rfl⟩
  | revealCheck i x =>
    simp only [acomStep, Option.bind_eq_bind, Option.bind_eq_some_iff, Option.some.injEq] at h
    obtain ⟨a, _, rfl⟩ := h; exact Or.inl ⟨rfl, rfl⟩
  | revealZero i =>
    simp only [acomStep, Option.bind_eq_bind, Option.bind_eq_some_iff, Option.some.injEq] at h
    obtain ⟨a, _, rfl⟩ := h; exact Or.inl ⟨rfl, rfl⟩
  | mul i j =>
    simp only [acomStep, Option.bind_eq_bind, Option.bind_eq_some_iff] at h
    obtain ⟨a, _, b, _, r, hr, h⟩ := h
    unfold acomMulPush at h
    split at h
    · simp only [Option.some.injEq] at h
      subst h
      unfold acomMulRoom at hr
      split at hr
      · rename_i hf
        split at hr
        · simp only [Option.some.injEq] at hr
          subst hr
          exact Or.inr ⟨_, rfl, rfl, rfl, rfl, hf, rfl⟩
        · simp at hr
      · simp only [Option.some.injEq] at hr
        subst hr
        exact Or.inl ⟨rfl, rfl⟩
    · simp at h
  | poly st =>
    simp only [acomStep, Option.bind_eq_bind, Option.bind_eq_some_iff] at h
    obtain ⟨p, _, h⟩ := h
    unfold acomPolyPush at h
    split at h
    · simp only [Option.some.injEq] at h
      subst h
      unfold acomPolyRoom
      split
      · exact Or.inl ⟨rfl, rfl⟩
      · exact Or.inl ⟨rfl, rfl⟩
    · simp at h

/-- What a step does to the log of statements. -/
theorem acomStep_polyLog {v : AView} {s s' : ACom} {m : AMsg} {o : AOp} (h : acomStep v s m o = some s') :
    (s'.polyLog = s.polyLog ∧ s'.polyBatches = s.polyBatches) ∨
    (∃ r : ComAPoly, s'.polyLog = s.polyLog ++ [r] ∧ s'.polyBatches = s.polyBatches + 1 ∧ r.polys = s.polys ∧
      r.seed = fp (v.polySeed s.polyBatches) ∧ v.polySz ≤ s.polys.length ∧ stmtCount [o] = 1) := by
  cases o with
  | input b => simp only [acomStep, Option.some.injEq] at h; subst h; exact Or.inl ⟨rfl, rfl⟩
  | pub b => simp only [acomStep, Option.some.injEq] at h; subst h; exact Or.inl ⟨rfl, rfl⟩
  | add i j =>
    simp only [acomStep, Option.bind_eq_bind, Option.bind_eq_some_iff, Option.some.injEq] at h
    obtain ⟨a, _, b, _, rfl⟩ := h; exact Or.inl ⟨rfl, rfl⟩
  | mulc i c =>
    simp only [acomStep, Option.bind_eq_bind, Option.bind_eq_some_iff, Option.some.injEq] at h
    obtain ⟨a, _, rfl⟩ := h; exact Or.inl ⟨rfl, rfl⟩
  | reveal i =>
    simp only [acomStep, Option.bind_eq_bind, Option.bind_eq_some_iff, Option.some.injEq] at h
    obtain ⟨a, _, rfl⟩ := h; exact Or.inl ⟨rfl, rfl⟩
  | revealCheck i x =>
    simp only [acomStep, Option.bind_eq_bind, Option.bind_eq_some_iff, Option.some.injEq] at h
    obtain ⟨a, _, rfl⟩ := h; exact Or.inl ⟨rfl, rfl⟩
  | revealZero i =>
    simp only [acomStep, Option.bind_eq_bind, Option.bind_eq_some_iff, Option.some.injEq] at h
    obtain ⟨a, _, rfl⟩ := h; exact Or.inl ⟨rfl, rfl⟩
  | mul i j =>
    simp only [acomStep, Option.bind_eq_bind, Option.bind_eq_some_iff] at h
    obtain ⟨a, _, b, _, r, hr, h⟩ := h
    unfold acomMulPush at h
    split at h
    · simp only [Option.some.injEq] at h
      subst h
      unfold acomMulRoom at hr
      split at hr
      · split at hr
        · simp only [Option.some.injEq] at hr
          subst hr
          exact Or.inl ⟨rfl, rfl⟩
        · simp at hr
      · simp only [Option.some.injEq] at hr
        subst hr
        exact Or.inl ⟨rfl, rfl⟩
    · simp at h
  | poly st =>
    simp only [acomStep, Option.bind_eq_bind, Option.bind_eq_some_iff] at h
    obtain ⟨p, _, h⟩ := h
    unfold acomPolyPush at h
    split at h
    · simp only [Option.some.injEq] at h
      subst h
      unfold acomPolyRoom
      split
      · rename_i hf
        exact Or.inr ⟨_, rfl, rfl, rfl, rfl, hf.1, rfl⟩
      · exact Or.inl ⟨rfl, rfl⟩
    · simp at h

theorem acomRun_cons {v : AView} {s s' : ACom} {o : AOp} {os : List AOp} {ms : List AMsg} (h : acomRun v s (o :: os) ms = some s') :
    ∃ m ms' s1, ms = m :: ms' ∧ acomStep v s m o = some s1 ∧ acomRun v s1 os ms' = some s' := by
  cases ms with
  | nil => simp [acomRun] at h
  | cons m ms =>
    simp only [acomRun, Option.bind_eq_bind, Option.bind_eq_some_iff] at h
    obtain ⟨c1, h1, h2⟩ := h
    exact ⟨m, ms, c1, rfl, h1, h2⟩

/-- Logs only grow, and are counted. -/
theorem acomRun_logs {v : AView} (ops : List AOp) : ∀ {s s' : ACom} {ms : List AMsg}, acomRun v s ops ms = some s' →
    s.mulLog <+: s'.mulLog ∧ s.polyLog <+: s'.polyLog ∧
    s'.mulBatches + s.mulLog.length = s'.mulLog.length + s.mulBatches ∧
    s'.polyBatches + s.polyLog.length = s'.polyLog.length + s.polyBatches := by
  induction ops with
  | nil =>
    intro s s' ms h
    cases ms with
    | nil => simp only [acomRun, Option.some.injEq] at h; subst h; simp [Nat.add_comm]
    | cons => simp [acomRun] at h
  | cons o os ih =>
    intro s s' ms h
    obtain ⟨m, ms', s1, rfl, h1, h2⟩ := acomRun_cons h
    obtain ⟨i1, i2, i3, i4⟩ := ih h2
    refine ⟨?_, ?_, ?_, ?_⟩
    · rcases acomStep_mulLog h1 with ⟨k, _⟩ | ⟨r, k, _⟩
      · rw [← k]; exact i1
      · rw [k] at i1; exact (List.prefix_append _ _).trans i1
    · rcases acomStep_polyLog h1 with ⟨k, _⟩ | ⟨r, k, _⟩
      · rw [← k]; exact i2
      · rw [k] at i2; exact (List.prefix_append _ _).trans i2
    · rcases acomStep_mulLog h1 with ⟨k, k'⟩ | ⟨r, k, k', _⟩
      · rw [k, k'] at i3; exact i3
      · rw [k, k', List.length_append, List.length_singleton] at i3; omega
    · rcases acomStep_polyLog h1 with ⟨k, k'⟩ | ⟨r, k, k', _⟩
      · rw [k, k'] at i4; exact i4
      · rw [k, k', List.length_append, List.length_singleton] at i4; omega

theorem acomRun_batches {v : AView} {ops : List AOp} {s : ACom} {ms : List AMsg} (h : acomRun v ACom.init ops ms = some s) :
    s.mulBatches = s.mulLog.length ∧ s.polyBatches = s.polyLog.length := by
  obtain ⟨_, _, h3, h4⟩ := acomRun_logs ops h
  simp only [ACom.init, List.length_nil, Nat.add_zero] at h3 h4
  exact ⟨h3, h4⟩

/-- A batch of multiplications checked during a run was in the buffer at some point of it. -/
theorem acomRun_mulFlush {v : AView} (ops : List AOp) : ∀ {s s' : ACom} {ms : List AMsg} {b : Nat} {r : ComMul},
    acomRun v s ops ms = some s' → s.mulLog.length ≤ b → s'.mulLog[b]? = some r →
    ∃ n s1, n < ops.length ∧ acomRun v s (ops.take n) (ms.take n) = some s1 ∧ s1.mulLog.length = b ∧ r.gates = s1.gates ∧
      r.seeds = v.seed s1.mulBatches ∧ s1.gates.length = v.checkSz ∧ mulCount (ops.take (n + 1)) = mulCount (ops.take n) + 1 := by
  induction ops with
  | nil =>
    intro s s' ms b r h hb hr
    cases ms with
    | nil =>
      simp only [acomRun, Option.some.injEq] at h; subst h
      rw [List.getElem?_eq_none hb] at hr; simp at hr
    | cons => simp [acomRun] at h
  | cons o os ih =>
    intro s s' ms b r h hb hr
    obtain ⟨m, ms', s1, rfl, h1, h2⟩ := acomRun_cons h
    by_cases hb1 : s1.mulLog.length ≤ b
    · obtain ⟨n, s2, k1, k2, k3, k4, k5, k6, k7⟩ := ih h2 hb1 hr
      refine ⟨n + 1, s2, by simpa using k1, ?_, k3, k4, k5, k6, ?_⟩
      · simp only [List.take_succ_cons, acomRun, h1, Option.bind_eq_bind, Option.bind_some, k2]
      · have e1 : ∀ l : List AOp, mulCount (o :: l) = mulCount [o] + mulCount l := fun l => mulCount_append [o] l
        rw [List.take_succ_cons, List.take_succ_cons, e1, e1 (List.take n os), k7]; omega
    · rcases acomStep_mulLog h1 with ⟨k, _⟩ | ⟨r', k, k', kg, ks, kf, kc⟩
      · rw [k] at hb1; exact absurd hb hb1
      · have hbe : b = s.mulLog.length := by
          rw [k, List.length_append, List.length_singleton] at hb1; omega
        have hp := (acomRun_logs os h2).1
        obtain ⟨tl, htl⟩ := hp
        rw [← htl, k, hbe, List.append_assoc, List.getElem?_append_right (le_refl _)] at hr
        simp only [Nat.sub_self, List.singleton_append, List.getElem?_cons_zero, Option.some.injEq] at hr
        subst hr
        refine ⟨0, s, by simp, rfl, hbe.symm, kg, ks, kf, ?_⟩
        simpa [mulCount] using kc

/-- A batch of statements checked during a run was in the buffer at some point of it. -/
theorem acomRun_polyFlush {v : AView} (ops : List AOp) : ∀ {s s' : ACom} {ms : List AMsg} {b : Nat} {r : ComAPoly},
    acomRun v s ops ms = some s' → s.polyLog.length ≤ b → s'.polyLog[b]? = some r →
    ∃ n s1, n < ops.length ∧ acomRun v s (ops.take n) (ms.take n) = some s1 ∧ s1.polyLog.length = b ∧ r.polys = s1.polys ∧
      r.seed = fp (v.polySeed s1.polyBatches) ∧ v.polySz ≤ s1.polys.length ∧
      stmtCount (ops.take (n + 1)) = stmtCount (ops.take n) + 1 := by
  induction ops with
  | nil =>
    intro s s' ms b r h hb hr
    cases ms with
    | nil =>
      simp only [acomRun, Option.some.injEq] at h; subst h
      rw [List.getElem?_eq_none hb] at hr; simp at hr
    | cons => simp [acomRun] at h
  | cons o os ih =>
    intro s s' ms b r h hb hr
    obtain ⟨m, ms', s1, rfl, h1, h2⟩ := acomRun_cons h
    by_cases hb1 : s1.polyLog.length ≤ b
    · obtain ⟨n, s2, k1, k2, k3, k4, k5, k6, k7⟩ := ih h2 hb1 hr
      refine ⟨n + 1, s2, by simpa using k1, ?_, k3, k4, k5, k6, ?_⟩
      · simp only [List.take_succ_cons, acomRun, h1, Option.bind_eq_bind, Option.bind_some, k2]
      · have e1 : ∀ l : List AOp, stmtCount (o :: l) = stmtCount [o] + stmtCount l := fun l => stmtCount_append [o] l
        rw [List.take_succ_cons, List.take_succ_cons, e1, e1 (List.take n os), k7]; omega
    · rcases acomStep_polyLog h1 with ⟨k, _⟩ | ⟨r', k, k', kg, ks, kf, kc⟩
      · rw [k] at hb1; exact absurd hb hb1
      · have hbe : b = s.polyLog.length := by
          rw [k, List.length_append, List.length_singleton] at hb1; omega
        have hp := (acomRun_logs os h2).2.1
        obtain ⟨tl, htl⟩ := hp
        rw [← htl, k, hbe, List.append_assoc, List.getElem?_append_right (le_refl _)] at hr
        simp only [Nat.sub_self, List.singleton_append, List.getElem?_cons_zero, Option.some.injEq] at hr
        subst hr
        refine ⟨0, s, by simp, rfl, hbe.symm, kg, ks, kf, ?_⟩
        simpa [stmtCount] using kc

theorem pflatMap_length_const {v : AView} (l : List ComAPoly) (h : ∀ r ∈ l, r.polys.length = v.polySz) :
    (l.flatMap ComAPoly.polys).length = l.length * v.polySz := by
  induction l with
  | nil => simp
  | cons a l ih =>
    simp only [List.flatMap_cons, List.length_append, List.length_cons, ih (fun r hr => h r (by simp [hr])),
      h a (by simp)]
    ring

/-- Multiplications of a run: full batches and the buffer. -/
theorem acomRun_mulCount {v : AView} {ops : List AOp} {s : ACom} {ms : List AMsg} (h : acomRun v ACom.init ops ms = some s) :
    mulCount ops = s.mulLog.length * v.checkSz + s.gates.length ∧ s.gates.length ≤ v.checkSz ∧ (s.gates = [] → s.mulLog = []) := by
  have hr := acomRun_rec ops (ARec.init v) h
  refine ⟨?_, hr.cur, hr.pos⟩
  have := hr.gates.length_eq
  simp only [ACom.init, List.length_nil, List.nil_append, mulTriples_length] at this
  rw [this, ACom.allGates, List.length_append, aflatMap_length_const _ hr.full]

theorem acomRun_stmtCount {v : AView} {ops : List AOp} {s : ACom} {ms : List AMsg} (h : acomRun v ACom.init ops ms = some s) :
    stmtCount ops = s.polyLog.length * v.polySz + s.polys.length ∧ s.polys.length ≤ v.polySz ∧ (s.polys = [] → s.polyLog = []) := by
  have hr := acomRun_rec ops (ARec.init v) h
  refine ⟨?_, hr.curP, hr.posP⟩
  have := hr.stmts.length_eq
  simp only [List.nil_append, apolyStmts_length] at this
  rw [this, ACom.stmts, List.length_append, pflatMap_length_const _ hr.fullP]

/-! ### batches of a session -/

/-- The buffered multiplications after the first `n` instructions. -/
def mulBufAt (v : AView) (ops : List AOp) (ms : List AMsg) (n : Nat) : List CGate :=
  match acomRun v ACom.init (ops.take n) (ms.take n) with
  | some s => s.gates
  | none => []

/-- The buffered statements after the first `n` instructions. -/
def polyBufAt (v : AView) (ops : List AOp) (ms : List AMsg) (n : Nat) : List (APoly (Fp × Fp)) :=
  match acomRun v ACom.init (ops.take n) (ms.take n) with
  | some s => s.polys
  | none => []

theorem mulBufAt_some {v : AView} {ops : List AOp} {ms : List AMsg} {n : Nat} {s : ACom}
    (h : acomRun v ACom.init (ops.take n) (ms.take n) = some s) : mulBufAt v ops ms n = s.gates := by
  unfold mulBufAt; rw [h]

theorem polyBufAt_some {v : AView} {ops : List AOp} {ms : List AMsg} {n : Nat} {s : ACom}
    (h : acomRun v ACom.init (ops.take n) (ms.take n) = some s) : polyBufAt v ops ms n = s.polys := by
  unfold polyBufAt; rw [h]

/-- The batches of multiplications of a session. -/
theorem session_mulBatch {v : AView} {ops : List AOp} {ms : List AMsg} {fin : AFin} {c : ACom}
    (h : acomSession v ops ms fin = some c) {b : Nat} {r : ComMul} (hr : c.mulLog[b]? = some r) :
    r.gates = mulBufAt v ops ms (batchEnd mulCount ops v.checkSz b) ∧ r.seeds = v.seed b ∧ b * v.checkSz < mulCount ops ∧
      r.gates.length = batchLen (mulCount ops) v.checkSz b := by
  simp only [acomSession, Option.bind_eq_bind, Option.bind_eq_some_iff] at h
  obtain ⟨s, h1, h2⟩ := h
  have hcnt := acomRun_mulCount h1
  have hbat := (acomRun_batches h1).1
  by_cases hb : b < s.mulLog.length
  · have hlog : s.mulLog <+: c.mulLog := by
      unfold acomFinalize acomFinMul at h2
      have e : (acomFinPoly v s fin.polyAns).mulLog = s.mulLog := by unfold acomFinPoly; split <;> rfl
      split at h2
      · split at h2
        · simp only [Option.some.injEq] at h2
          subst h2
          simp only [acomMulCheck, e]
          exact List.prefix_append _ _
        · simp at h2
      · simp only [Option.some.injEq] at h2; subst h2; rw [e]
    obtain ⟨tl, htl⟩ := hlog
    rw [← htl, List.getElem?_append_left hb] at hr
    obtain ⟨n, s1, k1, k2, k3, k4, k5, k6, k7⟩ := acomRun_mulFlush ops h1 (Nat.zero_le _) hr
    have hc1 := (acomRun_mulCount k2).1
    rw [k3, k6] at hc1
    have hN : batchEnd mulCount ops v.checkSz b = n := by
      refine lastIdx_mid _ (counter_mul.mono ops) _ _ _ (le_of_lt k1) ?_ ?_
      · show mulCount (ops.take n) ≤ _
        rw [hc1]; exact le_of_eq (by ring)
      · show _ < mulCount (ops.take (n + 1))
        rw [k7, hc1]
        have : (b + 1) * v.checkSz = b * v.checkSz + v.checkSz := by ring
        omega
    have hle : (b + 1) * v.checkSz + 1 ≤ mulCount ops := by
      have := counter_mul.mono ops (show n + 1 ≤ ops.length from k1)
      simp only [List.take_length] at this
      rw [k7, hc1] at this
      have e : (b + 1) * v.checkSz = b * v.checkSz + v.checkSz := by ring
      omega
    have e : (b + 1) * v.checkSz = b * v.checkSz + v.checkSz := by ring
    refine ⟨by rw [hN, mulBufAt_some k2, k4], ?_, by omega, ?_⟩
    · rw [k5, (acomRun_batches k2).1, k3]
    · rw [k4, k6]; unfold batchLen; omega
  · have e : (acomFinPoly v s fin.polyAns).mulLog = s.mulLog := by unfold acomFinPoly; split <;> rfl
    have eg : (acomFinPoly v s fin.polyAns).gates = s.gates := by unfold acomFinPoly; split <;> rfl
    have eb : (acomFinPoly v s fin.polyAns).mulBatches = s.mulBatches := by unfold acomFinPoly; split <;> rfl
    unfold acomFinalize acomFinMul at h2
    split at h2
    · rename_i hne
      rw [eg] at hne
      split at h2
      · simp only [Option.some.injEq] at h2
        subst h2
        simp only [acomMulCheck, e, eg, eb] at hr
        rw [List.getElem?_append_right (by omega)] at hr
        have hb0 : b - s.mulLog.length = 0 := by
          by_contra hcon
          rw [List.getElem?_eq_none (by simp; omega)] at hr
          simp at hr
        rw [hb0, List.getElem?_cons_zero, Option.some.injEq] at hr
        subst hr
        have hbe : b = s.mulLog.length := by omega
        have hpos := List.length_pos_iff.2 hne
        have e2 : (b + 1) * v.checkSz = b * v.checkSz + v.checkSz := by ring
        rw [← hbe] at hcnt
        have hN : batchEnd mulCount ops v.checkSz b = ops.length := by
          refine lastIdx_top _ _ _ ?_
          show mulCount (ops.take ops.length) ≤ _
          rw [List.take_length, hcnt.1]; omega
        refine ⟨?_, ?_, ?_, ?_⟩
        · rw [hN]
          refine (mulBufAt_some ?_).symm
          rw [List.take_length, ← acomRun_len ops h1, List.take_length]; exact h1
        · show v.seed s.mulBatches = v.seed b
          rw [hbat, hbe]
        · rw [hcnt.1]; omega
        · show s.gates.length = _
          unfold batchLen; omega
      · simp at h2
    · simp only [Option.some.injEq] at h2
      subst h2
      rw [e, List.getElem?_eq_none (by omega)] at hr
      simp at hr

/-- The batches of statements of a session. -/
theorem session_polyBatch {v : AView} {ops : List AOp} {ms : List AMsg} {fin : AFin} {c : ACom}
    (h : acomSession v ops ms fin = some c) {b : Nat} {r : ComAPoly} (hr : c.polyLog[b]? = some r) :
    r.polys = polyBufAt v ops ms (batchEnd stmtCount ops v.polySz b) ∧ r.seed = fp (v.polySeed b) ∧
      b * v.polySz < stmtCount ops ∧ r.polys.length = batchLen (stmtCount ops) v.polySz b := by
  simp only [acomSession, Option.bind_eq_bind, Option.bind_eq_some_iff] at h
  obtain ⟨s, h1, h2⟩ := h
  have hcnt := acomRun_stmtCount h1
  have hbat := (acomRun_batches h1).2
  have hlogc : c.polyLog = (acomFinPoly v s fin.polyAns).polyLog := by
    unfold acomFinalize acomFinMul at h2
    split at h2
    · split at h2
      · simp only [Option.some.injEq] at h2
        subst h2
        rfl
      · simp at h2
    · simp only [Option.some.injEq] at h2; subst h2; rfl
  rw [hlogc] at hr
  by_cases hb : b < s.polyLog.length
  · have hlog : s.polyLog <+: (acomFinPoly v s fin.polyAns).polyLog := by
      unfold acomFinPoly
      split
      · simp only [acomPolyCheck]; exact List.prefix_append _ _
      · exact List.prefix_refl _
    obtain ⟨tl, htl⟩ := hlog
    rw [← htl, List.getElem?_append_left hb] at hr
    obtain ⟨n, s1, k1, k2, k3, k4, k5, k6, k7⟩ := acomRun_polyFlush ops h1 (Nat.zero_le _) hr
    have hc1 := acomRun_stmtCount k2
    have k6' : s1.polys.length = v.polySz := le_antisymm hc1.2.1 k6
    have hc1 := hc1.1
    rw [k3, k6'] at hc1
    have e : (b + 1) * v.polySz = b * v.polySz + v.polySz := by ring
    have hN : batchEnd stmtCount ops v.polySz b = n := by
      refine lastIdx_mid _ (counter_stmt.mono ops) _ _ _ (le_of_lt k1) ?_ ?_
      · show stmtCount (ops.take n) ≤ _
        rw [hc1]; omega
      · show _ < stmtCount (ops.take (n + 1))
        rw [k7, hc1]
        omega
    have hle : (b + 1) * v.polySz + 1 ≤ stmtCount ops := by
      have := counter_stmt.mono ops (show n + 1 ≤ ops.length from k1)
      simp only [List.take_length] at this
      rw [k7, hc1] at this
      omega
    refine ⟨by rw [hN, polyBufAt_some k2, k4], ?_, by omega, ?_⟩
    · rw [k5, (acomRun_batches k2).2, k3]
    · rw [k4, k6']; unfold batchLen; omega
  · unfold acomFinPoly at hr
    split at hr
    · rename_i hne
      simp only [acomPolyCheck] at hr
      rw [List.getElem?_append_right (by omega)] at hr
      have hb0 : b - s.polyLog.length = 0 := by
        by_contra hcon
        rw [List.getElem?_eq_none (by simp; omega)] at hr
        simp at hr
      rw [hb0, List.getElem?_cons_zero, Option.some.injEq] at hr
      subst hr
      have hbe : b = s.polyLog.length := by omega
      have hpos := List.length_pos_iff.2 hne
      have e2 : (b + 1) * v.polySz = b * v.polySz + v.polySz := by ring
      rw [← hbe] at hcnt
      have hN : batchEnd stmtCount ops v.polySz b = ops.length := by
        refine lastIdx_top _ _ _ ?_
        show stmtCount (ops.take ops.length) ≤ _
        rw [List.take_length, hcnt.1]; omega
      refine ⟨?_, ?_, ?_, ?_⟩
      · rw [hN]
        refine (polyBufAt_some ?_).symm
        rw [List.take_length, ← acomRun_len ops h1, List.take_length]; exact h1
      · show fp (v.polySeed s.polyBatches) = fp (v.polySeed b)
        rw [hbat, hbe]
      · rw [hcnt.1]; omega
      · show s.polys.length = _
        unfold batchLen; omega
    · rw [List.getElem?_eq_none (by omega)] at hr
      simp at hr

/-! ### what a batch depends on -/

/-- Two sessions that differ at most in the seeds of multiplication checks from `b` on and of statements from `q` on. -/
structure AView.Upto (v v' : AView) (b q : Nat) : Prop where
  u : v'.u = v.u
  mac : v'.mac = v.mac
  pub : v'.pubMac = v.pubMac
  thr : v'.threads = v.threads
  csz : v'.checkSz = v.checkSz
  psz : v'.polySz = v.polySz
  seed : ∀ i, i < b → v'.seed i = v.seed i
  pseed : ∀ i, i < q → v'.polySeed i = v.polySeed i

theorem acomStep_upto {v v' : AView} {b q : Nat} (hu : v.Upto v' b q) {s s' : ACom} {m : AMsg} {o : AOp}
    (h : acomStep v s m o = some s') (hb : s'.mulBatches ≤ b) (hq : s'.polyBatches ≤ q) : acomStep v' s m o = some s' := by
  cases o with
  | input x => simpa only [acomStep, hu.u, hu.mac] using h
  | pub x => simpa only [acomStep, hu.pub] using h
  | add i j => exact h
  | mulc i c => exact h
  | reveal i => exact h
  | revealCheck i x => exact h
  | revealZero i => exact h
  | mul i j =>
    simp only [acomStep, Option.bind_eq_bind, Option.bind_eq_some_iff] at h ⊢
    obtain ⟨a, ha, c, hc, r, hr, h⟩ := h
    refine ⟨a, ha, c, hc, r, ?_, ?_⟩
    · unfold acomMulPush at h
      split at h
      · simp only [Option.some.injEq] at h
        subst h
        unfold acomMulRoom at hr ⊢
        rw [hu.csz, hu.thr]
        split at hr
        · rename_i h1
          split at hr
          · rename_i h2
            simp only [Option.some.injEq] at hr
            subst hr
            rw [if_pos h1, if_pos h2]
            simp only [acomMulCheck] at hb ⊢
            rw [hu.seed _ (by omega)]
          · simp at hr
        · rename_i h1
          rw [if_neg h1]; exact hr
      · simp at h
    · unfold acomMulPush at h ⊢
      rw [hu.csz, hu.u, hu.mac]; exact h
  | poly st =>
    simp only [acomStep, Option.bind_eq_bind, Option.bind_eq_some_iff] at h ⊢
    obtain ⟨p, hp, h⟩ := h
    refine ⟨p, hp, ?_⟩
    have e : acomPolyRoom v' s m.ans = acomPolyRoom v s m.ans := by
      unfold acomPolyPush at h
      split at h
      · simp only [Option.some.injEq] at h
        subst h
        unfold acomPolyRoom at hq ⊢
        rw [hu.psz]
        split
        · rename_i h1
          rw [if_pos h1] at hq
          simp only [acomPolyCheck] at hq ⊢
          rw [hu.pseed _ (by omega)]
        · rfl
      · simp at h
    unfold acomPolyPush at h ⊢
    rw [e, hu.psz]; exact h

theorem acomStep_batches_le {v : AView} {s s' : ACom} {m : AMsg} {o : AOp} (h : acomStep v s m o = some s') :
    s.mulBatches ≤ s'.mulBatches ∧ s.polyBatches ≤ s'.polyBatches := by
  constructor
  · rcases acomStep_mulLog h with ⟨_, k⟩ | ⟨_, _, k, _⟩ <;> omega
  · rcases acomStep_polyLog h with ⟨_, k⟩ | ⟨_, _, k, _⟩ <;> omega

theorem acomRun_batches_le {v : AView} (ops : List AOp) : ∀ {s s' : ACom} {ms : List AMsg}, acomRun v s ops ms = some s' →
    s.mulBatches ≤ s'.mulBatches ∧ s.polyBatches ≤ s'.polyBatches := by
  induction ops with
  | nil =>
    intro s s' ms h
    cases ms with
    | nil => simp only [acomRun, Option.some.injEq] at h; subst h; exact ⟨le_refl _, le_refl _⟩
    | cons => simp [acomRun] at h
  | cons o os ih =>
    intro s s' ms h
    obtain ⟨m, ms', s1, rfl, h1, h2⟩ := acomRun_cons h
    have a := acomStep_batches_le h1
    have c := ih h2
    omega

theorem acomRun_upto {v v' : AView} {b q : Nat} (hu : v.Upto v' b q) (ops : List AOp) : ∀ {s s' : ACom} {ms : List AMsg},
    acomRun v s ops ms = some s' → s'.mulBatches ≤ b → s'.polyBatches ≤ q → acomRun v' s ops ms = some s' := by
  induction ops with
  | nil =>
    intro s s' ms h _ _
    cases ms with
    | nil => exact h
    | cons => simp [acomRun] at h
  | cons o os ih =>
    intro s s' ms h hb hq
    obtain ⟨m, ms', s1, rfl, h1, h2⟩ := acomRun_cons h
    have c := acomRun_batches_le os h2
    simp only [acomRun, acomStep_upto hu h1 (by omega) (by omega), Option.bind_eq_bind, Option.bind_some]
    exact ih h2 hb hq

/-! ### a batch and its seeds -/

section strategy
variable {T : Nat} (S : AStrategy T) (v : AView) (block : Fp → U128) (ops : List AOp) {B Q : Nat}

/-- The session of a strategy. -/
abbrev gameMsgs (σ : Fin B → Fin T → Fp) (τ : Fin Q → Fp) : List AMsg := S.msgs v ops (List.ofFn σ) (List.ofFn τ)

theorem take_ofFn_congr {X : Type} {n : Nat} (s s' : Fin n → X) (b : Nat) (h : ∀ j : Fin n, j.1 < b → s j = s' j) (k : Nat) (hk : k ≤ b) :
    (List.ofFn s).take k = (List.ofFn s').take k := by
  apply List.ext_getElem
  · simp
  · intro i h1 h2
    simp only [List.length_take, List.length_ofFn] at h1
    simp only [List.getElem_take, List.getElem_ofFn]
    exact h _ (by show i < b; omega)

theorem famAt_congr {X : Type} [Zero X] {n : Nat} (s s' : Fin n → X) (b : Nat) (h : ∀ j : Fin n, j.1 < b → s j = s' j) (i : Nat) (hi : i < b) :
    famAt s i = famAt s' i := by
  unfold famAt
  split
  · exact h _ hi
  · rfl

theorem disclosed_le {n sz b : Nat} (h : n ≤ (b + 1) * sz) : disclosed n sz ≤ b := by
  unfold disclosed
  rcases Nat.eq_zero_or_pos sz with h0 | h0
  · subst h0; simp
  · rcases Nat.eq_zero_or_pos n with h1 | h1
    · subst h1; simp
    · have : (n - 1) / sz < b + 1 := (Nat.div_lt_iff_lt_mul h0).2 (by omega)
      omega

/-- Messages before the end of the `b`-th batch do not depend on its seeds nor on later ones. -/
theorem msgs_take_congr_mul (σ σ' : Fin B → Fin T → Fp) (τ : Fin Q → Fp) (b : Nat) (h : ∀ j : Fin B, j.1 < b → σ j = σ' j) :
    (gameMsgs S v ops σ τ).take (batchEnd mulCount ops v.checkSz b) =
      (gameMsgs S v ops σ' τ).take (batchEnd mulCount ops v.checkSz b) := by
  apply List.ext_getElem
  · simp [gameMsgs, AStrategy.msgs]
  · intro i h1 h2
    simp only [List.length_take, gameMsgs, AStrategy.msgs, List.length_map, List.length_range] at h1
    simp only [List.getElem_take, gameMsgs, AStrategy.msgs, List.getElem_map, List.getElem_range]
    congr 1
    refine take_ofFn_congr σ σ' b h _ (disclosed_le ?_)
    have hm := counter_mul.mono ops (show i + 1 ≤ batchEnd mulCount ops v.checkSz b by omega)
    exact hm.trans (lastIdx_spec (fun k => mulCount (ops.take k)) _ _ (counter_mul.zero ops))

theorem msgs_take_congr_poly (σ : Fin B → Fin T → Fp) (τ τ' : Fin Q → Fp) (b : Nat) (h : ∀ j : Fin Q, j.1 < b → τ j = τ' j) :
    (gameMsgs S v ops σ τ).take (batchEnd stmtCount ops v.polySz b) =
      (gameMsgs S v ops σ τ').take (batchEnd stmtCount ops v.polySz b) := by
  apply List.ext_getElem
  · simp [gameMsgs, AStrategy.msgs]
  · intro i h1 h2
    simp only [List.length_take, gameMsgs, AStrategy.msgs, List.length_map, List.length_range] at h1
    simp only [List.getElem_take, gameMsgs, AStrategy.msgs, List.getElem_map, List.getElem_range]
    congr 1
    refine take_ofFn_congr τ τ' b h _ (disclosed_le ?_)
    have hm := counter_stmt.mono ops (show i + 1 ≤ batchEnd stmtCount ops v.polySz b by omega)
    exact hm.trans (lastIdx_spec (fun k => stmtCount (ops.take k)) _ _ (counter_stmt.zero ops))

/-- Batches checked in the prefix that fills `b + 1` batches. -/
theorem prefix_batches {L n sz g b : Nat} {P : Prop} (h1 : n = L * sz + g) (h2 : n ≤ (b + 1) * sz) (h3 : g = 0 → P) (h4 : P → L = 0) :
    L ≤ b := by
  by_contra hcon
  rcases Nat.eq_zero_or_pos g with h | h
  · have := h4 (h3 h); omega
  · have : (b + 1) * sz ≤ L * sz := Nat.mul_le_mul_right _ (by omega)
    omega

/-- The `b`-th batch of multiplications does not depend on its seeds nor on later ones. -/
theorem mulBuf_causal (σ σ' : Fin B → Fin T → Fp) (τ : Fin Q → Fp) (b : Nat) (h : ∀ j : Fin B, j.1 < b → σ j = σ' j) :
    mulBufAt (v.seeded block σ τ) ops (gameMsgs S v ops σ τ) (batchEnd mulCount ops v.checkSz b) =
      mulBufAt (v.seeded block σ' τ) ops (gameMsgs S v ops σ' τ) (batchEnd mulCount ops v.checkSz b) := by
  have key : ∀ σ σ' : Fin B → Fin T → Fp, (∀ j : Fin B, j.1 < b → σ j = σ' j) → ∀ s,
      acomRun (v.seeded block σ τ) ACom.init (ops.take (batchEnd mulCount ops v.checkSz b))
        ((gameMsgs S v ops σ τ).take (batchEnd mulCount ops v.checkSz b)) = some s →
      acomRun (v.seeded block σ' τ) ACom.init (ops.take (batchEnd mulCount ops v.checkSz b))
        ((gameMsgs S v ops σ' τ).take (batchEnd mulCount ops v.checkSz b)) = some s := by
    intro σ σ' h s hs
    rw [← msgs_take_congr_mul S v ops σ σ' τ b h]
    refine acomRun_upto (b := b) (q := s.polyBatches) ?_ _ hs ?_ (le_refl _)
    · refine ⟨rfl, rfl, rfl, rfl, rfl, rfl, ?_, fun _ _ => rfl⟩
      intro i hi
      show (fun j => block (famAt (famAt σ' i) j)) = fun j => block (famAt (famAt σ i) j)
      rw [famAt_congr σ σ' b h i hi]
    · obtain ⟨c1, _, c3⟩ := acomRun_mulCount hs
      rw [(acomRun_batches hs).1]
      exact prefix_batches c1 (lastIdx_spec (fun k => mulCount (ops.take k)) _ _ (counter_mul.zero ops))
        (fun h0 => List.length_eq_zero_iff.1 h0) (fun h0 => by rw [c3 h0]; rfl)
  unfold mulBufAt
  have : acomRun (v.seeded block σ τ) ACom.init (ops.take (batchEnd mulCount ops v.checkSz b))
        ((gameMsgs S v ops σ τ).take (batchEnd mulCount ops v.checkSz b)) =
      acomRun (v.seeded block σ' τ) ACom.init (ops.take (batchEnd mulCount ops v.checkSz b))
        ((gameMsgs S v ops σ' τ).take (batchEnd mulCount ops v.checkSz b)) := by
    apply Option.ext
    intro s
    exact ⟨key σ σ' h s, key σ' σ (fun j hj => (h j hj).symm) s⟩
  rw [this]

/-- The `b`-th batch of statements does not depend on its seed nor on later ones. -/
theorem polyBuf_causal (σ : Fin B → Fin T → Fp) (τ τ' : Fin Q → Fp) (b : Nat) (h : ∀ j : Fin Q, j.1 < b → τ j = τ' j) :
    polyBufAt (v.seeded block σ τ) ops (gameMsgs S v ops σ τ) (batchEnd stmtCount ops v.polySz b) =
      polyBufAt (v.seeded block σ τ') ops (gameMsgs S v ops σ τ') (batchEnd stmtCount ops v.polySz b) := by
  have key : ∀ τ τ' : Fin Q → Fp, (∀ j : Fin Q, j.1 < b → τ j = τ' j) → ∀ s,
      acomRun (v.seeded block σ τ) ACom.init (ops.take (batchEnd stmtCount ops v.polySz b))
        ((gameMsgs S v ops σ τ).take (batchEnd stmtCount ops v.polySz b)) = some s →
      acomRun (v.seeded block σ τ') ACom.init (ops.take (batchEnd stmtCount ops v.polySz b))
        ((gameMsgs S v ops σ τ').take (batchEnd stmtCount ops v.polySz b)) = some s := by
    intro τ τ' h s hs
    rw [← msgs_take_congr_poly S v ops σ τ τ' b h]
    refine acomRun_upto (b := s.mulBatches) (q := b) ?_ _ hs (le_refl _) ?_
    · refine ⟨rfl, rfl, rfl, rfl, rfl, rfl, fun _ _ => rfl, ?_⟩
      intro i hi
      show toW (famAt τ' i) = toW (famAt τ i)
      rw [famAt_congr τ τ' b h i hi]
    · obtain ⟨c1, _, c3⟩ := acomRun_stmtCount hs
      rw [(acomRun_batches hs).2]
      exact prefix_batches c1 (lastIdx_spec (fun k => stmtCount (ops.take k)) _ _ (counter_stmt.zero ops))
        (fun h0 => List.length_eq_zero_iff.1 h0) (fun h0 => by rw [c3 h0]; rfl)
  unfold polyBufAt
  have : acomRun (v.seeded block σ τ) ACom.init (ops.take (batchEnd stmtCount ops v.polySz b))
        ((gameMsgs S v ops σ τ).take (batchEnd stmtCount ops v.polySz b)) =
      acomRun (v.seeded block σ τ') ACom.init (ops.take (batchEnd stmtCount ops v.polySz b))
        ((gameMsgs S v ops σ τ').take (batchEnd stmtCount ops v.polySz b)) := by
    apply Option.ext
    intro s
    exact ⟨key τ τ' h s, key τ' τ (fun j hj => (h j hj).symm) s⟩
  rw [this]

/-- The seeds `x` hide a wrong product of the `b`-th batch. -/
def BadMul (σ : Fin B → Fin T → Fp) (τ : Fin Q → Fp) (b : Nat) (x : Fin T → Fp) : Prop :=
  let buf := mulBufAt (v.seeded block σ τ) ops (gameMsgs S v ops σ τ) (batchEnd mulCount ops v.checkSz b)
  buf.length = batchLen (mulCount ops) v.checkSz b ∧ ∃ tasks, mulTasks buf.length v.threads = some tasks ∧
    (∃ t ∈ tasks, ∃ g ∈ taskSlice buf t, ¬ g.Correct) ∧ taskSum CGate.err buf (extendSeeds x) tasks 0 = 0

/-- The seed `x` hides a wrong statement of the `b`-th batch. -/
def BadPoly (σ : Fin B → Fin T → Fp) (τ : Fin Q → Fp) (b : Nat) (x : Fp) : Prop :=
  let buf := polyBufAt (v.seeded block σ τ) ops (gameMsgs S v ops σ τ) (batchEnd stmtCount ops v.polySz b)
  buf.length = batchLen (stmtCount ops) v.polySz b ∧ (∃ s ∈ buf, s.value ≠ 0) ∧ chiSum x (buf.map APoly.value) = 0

/-- Tasks are not longer than the buffer, and there are at most as many as threads (one below 32 gates). -/
theorem mulTasks_facts {cnt threads : Nat} {tasks : List (Nat × Nat)} (h : mulTasks cnt threads = some tasks) :
    tasks.length ≤ max 1 threads ∧ ∀ t ∈ tasks, t.2 ≤ cnt := by
  unfold mulTasks at h
  split at h
  · split at h
    · simp at h
    · simp only [Option.some.injEq] at h
      subst h
      simp
  · refine ⟨by rw [splitTasks_length h]; omega, ?_⟩
    have hs := (splitTasks_isSome cnt threads).1 (by rw [h]; rfl)
    rw [splitTasks_eq hs.1 hs.2] at h
    simp only [Option.some.injEq] at h
    subst h
    intro t ht
    rw [List.mem_append, List.mem_map, List.mem_singleton] at ht
    have hq : 0 < cnt / threads := Nat.div_pos hs.2 hs.1
    have h1 : cnt / threads * threads ≤ cnt := Nat.div_mul_le_self _ _
    rcases ht with ⟨i, hi, rfl⟩ | rfl
    · exact Nat.div_le_self _ _
    · show cnt / threads + cnt % (cnt / threads) ≤ cnt
      have h2 := Nat.div_add_mod cnt (cnt / threads)
      have h3 : 1 ≤ cnt / (cnt / threads) := Nat.div_pos (Nat.div_le_self _ _) hq
      have h4 : cnt / threads * 1 ≤ cnt / threads * (cnt / (cnt / threads)) := Nat.mul_le_mul_left _ h3
      omega

open Classical in
theorem card_badMul (hT : max 1 v.threads ≤ T) (σ : Fin B → Fin T → Fp) (τ : Fin Q → Fp) (b : Nat) :
    (Finset.univ.filter (BadMul S v block ops σ τ b)).card ≤ batchLen (mulCount ops) v.checkSz b * pN ^ (T - 1) := by
  by_cases hex : ∃ x, BadMul S v block ops σ τ b x
  · obtain ⟨x0, h1, tasks, h2, ⟨t, ht, hg⟩, _⟩ := hex
    obtain ⟨i, hi, rfl⟩ := List.getElem_of_mem ht
    have hf := mulTasks_facts h2
    have hle := card_bad_seedsA _ T tasks ⟨i, by omega⟩ hi hg
    rw [show Fintype.card Fp = pN from ZMod.card _] at hle
    refine (Finset.card_le_card ?_).trans (hle.trans (Nat.mul_le_mul_right _ (by rw [← h1]; exact hf.2 _ (List.getElem_mem hi))))
    intro x hx
    rw [Finset.mem_filter] at hx ⊢
    obtain ⟨_, _, tasks', h2', _, h4'⟩ := hx
    rw [h2, Option.some.injEq] at h2'
    subst h2'
    exact ⟨Finset.mem_univ _, h4'⟩
  · have : Finset.univ.filter (BadMul S v block ops σ τ b) = ∅ := by
      rw [Finset.filter_eq_empty_iff]
      intro x _ hx
      exact hex ⟨x, hx⟩
    rw [this]
    exact Nat.zero_le _

open Classical in
theorem card_badPoly (σ : Fin B → Fin T → Fp) (τ : Fin Q → Fp) (b : Nat) :
    (Finset.univ.filter (BadPoly S v block ops σ τ b)).card ≤ batchLen (stmtCount ops) v.polySz b := by
  by_cases hex : ∃ x, BadPoly S v block ops σ τ b x
  · obtain ⟨x0, h1, ⟨s, hs, hne⟩, _⟩ := hex
    have hle := card_seeds_le _ ⟨s.value, List.mem_map_of_mem hs, hne⟩ 0
    rw [List.length_map, h1] at hle
    refine (Finset.card_le_card ?_).trans hle
    intro x hx
    rw [Finset.mem_filter] at hx ⊢
    exact ⟨Finset.mem_univ _, hx.2.2.2⟩
  · have : Finset.univ.filter (BadPoly S v block ops σ τ b) = ∅ := by
      rw [Finset.filter_eq_empty_iff]
      intro x _ hx
      exact hex ⟨x, hx⟩
    rw [this]
    exact Nat.zero_le _

end strategy

/-! ### counting -/

open Classical in
/-- A sequence of random choices; before each one a small set of bad values is fixed, which may depend on the earlier choices:
few sequences have a bad value anywhere. -/
theorem card_adaptive {X : Type} [Fintype X] {B : Nat} (bad : (Fin B → X) → Fin B → X → Prop)
    (hc : ∀ b σ σ', (∀ j, j < b → σ j = σ' j) → ∀ x, bad σ b x → bad σ' b x) (k : Fin B → Nat)
    (hk : ∀ σ b, (Finset.univ.filter (bad σ b)).card ≤ k b) :
    (Finset.univ.filter (fun σ : Fin B → X => ∃ b, bad σ b (σ b))).card ≤ (∑ b, k b) * Fintype.card X ^ (B - 1) := by
  have h1 : (Finset.univ.filter (fun σ : Fin B → X => ∃ b, bad σ b (σ b))) ⊆
      Finset.univ.biUnion (fun b => Finset.univ.filter (fun σ : Fin B → X => bad σ b (σ b))) := by
    intro σ hσ
    rw [Finset.mem_filter] at hσ
    obtain ⟨_, b, hb⟩ := hσ
    rw [Finset.mem_biUnion]
    exact ⟨b, Finset.mem_univ _, by rw [Finset.mem_filter]; exact ⟨Finset.mem_univ _, hb⟩⟩
  refine (Finset.card_le_card h1).trans (Finset.card_biUnion_le.trans ?_)
  rw [Finset.sum_mul]
  refine Finset.sum_le_sum fun b _ => ?_
  have := card_coord_le (ι := Fin B) (F := X) (fun σ => bad σ b (σ b)) b (k b) (by
    intro s0 xs hxs
    refine (Finset.card_le_card ?_).trans (hk s0 b)
    intro x hx
    rw [Finset.mem_filter]
    refine ⟨Finset.mem_univ _, ?_⟩
    have h2 := hxs x hx
    simp only [Function.update_self] at h2
    refine hc b _ s0 ?_ x h2
    intro j hj
    exact Function.update_of_ne (ne_of_lt hj) _ _)
  rw [Fintype.card_fin] at this
  exact this

theorem sum_batchLen (n sz B : Nat) : ∑ b : Fin B, batchLen n sz b.1 ≤ n := by
  have h : ∀ B, ∑ b ∈ Finset.range B, batchLen n sz b = min (B * sz) n := by
    intro B
    induction B with
    | zero => simp
    | succ B ih =>
      rw [Finset.sum_range_succ, ih, batchLen]
      have : (B + 1) * sz = B * sz + sz := by ring
      omega
  rw [Fin.sum_univ_eq_sum_range (fun b => batchLen n sz b) B, h B]
  exact Nat.min_le_right _ _

/-- Seeds that hide something wrong are rare. -/
theorem card_badSeeds {T B Q : Nat} (S : AStrategy T) (v : AView) (block : Fp → U128) (ops : List AOp) (hT : max 1 v.threads ≤ T)
    [DecidablePred fun a : (Fin B → Fin T → Fp) × (Fin Q → Fp) =>
      (∃ b : Fin B, BadMul S v block ops a.1 a.2 b.1 (a.1 b)) ∨ ∃ b : Fin Q, BadPoly S v block ops a.1 a.2 b.1 (a.2 b)] :
    (Finset.univ.filter (fun a : (Fin B → Fin T → Fp) × (Fin Q → Fp) =>
      (∃ b : Fin B, BadMul S v block ops a.1 a.2 b.1 (a.1 b)) ∨ ∃ b : Fin Q, BadPoly S v block ops a.1 a.2 b.1 (a.2 b))).card * pN ≤
    (mulCount ops + stmtCount ops) * (pN ^ T) ^ B * pN ^ Q := by
  classical
  have hcF : Fintype.card Fp = pN := ZMod.card _
  have hcX : Fintype.card (Fin T → Fp) = pN ^ T := by rw [Fintype.card_fun, Fintype.card_fin, hcF]
  have hcS : Fintype.card (Fin B → Fin T → Fp) = (pN ^ T) ^ B := by rw [Fintype.card_fun, Fintype.card_fin, hcX]
  have hcQ : Fintype.card (Fin Q → Fp) = pN ^ Q := by rw [Fintype.card_fun, Fintype.card_fin, hcF]
  have h1 : ∀ τ : Fin Q → Fp, (Finset.univ.filter (fun σ : Fin B → Fin T → Fp =>
      ∃ b : Fin B, BadMul S v block ops σ τ b.1 (σ b))).card * pN ≤ mulCount ops * (pN ^ T) ^ B := by
    intro τ
    have := card_adaptive (X := Fin T → Fp) (B := B) (fun σ b x => BadMul S v block ops σ τ b.1 x)
      (by
        intro b σ σ' h x hx
        unfold BadMul at hx ⊢
        rw [← mulBuf_causal S v block ops σ σ' τ b.1 (fun j hj => h j hj)]
        exact hx)
      (fun b => batchLen (mulCount ops) v.checkSz b.1 * pN ^ (T - 1))
      (fun σ b => card_badMul S v block ops hT σ τ b.1)
    refine (Nat.mul_le_mul_right pN this).trans ?_
    rw [← Finset.sum_mul, hcX]
    rcases Nat.eq_zero_or_pos B with h0 | h0
    · subst h0; simp
    · have e1 : pN ^ (T - 1) * pN = pN ^ T := pow_sub_one_mul (by omega) _
      have e2 : (pN ^ T) ^ (B - 1) * pN ^ T = (pN ^ T) ^ B := pow_sub_one_mul (by omega) _
      calc (∑ b : Fin B, batchLen (mulCount ops) v.checkSz b.1) * pN ^ (T - 1) * (pN ^ T) ^ (B - 1) * pN
          = (∑ b : Fin B, batchLen (mulCount ops) v.checkSz b.1) * ((pN ^ T) ^ (B - 1) * (pN ^ (T - 1) * pN)) := by ring
        _ = (∑ b : Fin B, batchLen (mulCount ops) v.checkSz b.1) * (pN ^ T) ^ B := by rw [e1, e2]
        _ ≤ _ := Nat.mul_le_mul_right _ (sum_batchLen _ _ _)
  have h2 : ∀ σ : Fin B → Fin T → Fp, (Finset.univ.filter (fun τ : Fin Q → Fp =>
      ∃ b : Fin Q, BadPoly S v block ops σ τ b.1 (τ b))).card * pN ≤ stmtCount ops * pN ^ Q := by
    intro σ
    have := card_adaptive (X := Fp) (B := Q) (fun τ b x => BadPoly S v block ops σ τ b.1 x)
      (by
        intro b τ τ' h x hx
        unfold BadPoly at hx ⊢
        rw [← polyBuf_causal S v block ops σ τ τ' b.1 (fun j hj => h j hj)]
        exact hx)
      (fun b => batchLen (stmtCount ops) v.polySz b.1)
      (fun τ b => card_badPoly S v block ops σ τ b.1)
    refine (Nat.mul_le_mul_right pN this).trans ?_
    rw [hcF]
    rcases Nat.eq_zero_or_pos Q with h0 | h0
    · subst h0; simp
    · have e2 : pN ^ (Q - 1) * pN = pN ^ Q := pow_sub_one_mul (by omega) _
      calc (∑ b : Fin Q, batchLen (stmtCount ops) v.polySz b.1) * pN ^ (Q - 1) * pN
          = (∑ b : Fin Q, batchLen (stmtCount ops) v.polySz b.1) * (pN ^ (Q - 1) * pN) := by ring
        _ = (∑ b : Fin Q, batchLen (stmtCount ops) v.polySz b.1) * pN ^ Q := by rw [e2]
        _ ≤ _ := Nat.mul_le_mul_right _ (sum_batchLen _ _ _)
  have h3 : (Finset.univ.filter (fun a : (Fin B → Fin T → Fp) × (Fin Q → Fp) =>
      ∃ b : Fin B, BadMul S v block ops a.1 a.2 b.1 (a.1 b))).card =
      ∑ τ : Fin Q → Fp, (Finset.univ.filter (fun σ : Fin B → Fin T → Fp => ∃ b : Fin B, BadMul S v block ops σ τ b.1 (σ b))).card := by
    simp only [Finset.card_filter]
    rw [Fintype.sum_prod_type_right]
  have h4 : (Finset.univ.filter (fun a : (Fin B → Fin T → Fp) × (Fin Q → Fp) =>
      ∃ b : Fin Q, BadPoly S v block ops a.1 a.2 b.1 (a.2 b))).card =
      ∑ σ : Fin B → Fin T → Fp, (Finset.univ.filter (fun τ : Fin Q → Fp => ∃ b : Fin Q, BadPoly S v block ops σ τ b.1 (τ b))).card := by
    simp only [Finset.card_filter]
    rw [Fintype.sum_prod_type]
  have h5 : (Finset.univ.filter (fun a : (Fin B → Fin T → Fp) × (Fin Q → Fp) =>
      (∃ b : Fin B, BadMul S v block ops a.1 a.2 b.1 (a.1 b)) ∨ ∃ b : Fin Q, BadPoly S v block ops a.1 a.2 b.1 (a.2 b))).card ≤ _ + _ :=
    (Finset.card_le_card (t := Finset.univ.filter (fun a : (Fin B → Fin T → Fp) × (Fin Q → Fp) =>
        ∃ b : Fin B, BadMul S v block ops a.1 a.2 b.1 (a.1 b)) ∪ Finset.univ.filter (fun a : (Fin B → Fin T → Fp) × (Fin Q → Fp) =>
        ∃ b : Fin Q, BadPoly S v block ops a.1 a.2 b.1 (a.2 b))) (by
      intro a ha
      rw [Finset.mem_union, Finset.mem_filter, Finset.mem_filter]
      rw [Finset.mem_filter] at ha
      rcases ha.2 with h | h
      · exact Or.inl ⟨Finset.mem_univ _, h⟩
      · exact Or.inr ⟨Finset.mem_univ _, h⟩)).trans (Finset.card_union_le _ _)
  refine (Nat.mul_le_mul_right pN h5).trans ?_
  rw [h3, h4, Nat.add_mul, Finset.sum_mul, Finset.sum_mul]
  have h6 := Finset.sum_le_sum (s := Finset.univ) fun τ (_ : τ ∈ (Finset.univ : Finset (Fin Q → Fp))) => h1 τ
  have h7 := Finset.sum_le_sum (s := Finset.univ) fun σ (_ : σ ∈ (Finset.univ : Finset (Fin B → Fin T → Fp))) => h2 σ
  rw [Finset.sum_const, Finset.card_univ, hcQ, smul_eq_mul] at h6
  rw [Finset.sum_const, Finset.card_univ, hcS, smul_eq_mul] at h7
  refine (Nat.add_le_add h6 h7).trans (le_of_eq ?_)
  ring

end EmpZk
