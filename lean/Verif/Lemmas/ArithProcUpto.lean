/-
The verifier's process does not depend on seeds of checks it does not reach.
-/
import Verif.Lemmas.ProcLog
import Verif.Lemmas.ArithWire

namespace EmpZk

/-- The session `ne` with other seeds. -/
def ANetEnv.reseed (ne : ANetEnv) (sd : Nat → Nat → U128) (ps : Nat → W) (s0 : Nat → U128) : ANetEnv :=
  ⟨{ ne.base with seed := sd, polySeed := ps }, s0, ne.expand, ne.ext⟩

section
variable (ne : ANetEnv) (sd : Nat → Nat → U128) (ps : Nat → W) (s0 : Nat → U128)

theorem mulCheck_reseed {V : AVer} (h : s0 V.mulBatches = ne.seed0 V.mulBatches) :
    averMulCheckN (ne.reseed sd ps s0) V = averMulCheckN ne V := by
  unfold averMulCheckN averMulCheck
  simp only [ANetEnv.reseed, ANetEnv.env, h]
  rfl

theorem polyCheck_reseed {V : AVer} (h : ps V.polyBatches = ne.base.polySeed V.polyBatches) :
    averPolyCheckN (ne.reseed sd ps s0) V = averPolyCheckN ne V := by
  unfold averPolyCheckN averPolyCheck
  simp only [ANetEnv.reseed, ANetEnv.env, h]
  rfl

theorem step_reseed {V : AVer} {o : AOp}
    (hm : mulCount [o] = 1 → V.gates.length = ne.base.checkSz → s0 V.mulBatches = ne.seed0 V.mulBatches)
    (hp : stmtCount [o] = 1 → V.polys.length ≥ ne.base.polySz → V.polys ≠ [] → ps V.polyBatches = ne.base.polySeed V.polyBatches) :
    averStepN (ne.reseed sd ps s0) V o = averStepN ne V o := by
  cases o with
  | mul i j =>
    have e : averMulRoomN (ne.reseed sd ps s0) V = averMulRoomN ne V := by
      unfold averMulRoomN
      by_cases h : V.gates.length = ne.env.checkSz
      · rw [if_pos h, mulCheck_reseed ne sd ps s0 (hm rfl h)]
        exact if_pos h
      · rw [if_neg h]
        exact if_neg h
    simp only [averStepN, e]
    rfl
  | poly st =>
    have e : averPolyRoomN (ne.reseed sd ps s0) V = averPolyRoomN ne V := by
      unfold averPolyRoomN
      by_cases h : V.polys.length ≥ ne.env.polySz ∧ V.polys ≠ []
      · rw [if_pos h, polyCheck_reseed ne sd ps s0 (hp rfl h.1 h.2)]
        exact if_pos h
      · rw [if_neg h]
        exact if_neg h
    simp only [averStepN, e]
    rfl
  | input w => rfl
  | pub w => rfl
  | add i j => rfl
  | mulc i c => rfl
  | reveal i => rfl
  | revealCheck i x => rfl
  | revealZero i => rfl

theorem mulRoom_yields {V V' : AVer} (h : (averMulRoomN ne V).Yields V') :
    (V'.mulBatches * ne.base.checkSz + V'.gates.length ≤ V.mulBatches * ne.base.checkSz + V.gates.length) ∧
    V'.polyBatches = V.polyBatches ∧ V'.polys = V.polys := by
  unfold averMulRoomN at h
  split at h
  · rename_i hl
    have hl : V.gates.length = ne.base.checkSz := hl
    unfold averMulCheckN at h
    obtain ⟨_, _, h⟩ := yields_bind h
    obtain ⟨_, _, h⟩ := yields_bind h
    obtain ⟨_, _, h⟩ := yields_bind h
    have h := yields_ofOpt h
    unfold averMulCheck at h
    simp only [Option.bind_eq_bind, Option.bind_eq_some_iff, Option.some.injEq] at h
    obtain ⟨_, _, rfl⟩ := h
    refine ⟨?_, rfl, rfl⟩
    simp only [List.length_nil]
    rw [hl, Nat.add_mul]
    omega
  · obtain rfl := yields_pure h
    exact ⟨le_refl _, rfl, rfl⟩

theorem polyRoom_yields {V V' : AVer} (h : (averPolyRoomN ne V).Yields V') :
    (V'.polyBatches * ne.base.polySz + V'.polys.length ≤ V.polyBatches * ne.base.polySz + V.polys.length) ∧
    V'.mulBatches = V.mulBatches ∧ V'.gates = V.gates := by
  unfold averPolyRoomN at h
  split at h
  · rename_i hl
    have hl : V.polys.length ≥ ne.base.polySz := hl.1
    unfold averPolyCheckN at h
    obtain ⟨_, _, h⟩ := yields_bind h
    obtain ⟨_, _, h⟩ := yields_bind h
    obtain ⟨_, _, h⟩ := yields_bind h
    have h := yields_ofOpt h
    unfold averPolyCheck at h
    simp only [Option.bind_eq_bind, Option.bind_eq_some_iff, Option.some.injEq] at h
    obtain ⟨_, _, rfl⟩ := h
    refine ⟨?_, rfl, rfl⟩
    simp only [List.length_nil]
    rw [Nat.add_mul]
    omega
  · obtain rfl := yields_pure h
    exact ⟨le_refl _, rfl, rfl⟩

theorem step_yields {V V' : AVer} {o : AOp} (h : (averStepN ne V o).Yields V') :
    (V'.mulBatches * ne.base.checkSz + V'.gates.length ≤ V.mulBatches * ne.base.checkSz + V.gates.length + mulCount [o]) ∧
    (V'.polyBatches * ne.base.polySz + V'.polys.length ≤ V.polyBatches * ne.base.polySz + V.polys.length + stmtCount [o]) := by
  have quiet : ∀ {m : AMsg} {o : AOp}, averStep ne.env V m o = some V' → mulCount [o] = 0 → stmtCount [o] = 0 →
      V'.mulBatches = V.mulBatches ∧ V'.gates = V.gates ∧ V'.polyBatches = V.polyBatches ∧ V'.polys = V.polys := by
    intro m o h h1 h2
    cases o with
    | mul i j => cases h1
    | poly st => cases h2
    | input w => simp only [averStep, Option.some.injEq] at h; subst h; exact ⟨rfl, rfl, rfl, rfl⟩
    | pub w => simp only [averStep, Option.some.injEq] at h; subst h; exact ⟨rfl, rfl, rfl, rfl⟩
    | add i j =>
      simp only [averStep, Option.bind_eq_bind, Option.bind_eq_some_iff, Option.some.injEq] at h
      obtain ⟨_, _, _, _, rfl⟩ := h; exact ⟨rfl, rfl, rfl, rfl⟩
    | mulc i c =>
      simp only [averStep, Option.bind_eq_bind, Option.bind_eq_some_iff, Option.some.injEq] at h
      obtain ⟨_, _, rfl⟩ := h; exact ⟨rfl, rfl, rfl, rfl⟩
    | reveal i =>
      simp only [averStep, Option.bind_eq_bind, Option.bind_eq_some_iff, Option.some.injEq] at h
      obtain ⟨_, _, rfl⟩ := h; exact ⟨rfl, rfl, rfl, rfl⟩
    | revealCheck i x =>
      simp only [averStep, Option.bind_eq_bind, Option.bind_eq_some_iff, Option.some.injEq] at h
      obtain ⟨_, _, rfl⟩ := h; exact ⟨rfl, rfl, rfl, rfl⟩
    | revealZero i =>
      simp only [averStep, Option.bind_eq_bind, Option.bind_eq_some_iff, Option.some.injEq] at h
      obtain ⟨_, _, rfl⟩ := h; exact ⟨rfl, rfl, rfl, rfl⟩
  have fin : ∀ {m : AMsg} {o : AOp}, averStep ne.env V m o = some V' → mulCount [o] = 0 → stmtCount [o] = 0 →
      (V'.mulBatches * ne.base.checkSz + V'.gates.length ≤ V.mulBatches * ne.base.checkSz + V.gates.length + mulCount [o]) ∧
      (V'.polyBatches * ne.base.polySz + V'.polys.length ≤ V.polyBatches * ne.base.polySz + V.polys.length + stmtCount [o]) := by
    intro m o h h1 h2
    obtain ⟨e1, e2, e3, e4⟩ := quiet h h1 h2
    rw [e1, e2, e3, e4]
    exact ⟨Nat.le_add_right _ _, Nat.le_add_right _ _⟩
  cases o with
  | input w =>
    obtain ⟨_, _, h⟩ := yields_bind h
    obtain ⟨_, _, h⟩ := yields_bind h
    exact fin (yields_ofOpt h) rfl rfl
  | reveal i => obtain ⟨_, _, h⟩ := yields_bind h; exact fin (yields_ofOpt h) rfl rfl
  | revealCheck i x => obtain ⟨_, _, h⟩ := yields_bind h; exact fin (yields_ofOpt h) rfl rfl
  | pub w => exact fin (m := ⟨0, 0, 0⟩) (yields_ofOpt h) rfl rfl
  | add i j => exact fin (yields_ofOpt h) rfl rfl
  | mulc i c => exact fin (yields_ofOpt h) rfl rfl
  | revealZero i => exact fin (yields_ofOpt h) rfl rfl
  | mul i j =>
    obtain ⟨a, _, h⟩ := yields_bind h
    obtain ⟨b, _, h⟩ := yields_bind h
    obtain ⟨r, hr, h⟩ := yields_bind h
    obtain ⟨_, _, h⟩ := yields_bind h
    obtain ⟨_, _, h⟩ := yields_bind h
    have h := yields_ofOpt h
    obtain ⟨k1, k2, k3⟩ := mulRoom_yields ne hr
    unfold averMulPush at h
    split at h
    · simp only [Option.some.injEq] at h
      subst h
      simp only [List.length_append, List.length_singleton, k2, k3]
      have e : mulCount [.mul i j] = 1 := rfl
      rw [e]
      exact ⟨by omega, Nat.le_add_right _ _⟩
    · cases h
  | poly st =>
    obtain ⟨p, _, h⟩ := yields_bind h
    obtain ⟨r, hr, h⟩ := yields_bind h
    have h := yields_ofOpt h
    obtain ⟨k1, k2, k3⟩ := polyRoom_yields ne hr
    unfold averPolyPush at h
    split at h
    · simp only [Option.some.injEq] at h
      subst h
      simp only [List.length_append, List.length_singleton, k2, k3]
      have e : stmtCount [.poly st] = 1 := rfl
      rw [e]
      exact ⟨Nat.le_add_right _ _, by omega⟩
    · cases h

theorem mulCount_cons (o : AOp) (os : List AOp) : mulCount (o :: os) = mulCount [o] + mulCount os := by
  cases o <;> simp [mulCount, Nat.add_comm]

theorem stmtCount_cons (o : AOp) (os : List AOp) : stmtCount (o :: os) = stmtCount [o] + stmtCount os := by
  cases o <;> simp [stmtCount, Nat.add_comm]

theorem lt_of_room {x y sz m b : Nat} (h1 : x * sz + y + m ≤ (b + 1) * sz) (h2 : sz ≤ y) (h3 : 1 ≤ m) : x < b := by
  by_contra hc
  have : b * sz ≤ x * sz := Nat.mul_le_mul_right _ (by omega)
  rw [Nat.add_mul] at h1
  omega

/-- As long as at most `b` (`q`) checks are made, seeds from `b` (`q`) on do not matter. -/
theorem run_reseed {b q : Nat} (ops : List AOp) : ∀ {V : AVer},
    ((∀ i, s0 i = ne.seed0 i) ∨ (∀ i, i < b → s0 i = ne.seed0 i) ∧
      V.mulBatches * ne.base.checkSz + V.gates.length + mulCount ops ≤ (b + 1) * ne.base.checkSz) →
    ((∀ i, ps i = ne.base.polySeed i) ∨ (∀ i, i < q → ps i = ne.base.polySeed i) ∧
      V.polyBatches * ne.base.polySz + V.polys.length + stmtCount ops ≤ (q + 1) * ne.base.polySz) →
    averRunN (ne.reseed sd ps s0) V ops = averRunN ne V ops := by
  induction ops with
  | nil => intro V _ _; rfl
  | cons o os ih =>
    intro V hm hp
    rw [mulCount_cons] at hm
    rw [stmtCount_cons] at hp
    simp only [averRunN]
    rw [step_reseed ne sd ps s0 (o := o) (V := V)]
    · refine bind_congr_yields _ _ _ fun V' hV' => ih ?_ ?_
      · rcases hm with hm | ⟨h1, h2⟩
        · exact .inl hm
        · have := (step_yields ne hV').1
          exact .inr ⟨h1, by omega⟩
      · rcases hp with hp | ⟨h1, h2⟩
        · exact .inl hp
        · have := (step_yields ne hV').2
          exact .inr ⟨h1, by omega⟩
    · intro h1 h2
      rcases hm with hm | ⟨h3, h4⟩
      · exact hm _
      · exact h3 _ (lt_of_room h4 (le_of_eq h2.symm) (by omega))
    · intro h1 h2 _
      rcases hp with hp | ⟨h3, h4⟩
      · exact hp _
      · exact h3 _ (lt_of_room h4 h2 (by omega))

end

end EmpZk
