/-
What the verifier sends, and how many bytes it waits for, does not depend on `Delta` and the keys.
-/
import Verif.Lemmas.ArithWire
import Verif.Lemmas.ProcSame

namespace EmpZk

/-- Two sessions with the same random choices, sizes and VOLE messages. -/
structure ANetEnv.Alike (ne ne' : ANetEnv) : Prop where
  seed0 : ne.seed0 = ne'.seed0
  ext : ne.ext = ne'.ext
  checkSz : ne.base.checkSz = ne'.base.checkSz
  polySz : ne.base.polySz = ne'.base.polySz
  polySeed : ne.base.polySeed = ne'.base.polySeed

/-- Two verifiers equally far. -/
structure AVer.Level (V V' : AVer) : Prop where
  cnt : V.cnt = V'.cnt
  mulB : V.mulBatches = V'.mulBatches
  polyB : V.polyBatches = V'.polyBatches

theorem AVer.Level.used {V V' : AVer} (h : V.Level V') : V.used = V'.used := congrArg ACnt.used h.cnt
theorem AVer.Level.gates {V V' : AVer} (h : V.Level V') : V.gates.length = V'.gates.length := congrArg ACnt.gates h.cnt
theorem AVer.Level.polys {V V' : AVer} (h : V.Level V') : V.polys.length = V'.polys.length := congrArg ACnt.polys h.cnt

variable {ne ne' : ANetEnv} (ha : ne.Alike ne')
include ha

theorem like_mulCheck {V V' : AVer} (hl : V.Level V') : Proc.Like AVer.Level (averMulCheckN ne V) (averMulCheckN ne' V') := by
  unfold averMulCheckN
  rw [ha.seed0, ha.ext, hl.mulB, hl.used]
  refine (Proc.Like.refl _).bindM fun _ _ _ => (Proc.Like.refl _).bindM fun _ _ _ => (Proc.Like.refl _).bindM ?_
  rintro x _ rfl
  refine Proc.Like.opt fun a b h1 h2 => ?_
  have k1 := averMulCheck_cnt h1
  have k2 := averMulCheck_cnt h2
  refine ⟨by rw [k1, k2, hl.cnt, hl.used], ?_, ?_⟩
  all_goals
    simp only [averMulCheck, Option.bind_eq_bind, Option.bind_eq_some_iff, Option.some.injEq] at h1 h2
    obtain ⟨_, _, rfl⟩ := h1; obtain ⟨_, _, rfl⟩ := h2
  · exact congrArg (· + 1) hl.mulB
  · exact hl.polyB

theorem like_polyCheck {V V' : AVer} (hl : V.Level V') : Proc.Like AVer.Level (averPolyCheckN ne V) (averPolyCheckN ne' V') := by
  unfold averPolyCheckN
  rw [ha.polySeed, ha.ext, hl.polyB, hl.used]
  refine (Proc.Like.refl _).bindM fun _ _ _ => (Proc.Like.refl _).bindM fun _ _ _ => (Proc.Like.refl _).bindM ?_
  rintro x _ rfl
  refine Proc.Like.opt fun a b h1 h2 => ?_
  have k1 := averPolyCheck_cnt h1
  have k2 := averPolyCheck_cnt h2
  refine ⟨by rw [k1, k2, hl.cnt, hl.used], ?_, ?_⟩
  all_goals
    simp only [averPolyCheck, Option.bind_eq_bind, Option.bind_eq_some_iff, Option.some.injEq] at h1 h2
    obtain ⟨_, _, rfl⟩ := h1; obtain ⟨_, _, rfl⟩ := h2
  · exact hl.mulB
  · exact congrArg (· + 1) hl.polyB

omit ha in
theorem like_if {p p' : Prop} [Decidable p] [Decidable p'] (hp : p ↔ p') {P P' : Proc AVer} {V V' : AVer} (hl : V.Level V')
    (h : Proc.Like AVer.Level P P') :
    Proc.Like AVer.Level (if p then P else pure V) (if p' then P' else pure V') := by
  by_cases k : p
  · rw [if_pos k, if_pos (hp.1 k)]; exact h
  · rw [if_neg k, if_neg (fun j => k (hp.2 j))]; exact .done hl

theorem like_mulRoom {V V' : AVer} (hl : V.Level V') : Proc.Like AVer.Level (averMulRoomN ne V) (averMulRoomN ne' V') := by
  refine like_if ?_ hl (like_mulCheck ha hl)
  rw [hl.gates, show ne.env.checkSz = ne'.env.checkSz from ha.checkSz]

omit ha in
theorem polys_nil_iff {V V' : AVer} (hl : V.Level V') : V.polys ≠ [] ↔ V'.polys ≠ [] := by
  rw [Ne, Ne, ← List.length_eq_zero_iff, ← List.length_eq_zero_iff, hl.polys]

omit ha in
theorem gates_nil_iff {V V' : AVer} (hl : V.Level V') : V.gates ≠ [] ↔ V'.gates ≠ [] := by
  rw [Ne, Ne, ← List.length_eq_zero_iff, ← List.length_eq_zero_iff, hl.gates]

theorem like_polyRoom {V V' : AVer} (hl : V.Level V') : Proc.Like AVer.Level (averPolyRoomN ne V) (averPolyRoomN ne' V') := by
  refine like_if ?_ hl (like_polyCheck ha hl)
  rw [hl.polys, show ne.env.polySz = ne'.env.polySz from ha.polySz, polys_nil_iff hl]

theorem like_finPoly {V V' : AVer} (hl : V.Level V') : Proc.Like AVer.Level (averFinPolyN ne V) (averFinPolyN ne' V') :=
  like_if (polys_nil_iff hl) hl (like_polyCheck ha hl)

theorem like_finMul {V V' : AVer} (hl : V.Level V') : Proc.Like AVer.Level (averFinMulN ne V) (averFinMulN ne' V') :=
  like_if (gates_nil_iff hl) hl (like_mulCheck ha hl)

omit ha in
/-- An instruction without check. -/
theorem level_of {V V' U U' : AVer} (hl : V.Level V') (k : Nat) (h1 : U.cnt = { V.cnt with used := V.used + k })
    (h2 : U'.cnt = { V'.cnt with used := V'.used + k }) (h3 : U.mulBatches = V.mulBatches) (h4 : U'.mulBatches = V'.mulBatches)
    (h5 : U.polyBatches = V.polyBatches) (h6 : U'.polyBatches = V'.polyBatches) : U.Level U' :=
  ⟨by rw [h1, h2, hl.cnt, hl.used], by rw [h3, h4, hl.mulB], by rw [h5, h6, hl.polyB]⟩

theorem like_step {V V' : AVer} (hl : V.Level V') (op : AOp) : Proc.Like AVer.Level (averStepN ne V op) (averStepN ne' V' op) := by
  cases op with
  | input w =>
    simp only [averStepN]
    rw [ha.ext, hl.used]
    refine (Proc.Like.refl _).bindM fun _ _ _ => (Proc.Like.refl _).bindM ?_
    rintro x _ rfl
    refine Proc.Like.opt fun a b h1 h2 => ?_
    simp only [averStep, Option.some.injEq] at h1 h2
    subst h1; subst h2
    exact level_of hl 1 rfl rfl rfl rfl rfl rfl
  | pub w =>
    simp only [averStepN]
    refine Proc.Like.opt fun a b h1 h2 => ?_
    simp only [averStep, Option.some.injEq] at h1 h2
    subst h1; subst h2
    exact level_of hl 0 rfl rfl rfl rfl rfl rfl
  | add i j =>
    refine Proc.Like.opt fun a b h1 h2 => ?_
    simp only [averStep, Option.bind_eq_bind, Option.bind_eq_some_iff, Option.some.injEq] at h1 h2
    obtain ⟨_, _, _, _, rfl⟩ := h1; obtain ⟨_, _, _, _, rfl⟩ := h2
    exact level_of hl 0 rfl rfl rfl rfl rfl rfl
  | mulc i c =>
    refine Proc.Like.opt fun a b h1 h2 => ?_
    simp only [averStep, Option.bind_eq_bind, Option.bind_eq_some_iff, Option.some.injEq] at h1 h2
    obtain ⟨_, _, rfl⟩ := h1; obtain ⟨_, _, rfl⟩ := h2
    exact level_of hl 0 rfl rfl rfl rfl rfl rfl
  | revealZero i =>
    refine Proc.Like.opt fun a b h1 h2 => ?_
    simp only [averStep, Option.bind_eq_bind, Option.bind_eq_some_iff, Option.some.injEq] at h1 h2
    obtain ⟨_, _, rfl⟩ := h1; obtain ⟨_, _, rfl⟩ := h2
    exact level_of hl 0 rfl rfl rfl rfl rfl rfl
  | reveal i =>
    simp only [averStepN]
    refine (Proc.Like.refl _).bindM ?_
    rintro x _ rfl
    refine Proc.Like.opt fun a b h1 h2 => ?_
    simp only [averStep, Option.bind_eq_bind, Option.bind_eq_some_iff, Option.some.injEq] at h1 h2
    obtain ⟨_, _, rfl⟩ := h1; obtain ⟨_, _, rfl⟩ := h2
    exact level_of hl 0 rfl rfl rfl rfl rfl rfl
  | revealCheck i y =>
    simp only [averStepN]
    refine (Proc.Like.refl _).bindM ?_
    rintro x _ rfl
    refine Proc.Like.opt fun a b h1 h2 => ?_
    simp only [averStep, Option.bind_eq_bind, Option.bind_eq_some_iff, Option.some.injEq] at h1 h2
    obtain ⟨_, _, rfl⟩ := h1; obtain ⟨_, _, rfl⟩ := h2
    exact level_of hl 0 rfl rfl rfl rfl rfl rfl
  | mul i j =>
    simp only [averStepN]
    refine (Proc.Like.opt (R := fun _ _ => True) fun _ _ _ _ => trivial).bindM fun a a' _ => ?_
    refine (Proc.Like.opt (R := fun _ _ => True) fun _ _ _ _ => trivial).bindM fun b b' _ => ?_
    refine (like_mulRoom ha hl).bindM fun U U' hU => ?_
    rw [ha.ext, hU.used]
    refine (Proc.Like.refl _).bindM fun _ _ _ => (Proc.Like.refl _).bindM ?_
    rintro x _ rfl
    refine Proc.Like.opt fun A B h1 h2 => ?_
    have k1 := averMulPush_cnt h1
    have k2 := averMulPush_cnt h2
    refine ⟨by rw [k1, k2, hU.cnt, hU.used], ?_, ?_⟩
    all_goals
      unfold averMulPush at h1 h2
      split at h1
      · split at h2
        · cases h1; cases h2
          first | exact hU.mulB | exact hU.polyB
        · cases h2
      · cases h1
  | poly st =>
    simp only [averStepN]
    refine (Proc.Like.opt (R := fun _ _ => True) fun _ _ _ _ => trivial).bindM fun a a' _ => ?_
    refine (like_polyRoom ha hl).bindM fun U U' hU => ?_
    refine Proc.Like.opt fun A B h1 h2 => ?_
    have k1 := averPolyPush_cnt h1
    have k2 := averPolyPush_cnt h2
    refine ⟨by rw [k1, k2, hU.cnt], ?_, ?_⟩
    all_goals
      unfold averPolyPush at h1 h2
      split at h1
      · split at h2
        · cases h1; cases h2
          first | exact hU.mulB | exact hU.polyB
        · cases h2
      · cases h1

theorem like_run (ops : List AOp) : ∀ {V V' : AVer}, V.Level V' → Proc.Like AVer.Level (averRunN ne V ops) (averRunN ne' V' ops) := by
  induction ops with
  | nil => intro V V' hl; exact .done hl
  | cons o os ih => intro V V' hl; exact (like_step ha hl o).bindM fun _ _ h => ih h

theorem like_net (ops : List AOp) : Proc.Like (fun _ _ => True) (averNet ne ops) (averNet ne' ops) := by
  unfold averNet
  rw [ha.ext]
  refine (Proc.Like.refl _).bindM fun _ _ _ => (like_run ha ops ⟨rfl, rfl, rfl⟩).bindM fun V V' hl => ?_
  unfold averFinalizeN
  exact (like_finPoly ha hl).bindM fun _ _ h => (like_finMul ha h).bindM fun _ _ _ =>
    (Proc.Like.refl _).bindM fun _ _ _ => .done trivial

end EmpZk
