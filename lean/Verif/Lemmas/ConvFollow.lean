/-
The verifier of a session with bits and field elements asks the same questions as the program that works on committed values.
-/
import Verif.Lemmas.MixAll
import Verif.Lemmas.MixFollow
import Verif.Lemmas.ArithSession
import Verif.Lemmas.ConvProg
import Verif.Spec.ConvCommit

namespace EmpZk

/-- The verifier's state and the committed one have the same number of everything. -/
structure ASh (V : AVer) (c : ACom) : Prop where
  wires : V.wires.length = c.wires.length
  used : V.used = c.used
  gates : V.gates.length = c.gates.length
  polys : V.polys.length = c.polys.length
  mulBatches : V.mulBatches = c.mulBatches
  polyBatches : V.polyBatches = c.polyBatches

theorem getElem?_len {α β : Type} {l : List α} {l' : List β} (h : l.length = l'.length) {i : Nat} {a : α} (ha : l[i]? = some a) :
    ∃ b, l'[i]? = some b := by
  obtain ⟨hi, _⟩ := List.getElem?_eq_some_iff.1 ha
  exact ⟨l'[i]'(h ▸ hi), List.getElem?_eq_getElem _⟩

theorem convLookup_len {α β : Type} {l : List α} {l' : List β} (h : l.length = l'.length) {st : APoly Nat} {p : APoly α}
    (hp : st.lookup l = some p) : ∃ q, st.lookup l' = some q := by
  have h1 := alookup_map (fun _ : α => ()) l st
  have h2 := alookup_map (fun _ : β => ()) l' st
  have h3 : l.map (fun _ => ()) = l'.map (fun _ => ()) := by simp [h]
  rw [hp, h3, h2] at h1
  cases hq : st.lookup l' with
  | none => rw [hq] at h1; simp at h1
  | some q => exact ⟨q, rfl⟩

theorem mulTasks_of_check {delta : W} {gs : List AGate} {threads : Nat} {seeds : Nat → U128} {ope : U128} {ans : W × W} {ok : Bool}
    (h : mulCheckB delta gs threads seeds ope ans = some ok) : (mulTasks gs.length threads).isSome = true := by
  simp only [mulCheckB, Option.bind_eq_bind, Option.bind_eq_some_iff] at h
  obtain ⟨w, h, _⟩ := h
  unfold mulSumsB at h
  unfold mulTasks
  by_cases hl : gs.length < 32
  · rw [if_pos hl] at h ⊢
    by_cases h0 : gs.length = 0
    · rw [List.length_eq_zero_iff.1 h0] at h
      simp [taskB, uniHashCoeffGen] at h
    · rw [if_neg h0]; rfl
  · rw [if_neg hl] at h ⊢
    simp only [Option.bind_eq_bind, Option.bind_eq_some_iff] at h
    obtain ⟨ts, h, _⟩ := h
    rw [h]; rfl

section
variable {v : AView} {d : Fp}

theorem averMulCheck_shape {V V' : AVer} {c : ACom} {ans : W × W} (hs : ASh V c) (h : averMulCheck (v.env d) V ans = some V') :
    (mulTasks c.gates.length v.threads).isSome = true ∧ ASh V' (acomMulCheck v c ans) := by
  simp only [averMulCheck, Option.bind_eq_bind, Option.bind_eq_some_iff, Option.some.injEq] at h
  obtain ⟨ok, h1, rfl⟩ := h
  have := mulTasks_of_check h1
  rw [hs.gates] at this
  refine ⟨this, hs.wires, ?_, rfl, hs.polys, ?_, hs.polyBatches⟩
  · show V.used + 1 = c.used + 1; rw [hs.used]
  · show V.mulBatches + 1 = c.mulBatches + 1; rw [hs.mulBatches]

theorem averPolyCheck_shape {V V' : AVer} {c : ACom} {ans : W × W} (hs : ASh V c) (h : averPolyCheck (v.env d) V ans = some V') :
    ASh V' (acomPolyCheck v c ans) := by
  simp only [averPolyCheck, Option.bind_eq_bind, Option.bind_eq_some_iff, Option.some.injEq] at h
  obtain ⟨ok, h1, rfl⟩ := h
  refine ⟨hs.wires, ?_, hs.gates, rfl, hs.mulBatches, ?_⟩
  · show V.used + 1 = c.used + 1; rw [hs.used]
  · show V.polyBatches + 1 = c.polyBatches + 1; rw [hs.polyBatches]

theorem averMulPush_shape {V V' : AVer} {c : ACom} {a b : U128} {a' b' : Fp × Fp} {w : W} {f : Fp} (hs : ASh V c)
    (h : averMulPush (v.env d) V a b w = some V') : ∃ c', acomMulPush v c a' b' f = some c' ∧ ASh V' c' := by
  unfold averMulPush at h
  split at h
  · rename_i hl
    have hl' : c.gates.length < v.checkSz := by rw [← hs.gates]; exact hl
    simp only [Option.some.injEq] at h
    subst h
    refine ⟨_, if_pos hl', ?_, ?_, ?_, hs.polys, hs.mulBatches, hs.polyBatches⟩
    · simp [hs.wires]
    · simp [hs.used]
    · simp [hs.gates]
  · simp at h

theorem averPolyPush_shape {V V' : AVer} {c : ACom} {p : APoly U128} {p' : APoly (Fp × Fp)} (hs : ASh V c)
    (h : averPolyPush (v.env d) V p = some V') : ∃ c', acomPolyPush v c p' = some c' ∧ ASh V' c' := by
  unfold averPolyPush at h
  split at h
  · rename_i hl
    have hl' : c.polys.length < v.polySz := by rw [← hs.polys]; exact hl
    simp only [Option.some.injEq] at h
    subst h
    refine ⟨_, if_pos hl', hs.wires, hs.used, hs.gates, ?_, hs.mulBatches, hs.polyBatches⟩
    simp [hs.polys]
  · simp at h

/-- The instructions that ask nothing or one word. -/
def AOp.Light : AOp → Prop
  | .mul _ _ => False
  | .poly _ => False
  | _ => True

theorem averStep_shape {V V' : AVer} {c : ACom} {m : AMsg} {o : AOp} (ho : o.Light) (hs : ASh V c)
    (h : averStep (v.env d) V m o = some V') : ∃ c', acomStep v c m o = some c' ∧ ASh V' c' := by
  cases o with
  | mul i j => exact ho.elim
  | poly st => exact ho.elim
  | input w =>
    simp only [averStep, Option.some.injEq] at h
    subst h
    exact ⟨_, rfl, by simp [hs.wires], by simp [hs.used], hs.gates, hs.polys, hs.mulBatches, hs.polyBatches⟩
  | pub w =>
    simp only [averStep, Option.some.injEq] at h
    subst h
    exact ⟨_, rfl, by simp [hs.wires], hs.used, hs.gates, hs.polys, hs.mulBatches, hs.polyBatches⟩
  | add i j =>
    simp only [averStep, Option.bind_eq_bind, Option.bind_eq_some_iff, Option.some.injEq] at h
    obtain ⟨a, h1, b, h2, rfl⟩ := h
    obtain ⟨a', k1⟩ := getElem?_len hs.wires h1
    obtain ⟨b', k2⟩ := getElem?_len hs.wires h2
    simp only [acomStep, k1, k2, Option.bind_eq_bind, Option.bind_some]
    exact ⟨_, rfl, by simp [hs.wires], hs.used, hs.gates, hs.polys, hs.mulBatches, hs.polyBatches⟩
  | mulc i w =>
    simp only [averStep, Option.bind_eq_bind, Option.bind_eq_some_iff, Option.some.injEq] at h
    obtain ⟨a, h1, rfl⟩ := h
    obtain ⟨a', k1⟩ := getElem?_len hs.wires h1
    simp only [acomStep, k1, Option.bind_eq_bind, Option.bind_some]
    exact ⟨_, rfl, by simp [hs.wires], hs.used, hs.gates, hs.polys, hs.mulBatches, hs.polyBatches⟩
  | reveal i =>
    simp only [averStep, Option.bind_eq_bind, Option.bind_eq_some_iff, Option.some.injEq] at h
    obtain ⟨a, h1, rfl⟩ := h
    obtain ⟨a', k1⟩ := getElem?_len hs.wires h1
    simp only [acomStep, k1, Option.bind_eq_bind, Option.bind_some]
    exact ⟨_, rfl, hs.wires, hs.used, hs.gates, hs.polys, hs.mulBatches, hs.polyBatches⟩
  | revealCheck i x =>
    simp only [averStep, Option.bind_eq_bind, Option.bind_eq_some_iff, Option.some.injEq] at h
    obtain ⟨a, h1, rfl⟩ := h
    obtain ⟨a', k1⟩ := getElem?_len hs.wires h1
    simp only [acomStep, k1, Option.bind_eq_bind, Option.bind_some]
    exact ⟨_, rfl, hs.wires, hs.used, hs.gates, hs.polys, hs.mulBatches, hs.polyBatches⟩
  | revealZero i =>
    simp only [averStep, Option.bind_eq_bind, Option.bind_eq_some_iff, Option.some.injEq] at h
    obtain ⟨a, h1, rfl⟩ := h
    obtain ⟨a', k1⟩ := getElem?_len hs.wires h1
    simp only [acomStep, k1, Option.bind_eq_bind, Option.bind_some]
    exact ⟨_, rfl, hs.wires, hs.used, hs.gates, hs.polys, hs.mulBatches, hs.polyBatches⟩

end

/-! ### the arithmetic part -/

section
variable {F : Type} [Field F] [BlockField F] [DecidableEq F]
variable {ce : ConvEnv F} {vb : BView F} {va : AView} {cand : Nat → List (Fp × Fp)} {d : F} {d' : Fp} {k : Nat}

theorem amulCheck_follows {V : AVer} {c : ACom} (hs : ASh V c) :
    Follows (fun V' r => averMulCheck ((ce.view va).env d') V r.2 = some V' ∧ ASh V' r.1) (amulCheckR (ce.at vb va cand d d') k V)
      (amulCheckC ce va k c) := by
  unfold amulCheckR amulCheckC
  refine .call (fun _ _ => ?_)
  rw [hs.mulBatches]
  refine .call (fun _ _ => .call (fun _ _ => ?_))
  rw [hs.used]
  refine (Follows.calls _).bind (fun _ _ _ => .call (fun _ bs => ?_))
  refine Follows.bind (R := fun V' r => averMulCheck ((ce.view va).env d') V r.2 = some V' ∧ ASh V' r.1) (.ofOpt (fun V' h => ?_))
    (fun _ _ h => .call (fun _ _ => .done h))
  have h : averMulCheck ((ce.view va).env d') V (decAns bs) = some V' := h
  obtain ⟨h1, h2⟩ := averMulCheck_shape hs h
  exact ⟨_, if_pos h1, h, h2⟩

theorem apolyCheck_follows {V : AVer} {c : ACom} (hs : ASh V c) :
    Follows (fun V' r => averPolyCheck ((ce.view va).env d') V r.2 = some V' ∧ ASh V' r.1) (apolyCheckR (ce.at vb va cand d d') k V)
      (apolyCheckC ce va k c) := by
  unfold apolyCheckR apolyCheckC
  refine .call (fun _ _ => ?_)
  rw [hs.polyBatches]
  refine .call (fun _ _ => ?_)
  rw [hs.used]
  refine (Follows.calls _).bind (fun _ _ _ => .call (fun _ bs => ?_))
  refine Follows.ofOpt (y := some (acomPolyCheck (ce.view va) c (decAns bs), decAns bs)) (fun V' h => ?_)
  have h : averPolyCheck ((ce.view va).env d') V (decAns bs) = some V' := h
  exact ⟨_, rfl, h, averPolyCheck_shape hs h⟩

theorem amulRoom_follows {V : AVer} {c : ACom} (hs : ASh V c) :
    Follows (fun V' r => averMulRoom ((ce.view va).env d') V r.2 = some V' ∧ ASh V' r.1) (amulRoomR (ce.at vb va cand d d') k V)
      (amulRoomC ce va k c) := by
  have e : V.gates.length = (ce.at vb va cand d d').base.checkSz ↔ c.gates.length = va.checkSz := by rw [hs.gates]; exact Iff.rfl
  unfold amulRoomR amulRoomC averMulRoom
  by_cases h : c.gates.length = va.checkSz
  · rw [if_pos h, if_pos (e.2 h)]
    refine (amulCheck_follows hs).mono (fun V' r hr => ⟨?_, hr.2⟩)
    rw [if_pos (show V.gates.length = ((ce.view va).env d').checkSz from e.2 h)]; exact hr.1
  · rw [if_neg h, if_neg (fun h' => h (e.1 h'))]
    refine .done ⟨?_, hs⟩
    rw [if_neg (show ¬ V.gates.length = ((ce.view va).env d').checkSz from fun h' => h (e.1 h'))]

theorem apolyRoom_follows {V : AVer} {c : ACom} (hs : ASh V c) :
    Follows (fun V' r => averPolyRoom ((ce.view va).env d') V r.2 = some V' ∧ ASh V' r.1) (apolyRoomR (ce.at vb va cand d d') k V)
      (apolyRoomC ce va k c) := by
  have e : (V.polys.length ≥ (ce.at vb va cand d d').base.polySz ∧ V.polys ≠ []) ↔ (c.polys.length ≥ va.polySz ∧ c.polys ≠ []) := by
    have : V.polys ≠ [] ↔ c.polys ≠ [] := by rw [← List.length_pos_iff, ← List.length_pos_iff, hs.polys]
    rw [this, hs.polys]; exact Iff.rfl
  unfold apolyRoomR apolyRoomC averPolyRoom
  by_cases h : c.polys.length ≥ va.polySz ∧ c.polys ≠ []
  · rw [if_pos h, if_pos (e.2 h)]
    refine (apolyCheck_follows hs).mono (fun V' r hr => ⟨?_, hr.2⟩)
    rw [if_pos (show V.polys.length ≥ ((ce.view va).env d').polySz ∧ V.polys ≠ [] from e.2 h)]; exact hr.1
  · rw [if_neg h, if_neg (fun h' => h (e.1 h'))]
    refine .done ⟨?_, hs⟩
    rw [if_neg (show ¬ (V.polys.length ≥ ((ce.view va).env d').polySz ∧ V.polys ≠ []) from fun h' => h (e.1 h'))]

theorem alight_follows {V : AVer} {c : ACom} (hs : ASh V c) (m : AMsg) {o : AOp} (ho : o.Light) :
    Follows (fun V' r => averStep ((ce.view va).env d') V r.2 o = some V' ∧ ASh V' r.1)
      (RProg.ofOpt (averStep (ce.at vb va cand d d').env V m o)) (acomMsg (ce.view va) c m o) := by
  refine .ofOpt (fun V' h => ?_)
  have h : averStep ((ce.view va).env d') V m o = some V' := h
  obtain ⟨c', h1, h2⟩ := averStep_shape ho hs h
  exact ⟨(c', m), by rw [h1]; rfl, h, h2⟩

theorem aop_follows {V : AVer} {c : ACom} (hs : ASh V c) (o : AOp) :
    Follows (fun V' r => averStep ((ce.view va).env d') V r.2 o = some V' ∧ ASh V' r.1) (aopR (ce.at vb va cand d d') k V o)
      (aopC ce va k c o) := by
  cases o with
  | pub w => exact alight_follows hs _ trivial
  | add i j => exact alight_follows hs _ trivial
  | mulc i w => exact alight_follows hs _ trivial
  | revealZero i => exact alight_follows hs _ trivial
  | reveal i => exact .call (fun _ _ => alight_follows hs _ trivial)
  | revealCheck i x => exact .call (fun _ _ => alight_follows hs _ trivial)
  | input w =>
    unfold aopR aopC
    dsimp only
    rw [hs.used]
    exact (Follows.calls _).bind (fun _ _ _ => .call (fun _ _ => alight_follows hs _ trivial))
  | mul i j =>
    unfold aopR aopC
    refine Follows.bind (R := fun a _ => V.wires[i]? = some a) (.ofOpt (fun a ha => ?_)) (fun a a' ha =>
      Follows.bind (R := fun b _ => V.wires[j]? = some b) (.ofOpt (fun b hb => ?_)) (fun b b' hb => ?_))
    · obtain ⟨a', h⟩ := getElem?_len hs.wires ha; exact ⟨a', h, ha⟩
    · obtain ⟨b', h⟩ := getElem?_len hs.wires hb; exact ⟨b', h, hb⟩
    · refine (amulRoom_follows (vb := vb) (cand := cand) (d := d) hs).bind (fun V1 r hr => ?_)
      rw [hr.2.used]
      refine (Follows.calls _).bind (fun _ _ _ => .call (fun _ bs => .ofOpt (fun V' h => ?_)))
      have h : averMulPush ((ce.view va).env d') V1 a b (decW bs) = some V' := h
      obtain ⟨c', h1, h2⟩ := averMulPush_shape (a' := a') (b' := b') (f := fp (decW bs)) hr.2 h
      refine ⟨(c', ⟨decW bs, r.2⟩), by rw [h1]; rfl, ?_, h2⟩
      simp only [averStep, ha, hb, Option.bind_eq_bind, Option.bind_some, hr.1, h]
  | poly st =>
    unfold aopR aopC
    refine Follows.bind (R := fun a _ => st.lookup V.wires = some a) (.ofOpt (fun a ha => ?_)) (fun a a' ha => ?_)
    · obtain ⟨a', h⟩ := convLookup_len hs.wires ha; exact ⟨a', h, ha⟩
    · refine (apolyRoom_follows (vb := vb) (cand := cand) (d := d) hs).bind (fun V1 r hr => .ofOpt (fun V' h => ?_))
      have h : averPolyPush ((ce.view va).env d') V1 a = some V' := h
      obtain ⟨c', h1, h2⟩ := averPolyPush_shape (p' := a') hr.2 h
      refine ⟨(c', ⟨0, r.2⟩), by rw [h1]; rfl, ?_, h2⟩
      simp only [averStep, ha, Option.bind_eq_bind, Option.bind_some, hr.1, h]

theorem afin_follows {V : AVer} {c : ACom} (hs : ASh V c) :
    Follows (fun V' r => averFinalize ((ce.view va).env d') V r.2 = some V') (afinR (ce.at vb va cand d d') k V) (afinC ce va k c) := by
  have h1 : Follows (fun V' r => averFinPoly ((ce.view va).env d') V r.2 = some V' ∧ ASh V' r.1)
      (if V.polys ≠ [] then apolyCheckR (ce.at vb va cand d d') k V else RProg.done V)
      (if c.polys ≠ [] then apolyCheckC ce va k c else RProg.done (c, 0, 0)) := by
    have hp : V.polys ≠ [] ↔ c.polys ≠ [] := by rw [← List.length_pos_iff, ← List.length_pos_iff, hs.polys]
    unfold averFinPoly
    by_cases hc : c.polys ≠ []
    · rw [if_pos hc, if_pos (hp.2 hc)]
      simp only [if_pos (hp.2 hc)]
      exact apolyCheck_follows hs
    · rw [if_neg hc, if_neg (fun h' => hc (hp.1 h'))]
      exact .done ⟨by rw [if_neg (fun h' => hc (hp.1 h'))], hs⟩
  refine h1.bind (fun V1 r1 hr1 => ?_)
  have h2 : Follows (fun V' r => averFinMul ((ce.view va).env d') V1 r.2 = some V' ∧ ASh V' r.1)
      (if V1.gates ≠ [] then amulCheckR (ce.at vb va cand d d') k V1 else RProg.done V1)
      (if r1.1.gates ≠ [] then amulCheckC ce va k r1.1 else RProg.done (r1.1, 0, 0)) := by
    have hp : V1.gates ≠ [] ↔ r1.1.gates ≠ [] := by rw [← List.length_pos_iff, ← List.length_pos_iff, hr1.2.gates]
    unfold averFinMul
    by_cases hc : r1.1.gates ≠ []
    · rw [if_pos hc, if_pos (hp.2 hc)]
      simp only [if_pos (hp.2 hc)]
      exact amulCheck_follows hr1.2
    · rw [if_neg hc, if_neg (fun h' => hc (hp.1 h'))]
      exact .done ⟨by rw [if_neg (fun h' => hc (hp.1 h'))], hr1.2⟩
  refine h2.bind (fun V2 r2 hr2 => .call (fun _ bs => .done ?_))
  simp only [averFinalize, hr1.1, hr2.1, Option.bind_eq_bind, Option.bind_some]
  rfl

end
end EmpZk
