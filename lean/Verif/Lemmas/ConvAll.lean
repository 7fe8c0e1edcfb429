/-
Sessions with bits and field elements: verifier and committed values, and what every committed state satisfies.
-/
import Verif.Lemmas.ConvFollow

namespace EmpZk

section
variable {F : Type} [Field F] [BlockField F] [DecidableEq F]
variable {ce : ConvEnv F} {vb : BView F} {va : AView} {cand : Nat → List (Fp × Fp)} {d : F} {d' : Fp} {k : Nat}

/-! ### the verifier follows -/

/-- The verifier's state and the committed one during a program. -/
structure CFol (vb : BView F) (d : F) (V : CVer F) (T : CTr F) : Prop where
  b : BFol vb d V.b T.b
  outs : V.outs = T.outs
  eda : V.eda = edaInit
  a : ASh V.a T.a

theorem bfol_outs {V : VerSt F} {c : ComSt F} (h : BFol vb d V c) : V.outs = c.opened.map Prod.snd := by
  obtain ⟨ch, rfl, _⟩ := h; rfl

/-- The messages of the arithmetic part take the verifier from `V` to `V'`. -/
def AWay (v : AView) (d : Fp) (V V' : AVer) (os : List AOp) (T T' : CTr F) : Prop :=
  ∃ ms, T'.ms = T.ms ++ ms ∧ averRun (v.env d) V os ms = some V'

theorem cop_follows (hd : lsb d = true) {V : CVer F} {T : CTr F} (h : CFol vb d V T) {o : COp} (ho : o.Direct) :
    Follows (fun V' T' => CFol vb d V' T' ∧ AWay (ce.view va) d' V.a V'.a (convAriths [o]) T T') (copR (ce.at vb va cand d d') V o) (copC ce vb va T o) := by
  cases o with
  | bool o =>
    refine (bop_follows (ne := ce.ne) hd h.b o).bind (fun b c hb => .done ⟨⟨hb, ?_, h.eda, h.a⟩, [], by simp, rfl⟩)
    show V.outs ++ b.outs.drop V.b.outs.length = T.outs ++ _
    rw [h.outs, bfol_outs hb, bfol_outs h.b]
  | arith o =>
    unfold copR copC
    dsimp only
    rw [h.eda]
    refine (aop_follows (vb := vb) (cand := cand) (d := d) (d' := d') h.a o).bind (fun a r hr => .done ⟨⟨h.b, h.outs, rfl, hr.2⟩, [r.2], rfl, ?_⟩)
    show (averStep _ V.a r.2 o).bind _ = _
    rw [hr.1]; rfl
  | sync => exact .call (fun _ _ => .done ⟨h, [], by simp, rfl⟩)
  | b2a _ => exact ho.elim
  | a2b _ => exact ho.elim
  | b2aN _ => exact ho.elim
  | a2bN _ => exact ho.elim

theorem arithOps_cons (o : COp) (os : List COp) : convAriths (o :: os) = convAriths [o] ++ convAriths os := by cases o <;> rfl
theorem boolOps_cons (o : COp) (os : List COp) : convBools (o :: os) = convBools [o] ++ convBools os := by cases o <;> rfl

theorem averRun_glue {e : AEnv} (xs ys : List AOp) : ∀ {ms ns : List AMsg} {s t u : AVer}, averRun e s xs ms = some t → averRun e t ys ns = some u →
    averRun e s (xs ++ ys) (ms ++ ns) = some u := by
  induction xs with
  | nil =>
    intro ms ns s t u h1 h2
    cases ms with
    | nil => simp only [averRun, Option.some.injEq] at h1; subst h1; exact h2
    | cons m ms => simp [averRun] at h1
  | cons o xs ih =>
    intro ms ns s t u h1 h2
    cases ms with
    | nil => simp [averRun] at h1
    | cons m ms =>
      simp only [averRun, Option.bind_eq_bind, Option.bind_eq_some_iff] at h1
      obtain ⟨s', k1, k2⟩ := h1
      simp only [List.cons_append, averRun, k1, Option.bind_eq_bind, Option.bind_some]
      exact ih k2 h2

theorem acomRun_glue {v : AView} (xs ys : List AOp) : ∀ {ms ns : List AMsg} {s t u : ACom}, acomRun v s xs ms = some t → acomRun v t ys ns = some u →
    acomRun v s (xs ++ ys) (ms ++ ns) = some u := by
  induction xs with
  | nil =>
    intro ms ns s t u h1 h2
    cases ms with
    | nil => simp only [acomRun, Option.some.injEq] at h1; subst h1; exact h2
    | cons m ms => simp [acomRun] at h1
  | cons o xs ih =>
    intro ms ns s t u h1 h2
    cases ms with
    | nil => simp [acomRun] at h1
    | cons m ms =>
      simp only [acomRun, Option.bind_eq_bind, Option.bind_eq_some_iff] at h1
      obtain ⟨s', k1, k2⟩ := h1
      simp only [List.cons_append, acomRun, k1, Option.bind_eq_bind, Option.bind_some]
      exact ih k2 h2

theorem cops_follows (hd : lsb d = true) (ops : List COp) : ∀ {V : CVer F} {T : CTr F}, CFol vb d V T → (∀ o ∈ ops, o.Direct) →
    Follows (fun V' T' => CFol vb d V' T' ∧ AWay (ce.view va) d' V.a V'.a (convAriths ops) T T') (copsR (ce.at vb va cand d d') V ops)
      (copsC ce vb va T ops) := by
  induction ops with
  | nil => intro V T h _; exact .done ⟨h, [], by simp, rfl⟩
  | cons o os ih =>
    intro V T h ho
    refine (cop_follows hd h (ho o (by simp))).bind (fun V1 T1 h1 => (ih h1.1 (fun x hx => ho x (by simp [hx]))).mono (fun V2 T2 h2 => ⟨h2.1, ?_⟩))
    obtain ⟨_, m1, a1, b1⟩ := h1
    obtain ⟨_, m2, a2, b2⟩ := h2
    refine ⟨m1 ++ m2, by rw [a2, a1, List.append_assoc], ?_⟩
    rw [arithOps_cons]
    exact averRun_glue _ _ b1 b2

/-- At the end of a session. -/
def CFin (vb : BView F) (v : AView) (d : F) (d' : Fp) (ops : List COp) (V : CVer F) (r : CTr F × F × AFin) : Prop :=
  BEnd vb d V.b (r.1.b, r.2.1) ∧ V.outs = r.1.outs ∧ averSession (v.env d') (convAriths ops) r.1.ms r.2.2 = some V.a

theorem triple_follows {α β : Type} {R : α → β → Prop} {s : CVer F} {f : CVer F → RProg α} {q : RProg β} (h : Follows R (f { s with hashed := [] }) q) :
    Follows R ((tripleR ce s).bind f) (.call (.data 32) (fun _ _ => q)) := by
  refine .call (fun _ bs => ?_)
  show Follows R (RProg.bind (if bs = ce.dig s.hashed then .done { s with hashed := [] } else .stop) f) q
  by_cases hb : bs = ce.dig s.hashed
  · rw [if_pos hb]; exact h
  · rw [if_neg hb]; exact .stop

theorem conv_follows (hd : lsb d = true) {ops : List COp} (ho : ∀ o ∈ ops, o.Direct) :
    Follows (CFin vb (ce.view va) d d' ops) (convVerifier (ce.at vb va cand d d') ops) (convCommit ce vb va ops) := by
  unfold convVerifier convCommit convR convC
  refine Follows.bind (R := CFin vb (ce.view va) d d' ops) ?_ (fun _ _ hr => .call (fun _ _ => .done hr))
  refine (rcotR_follows _ _ _).bind (fun _ _ _ => (Follows.calls _).bind (fun _ _ _ => (Follows.calls _).bind (fun _ _ _ => ?_)))
  have h0 : CFol vb d ⟨VerSt.init, AVer.init, edaInit, [], (ce.at vb va cand d d').candB 0, [], []⟩ (⟨ComSt.init, [], ACom.init, []⟩ : CTr F) :=
    ⟨⟨[], rfl, CheatInv.init _⟩, rfl, rfl, rfl, rfl, rfl, rfl, rfl, rfl⟩
  refine (cops_follows hd ops h0 ho).bind (fun V T h => ?_)
  obtain ⟨h, ms, hms, hrun⟩ := h
  unfold cfinR
  refine (bfin_follows (ne := ce.ne) h.b).bind (fun b r hb => ?_)
  refine triple_follows ?_
  dsimp only
  rw [h.eda]
  refine (afin_follows (vb := vb) (cand := cand) (d := d) (d' := d') h.a).bind (fun a q hq => .done ⟨hb, h.outs, ?_⟩)
  show averSession _ _ T.ms q.2 = some a
  have hms : T.ms = ms := by simpa using hms
  rw [hms, averSession, hrun]
  exact hq

/-! ### committed states -/

omit [Field F] [BlockField F] [DecidableEq F] in
theorem amulCheck_all (c : ACom) : (amulCheckC ce va k c).All (fun r => (mulTasks c.gates.length va.threads).isSome = true ∧
    r.1 = acomMulCheck (ce.view va) c r.2) := by
  unfold amulCheckC
  refine fun _ _ _ _ _ _ => (RProg.All.calls _).bind (fun _ _ => fun _ bs => RProg.All.optBind (fun r hr => fun _ _ => ?_))
  split at hr
  · rename_i ht
    simp only [Option.some.injEq] at hr
    subst hr
    exact ⟨ht, rfl⟩
  · simp at hr

omit [Field F] [BlockField F] [DecidableEq F] in
theorem apolyCheck_all (c : ACom) : (apolyCheckC ce va k c).All (fun r => r.1 = acomPolyCheck (ce.view va) c r.2) := by
  unfold apolyCheckC
  exact fun _ _ _ _ => (RProg.All.calls _).bind (fun _ _ => fun _ bs => rfl)

omit [Field F] [BlockField F] [DecidableEq F] in
theorem amulRoom_all (c : ACom) : (amulRoomC ce va k c).All (fun r => acomMulRoom (ce.view va) c r.2 = some r.1) := by
  unfold amulRoomC
  split
  · rename_i h
    refine (amulCheck_all c).mono (fun r hr => ?_)
    unfold acomMulRoom
    rw [if_pos (show c.gates.length = (ce.view va).checkSz from h), if_pos (show (mulTasks c.gates.length (ce.view va).threads).isSome = true from hr.1), hr.2]
  · rename_i h
    exact if_neg h

omit [Field F] [BlockField F] [DecidableEq F] in
theorem apolyRoom_all (c : ACom) : (apolyRoomC ce va k c).All (fun r => acomPolyRoom (ce.view va) c r.2 = r.1) := by
  unfold apolyRoomC
  split
  · rename_i h
    refine (apolyCheck_all c).mono (fun r hr => ?_)
    unfold acomPolyRoom
    rw [if_pos (show c.polys.length ≥ (ce.view va).polySz ∧ c.polys ≠ [] from h), hr]
  · rename_i h
    exact if_neg h

theorem acomMsg_all (v : AView) (c : ACom) (m : AMsg) (o : AOp) : (acomMsg v c m o).All (fun r => acomStep v c r.2 o = some r.1) := by
  refine RProg.All.ofOpt (fun r hr => ?_)
  rw [Option.map_eq_some_iff] at hr
  obtain ⟨c', h, rfl⟩ := hr
  exact h

omit [Field F] [BlockField F] [DecidableEq F] in
theorem aop_all (c : ACom) (o : AOp) : (aopC ce va k c o).All (fun r => acomStep (ce.view va) c r.2 o = some r.1) := by
  cases o with
  | pub w => exact acomMsg_all _ _ _ _
  | add i j => exact acomMsg_all _ _ _ _
  | mulc i w => exact acomMsg_all _ _ _ _
  | revealZero i => exact acomMsg_all _ _ _ _
  | reveal i => exact fun _ _ => acomMsg_all _ _ _ _
  | revealCheck i x => exact fun _ _ => acomMsg_all _ _ _ _
  | input w => exact (RProg.All.calls _).bind (fun _ _ => fun _ _ => acomMsg_all _ _ _ _)
  | mul i j =>
    refine RProg.All.optBind (fun a ha => RProg.All.optBind (fun b hb => (amulRoom_all c).bind (fun r hr => (RProg.All.calls _).bind (fun _ _ =>
      fun _ bs => RProg.All.ofOpt (fun q hq => ?_)))))
    rw [Option.map_eq_some_iff] at hq
    obtain ⟨c', h, rfl⟩ := hq
    simp only [acomStep, ha, hb, Option.bind_eq_bind, Option.bind_some, hr, h]
  | poly st =>
    refine RProg.All.optBind (fun a ha => (apolyRoom_all c).bind (fun r hr => RProg.All.ofOpt (fun q hq => ?_)))
    rw [Option.map_eq_some_iff] at hq
    obtain ⟨c', h, rfl⟩ := hq
    simp only [acomStep, ha, Option.bind_eq_bind, Option.bind_some, hr, h]

omit [Field F] [BlockField F] [DecidableEq F] in
theorem afin_all (c : ACom) : (afinC ce va k c).All (fun r => acomFinalize (ce.view va) c r.2 = some r.1) := by
  unfold afinC
  refine RProg.All.bind (Q := fun r => acomFinPoly (ce.view va) c r.2 = r.1) ?_ (fun r1 h1 =>
    RProg.All.bind (Q := fun r => acomFinMul (ce.view va) r1.1 r.2 = some r.1) ?_ (fun r2 h2 => fun _ bs => ?_))
  · unfold acomFinPoly
    split
    · exact (apolyCheck_all c).mono (fun r hr => hr.symm)
    · rfl
  · unfold acomFinMul
    split
    · exact (amulCheck_all r1.1).mono (fun r hr => by
        rw [if_pos (show (mulTasks r1.1.gates.length (ce.view va).threads).isSome = true from hr.1), hr.2])
    · rfl
  · show acomFinMul _ (acomFinPoly _ _ r1.2) r2.2 = _
    rw [h1, h2]

/-- What a program does to the committed state. -/
structure CPost (v : AView) (T : CTr F) (os : List COp) (T' : CTr F) : Prop where
  arith : ∃ ms, T'.ms = T.ms ++ ms ∧ acomRun v T.a (convAriths os) ms = some T'.a
  bool : Faithful T'.b → Faithful T.b ∧ ∃ bs, List.Forall₂ BOp.same (convBools os) bs ∧ bs.foldlM plainStep T.b.plain = some T'.b.plain ∧
    ∃ t, T'.b.plain.outs = T.b.plain.outs ++ t ∧ T'.outs = T.outs ++ t

omit [DecidableEq F] in
theorem cop_all (T : CTr F) (o : COp) : (copC ce vb va T o).All (CPost (ce.view va) T [o]) := by
  cases o with
  | bool o =>
    refine (bop_all T.b o).bind (fun b hb => ⟨⟨[], by simp, rfl⟩, fun hf => ?_⟩)
    obtain ⟨h1, os', h2, h3⟩ := hb hf
    refine ⟨h1, os', h2, h3, ?_⟩
    obtain ⟨o', rfl⟩ : ∃ o', os' = [o'] := by
      cases h2 with
      | cons _ h => cases h; exact ⟨_, rfl⟩
    have h3 : plainStep T.b.plain o' = some b.plain := by simpa using h3
    obtain ⟨t, ht, _⟩ := plainStep_outs h3 []
    refine ⟨t, ht, ?_⟩
    have ht : b.opened.map Prod.snd = T.b.opened.map Prod.snd ++ t := ht
    show T.outs ++ (b.opened.map Prod.snd).drop (T.b.opened.map Prod.snd).length = _
    rw [ht, List.drop_left]
  | arith o =>
    refine (aop_all T.a o).bind (fun r hr => ⟨⟨[r.2], rfl, ?_⟩, fun hf => ⟨hf, [], .nil, rfl, [], by simp, by simp⟩⟩)
    show (acomStep _ T.a r.2 o).bind _ = _
    rw [hr]; rfl
  | sync => exact fun _ _ => ⟨⟨[], by simp, rfl⟩, fun hf => ⟨hf, [], .nil, rfl, [], by simp, by simp⟩⟩
  | b2a _ => trivial
  | a2b _ => trivial
  | b2aN _ => trivial
  | a2bN _ => trivial

theorem cops_all (os : List COp) : ∀ T : CTr F, (copsC ce vb va T os).All (CPost (ce.view va) T os) := by
  induction os with
  | nil => exact fun T => ⟨⟨[], by simp, rfl⟩, fun hf => ⟨hf, [], .nil, rfl, [], by simp, by simp⟩⟩
  | cons o os ih =>
    refine fun T => (cop_all T o).bind (fun T1 h1 => (ih T1).mono (fun T2 h2 => ⟨?_, fun hf => ?_⟩))
    · obtain ⟨m1, a1, b1⟩ := h1.arith
      obtain ⟨m2, a2, b2⟩ := h2.arith
      refine ⟨m1 ++ m2, by rw [a2, a1, List.append_assoc], ?_⟩
      rw [arithOps_cons]
      exact acomRun_glue _ _ b1 b2
    · obtain ⟨f2, b2, s2, r2, t2, o2, q2⟩ := h2.bool hf
      obtain ⟨f1, b1, s1, r1, t1, o1, q1⟩ := h1.bool f2
      refine ⟨f1, b1 ++ b2, ?_, ?_, t1 ++ t2, by rw [o2, o1, List.append_assoc], by rw [q2, q1, List.append_assoc]⟩
      · rw [boolOps_cons]; exact List.rel_append s1 s2
      · rw [List.foldlM_append, r1]; exact r2

/-- What holds of the result of a whole session. -/
structure CDone (v : AView) (ops : List COp) (r : CTr F × F × AFin) : Prop where
  gates : r.1.b.gates = []
  polys : r.1.b.polys = []
  arith : acomSession v (convAriths ops) r.1.ms r.2.2 = some r.1.a
  bool : Faithful r.1.b → ∃ bs, List.Forall₂ BOp.same (convBools ops) bs ∧ bs.foldlM plainStep ⟨[], [], []⟩ = some r.1.b.plain ∧ r.1.outs = r.1.b.plain.outs

theorem conv_all (ops : List COp) : (convCommit ce vb va ops).All (CDone (ce.view va) ops) := by
  unfold convCommit convC
  refine RProg.All.bind (Q := CDone (ce.view va) ops) ?_ (fun _ h => fun _ _ => h)
  refine RProg.All.bind (Q := fun _ => True) (RProg.All.calls _) (fun _ _ => (RProg.All.calls _).bind (fun _ _ => (RProg.All.calls _).bind (fun _ _ =>
    (cops_all ops _).bind (fun T h => (bfin_all T.b).bind (fun r hr => fun _ _ => (afin_all T.a).bind (fun q hq => ⟨hr.2.1, hr.2.2, ?_, fun hf => ?_⟩))))))
  · obtain ⟨ms, e, h1⟩ := h.arith
    have e : T.ms = ms := by simpa using e
    show acomSession _ _ T.ms q.2 = some q.1
    rw [e, acomSession, h1]
    exact hq
  · obtain ⟨_, bs, h1, h2, t, h3, h4⟩ := h.bool (hr.1.faithful hf)
    have e : r.1.plain = T.b.plain := hr.1.2.2.1
    refine ⟨bs, h1, ?_, ?_⟩
    · show _ = some r.1.plain
      rw [e]; exact h2
    · show T.outs = r.1.plain.outs
      rw [e, h3, h4]; rfl

/-! ### plain programs -/

theorem cplain_merge {ops : List COp} (ho : ∀ o ∈ ops, o.Direct) : ∀ {bs : List BOp} {as : List AOp} {s : CPlain} {pb : Plain} {pa : APlain},
    List.Forall₂ BOp.same (convBools ops) bs → List.Forall₂ AOp.same (convAriths ops) as → bs.foldlM plainStep s.b = some pb →
    as.foldlM aplainStep s.a = some pa → ∃ ops' cp, List.Forall₂ COp.same ops ops' ∧ ops'.foldlM (cplainStep ce) s = some cp ∧ cp.b = pb ∧ cp.a = pa := by
  induction ops with
  | nil =>
    intro bs as s pb pa h1 h2 h3 h4
    cases h1; cases h2
    simp only [List.foldlM_nil, Option.pure_def, Option.some.injEq] at h3 h4
    exact ⟨[], s, .nil, rfl, h3, h4⟩
  | cons o os ih =>
    intro bs as s pb pa h1 h2 h3 h4
    have ih := @ih (fun x hx => ho x (by simp [hx]))
    cases o with
    | bool o =>
      cases h1 with
      | @cons _ o' _ bs h h1 =>
        simp only [List.foldlM_cons, Option.bind_eq_bind, Option.bind_eq_some_iff] at h3
        obtain ⟨b1, k1, h3⟩ := h3
        obtain ⟨ops', cp, g1, g2, g3, g4⟩ := ih (s := { s with b := b1, ands := s.ands + (if o'.isAnd then 1 else 0) }) h1 h2 h3 h4
        refine ⟨.bool o' :: ops', cp, .cons h g1, ?_, g3, g4⟩
        simp only [List.foldlM_cons, cplainStep, k1, Option.map_some, Option.bind_eq_bind, Option.bind_some]
        exact g2
    | arith o =>
      cases h2 with
      | @cons _ o' _ as h h2 =>
        simp only [List.foldlM_cons, Option.bind_eq_bind, Option.bind_eq_some_iff] at h4
        obtain ⟨a1, k1, h4⟩ := h4
        obtain ⟨ops', cp, g1, g2, g3, g4⟩ := ih (s := { s with a := a1, muls := s.muls + mulCount [o'] }) h1 h2 h3 h4
        refine ⟨.arith o' :: ops', cp, .cons h g1, ?_, g3, g4⟩
        simp only [List.foldlM_cons, cplainStep, k1, Option.map_some, Option.bind_eq_bind, Option.bind_some]
        exact g2
    | sync =>
      obtain ⟨ops', cp, g1, g2, g3, g4⟩ := ih h1 h2 h3 h4
      exact ⟨.sync :: ops', cp, .cons rfl g1, g2, g3, g4⟩
    | b2a _ => exact absurd (ho _ List.mem_cons_self) (fun h => h)
    | a2b _ => exact absurd (ho _ List.mem_cons_self) (fun h => h)
    | b2aN _ => exact absurd (ho _ List.mem_cons_self) (fun h => h)
    | a2bN _ => exact absurd (ho _ List.mem_cons_self) (fun h => h)

end
end EmpZk
