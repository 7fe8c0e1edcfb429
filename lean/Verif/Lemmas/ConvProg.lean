/-
Whole programs with conversions in lock step.
-/
import Verif.Lemmas.ConvNet

namespace EmpZk

/-- What was opened before does not matter for a step. -/
theorem plainStep_outs {pl pl' : Plain} {op : BOp} (h : plainStep pl op = some pl') (o : List Bool) :
    ∃ t, pl'.outs = pl.outs ++ t ∧ plainStep { pl with outs := o } op = some { pl' with outs := o ++ t } := by
  cases op with
  | input b => simp only [plainStep, Option.some.injEq] at h; subst h; exact ⟨[], by simp, by simp [plainStep]⟩
  | pub b => simp only [plainStep, Option.some.injEq] at h; subst h; exact ⟨[], by simp, by simp [plainStep]⟩
  | xor i j =>
    simp only [plainStep, Option.bind_eq_bind, Option.bind_eq_some_iff, Option.some.injEq] at h
    obtain ⟨a, h1, b, h2, rfl⟩ := h
    exact ⟨[], by simp, by simp [plainStep, h1, h2]⟩
  | not i =>
    simp only [plainStep, Option.bind_eq_bind, Option.bind_eq_some_iff, Option.some.injEq] at h
    obtain ⟨a, h1, rfl⟩ := h
    exact ⟨[], by simp, by simp [plainStep, h1]⟩
  | and i j =>
    simp only [plainStep, Option.bind_eq_bind, Option.bind_eq_some_iff, Option.some.injEq] at h
    obtain ⟨a, h1, b, h2, rfl⟩ := h
    exact ⟨[], by simp, by simp [plainStep, h1, h2]⟩
  | reveal i =>
    simp only [plainStep, Option.bind_eq_bind, Option.bind_eq_some_iff, Option.some.injEq] at h
    obtain ⟨a, h1, rfl⟩ := h
    exact ⟨[a], rfl, by simp [plainStep, h1]⟩
  | poly st =>
    simp only [plainStep, Option.bind_eq_bind, Option.bind_eq_some_iff, Option.some.injEq] at h
    obtain ⟨a, h1, rfl⟩ := h
    exact ⟨[], by simp, by simp [plainStep, h1]⟩

theorem nextBatch_bool {sz : Nat} (hsz : 0 < sz) (n : Nat) (b : Bool) :
    nextBatch sz (lastBatch n sz) b = lastBatch (n + if b then 1 else 0) sz := by
  cases b
  · rfl
  · simp only [nextBatch, if_true]
    rw [lastBatch_succ hsz]

theorem mulCount_one (o : AOp) : mulCount [o] = if o.isMul then 1 else 0 := by cases o <;> rfl

section
variable {F : Type} [Field F] [BlockField F] [DecidableEq F] {ce : ConvEnv F} {S : Nat}

omit [DecidableEq F] in
/-- A picked integer with its bits. -/
theorem fieldAt_lab {w : List F} {ws : List Nat} {x : Fp} (h : fieldAt (w.map lsb) ws = some x) :
    ∃ l X, pick w ws = some l ∧ IntLab X l ∧ X.toNat < pN ∧ x = ((X.toNat : Nat) : Fp) := by
  unfold fieldAt at h
  simp only [Option.bind_eq_bind, Option.bind_eq_some_iff] at h
  obtain ⟨bs, h1, h2⟩ := h
  split at h2
  · rename_i hc
    rw [Option.some.injEq] at h2
    obtain ⟨l, hl⟩ : ∃ l, pick w ws = some l := by
      by_contra hn
      obtain ⟨es, he, _⟩ : ∃ es, pick w ws = some es ∧ True := by
        have hlt : ∀ i ∈ ws, i < w.length := by
          clear hn hc h2
          unfold pick at h1
          induction ws generalizing bs with
          | nil => simp
          | cons i ws ih =>
            simp only [List.mapM_cons, Option.bind_eq_bind, Option.bind_eq_some_iff, Option.pure_def, Option.some.injEq] at h1
            obtain ⟨a, ha, es, he, _⟩ := h1
            intro j hj
            rcases List.mem_cons.1 hj with rfl | hj
            · have := (List.getElem?_eq_some_iff.1 ha).1
              rwa [List.length_map] at this
            · exact ih es he j hj
        obtain ⟨es, he, _⟩ := pick_some w ws hlt
        exact ⟨es, he, trivial⟩
      exact hn ⟨es, he⟩
    have h3 := pick_map lsb w ws l hl
    rw [h1, Option.some.injEq] at h3
    subst h3
    obtain ⟨k1, k2⟩ := bits62_of hc.1
    exact ⟨l, _, hl, k1, by rw [k2]; exact hc.2, by rw [k2, h2]⟩
  · exact absurd h2 (by simp)

omit [DecidableEq F] in
theorem fieldsAt_lab {w : List F} : ∀ {wss : List (List Nat)} {xs : List Fp}, wss.mapM (fieldAt (w.map lsb)) = some xs →
    ∃ ls X, wss.mapM (fun ws => pick w ws) = some ls ∧ List.Forall₂ IntLab X ls ∧ (∀ x ∈ X, x.toNat < pN) ∧
      xs = X.map (fun x => ((x.toNat : Nat) : Fp)) ∧ X.length = wss.length := by
  intro wss
  induction wss with
  | nil => intro xs h; simp at h; subst h; exact ⟨[], [], rfl, .nil, by simp, rfl, rfl⟩
  | cons ws wss ih =>
    intro xs h
    simp only [List.mapM_cons, Option.bind_eq_bind, Option.bind_eq_some_iff, Option.pure_def, Option.some.injEq] at h
    obtain ⟨x, h1, ys, h2, rfl⟩ := h
    obtain ⟨l, X, a1, a2, a3, a4⟩ := fieldAt_lab h1
    obtain ⟨ls, Xs, b1, b2, b3, b4, b5⟩ := ih h2
    refine ⟨l :: ls, X :: Xs, ?_, .cons a2 b2, ?_, by rw [List.map_cons, ← b4, ← a4], by simp [b5]⟩
    · rw [List.mapM_cons, a1, b1]; rfl
    · intro y hy
      rcases List.mem_cons.1 hy with rfl | hy
      · exact a3
      · exact b3 y hy

theorem mapM_pick_map {α β : Type} (f : α → β) (w : List α) : ∀ (wss : List (List Nat)) (ls : List (List α)),
    wss.mapM (fun ws => pick w ws) = some ls → wss.mapM (fun ws => pick (w.map f) ws) = some (ls.map (List.map f)) := by
  intro wss
  induction wss with
  | nil => intro ls h; simp at h; subst h; rfl
  | cons ws wss ih =>
    intro ls h
    simp only [List.mapM_cons, Option.bind_eq_bind, Option.bind_eq_some_iff, Option.pure_def, Option.some.injEq] at h
    obtain ⟨l, h1, ls', h2, rfl⟩ := h
    rw [List.mapM_cons, pick_map f w ws l h1, ih ls' h2]
    rfl

/-- Field elements are pushed. -/
theorem CRel.pushA {P : CPrv F} {V : CVer F} {cp : CPlain} (h : CRel ce P V cp) {o o' : List U128}
    (ho : List.Forall₂ (Auth ce.base.delta) o o') {xs : List Fp} (hx : o.map (fun w => fp (high64 w)) = xs) :
    CRel ce (putA (P, o)) (putAV (V, o')) { cp with a := { cp.a with wires := cp.a.wires ++ xs } } := by
  subst hx
  exact ⟨h.b, h.a.push ho, h.bg, h.ag, h.eda, h.inv, h.pos, h.num, h.fpA, h.fpB, h.hashed, h.outs, h.cand⟩

/-- Integers are pushed. -/
theorem CRel.pushB {P : CPrv F} {V : CVer F} {cp : CPlain} (h : CRel ce P V cp) {ls : List (List F)} {bs : List Bool}
    (hb : ls.flatten.map lsb = bs) :
    CRel ce (putB (P, ls)) (putBV (V, ls.map (List.map (keyOf ce.ne.e.delta)))) { cp with b := { cp.b with wires := cp.b.wires ++ bs } } := by
  subst hb
  obtain ⟨o, hb⟩ := h.b
  refine ⟨⟨o, ?_⟩, h.a, h.bg, h.ag, h.eda, h.inv, h.pos, h.num, h.fpA, h.fpB, h.hashed, h.outs, h.cand⟩
  have h1 := hb.setWires (P.b.wires ++ ls.flatten)
  have h2 := hb.plainWires
  have h3 := hb.wires
  simp only at h2
  rw [List.map_append, List.map_append, ← h2, ← h3, List.map_flatten] at h1
  exact h1

theorem flatten_lab {xs : List U128} (hx : ∀ x ∈ xs, Canon (high64 x)) {ls : List (List F)}
    (h : List.Forall₂ IntLab (xs.map (fun x => (high64 x).setWidth 62)) ls) :
    ls.flatten.map lsb = (xs.map (fun w => fp (high64 w))).flatMap bitsFp := by
  induction xs generalizing ls with
  | nil => cases h; rfl
  | cons x xs ih =>
    rw [List.map_cons] at h
    cases h with
    | cons h1 h2 =>
      rw [List.flatten_cons, List.map_append, ih (fun y hy => hx y (List.mem_cons_of_mem _ hy)) h2, h1, List.map_cons, List.flatMap_cons]
      congr 1
      unfold bitsFp
      rw [canon_val (hx x List.mem_cons_self)]
      congr 1

theorem CRel.stock_le (h : CRel ce P V cp) : cp.stock ≤ ce.cfg.N := by rw [← h.num]; exact h.inv.le

omit [DecidableEq F] in
theorem auth_pick {delta : W} {w w' : List U128} (h : List.Forall₂ (Auth delta) w w') : ∀ (is : List Nat) {xs : List Fp},
    pick (w.map (fun x => fp (high64 x))) is = some xs → ∃ l l', pick w is = some l ∧ pick w' is = some l' ∧ List.Forall₂ (Auth delta) l l' ∧
      l.map (fun x => fp (high64 x)) = xs ∧ l.length = is.length := by
  intro is
  induction is with
  | nil => intro xs hp; simp [pick] at hp; subst hp; exact ⟨[], [], rfl, rfl, .nil, rfl, rfl⟩
  | cons i is ih =>
    intro xs hp
    unfold pick at hp ih ⊢
    simp only [List.mapM_cons, Option.bind_eq_bind, Option.bind_eq_some_iff, Option.pure_def, Option.some.injEq] at hp
    obtain ⟨x, h1, ys, h2, rfl⟩ := hp
    have hi := (List.getElem?_eq_some_iff.1 h1).1
    rw [List.length_map] at hi
    obtain ⟨m, k, g1, g2, g3⟩ := Auth.get h hi
    rw [List.getElem?_map, g1, Option.map_some, Option.some.injEq] at h1
    obtain ⟨l, l', k1, k2, k3, k4, k5⟩ := ih h2
    exact ⟨m :: l, k :: l', by rw [List.mapM_cons, g1, k1]; rfl, by rw [List.mapM_cons, g2, k2]; rfl, .cons g3 k3,
      by rw [List.map_cons, h1, k4], by simp [k5]⟩

theorem auth_canon {delta : W} {l l' : List U128} (h : List.Forall₂ (Auth delta) l l') : ∀ x ∈ l, Canon (high64 x) := by
  induction h with
  | nil => simp
  | cons h _ ih =>
    intro x hx
    rcases List.mem_cons.1 hx with rfl | hx
    · exact h.value
    · exact ih x hx

/-- One instruction in lock step. -/
theorem lock_cop (hs : ce.ne.Sane) (ha : ce.env.Sane) (hg : ce.Good) (hl : ce.Lucky) {P : CPrv F} {V : CVer F} {cp cp' : CPlain}
    (h : CRel ce P V cp) {o : COp} (hc : o.CanonC) (ho : cplainStep ce cp o = some cp') :
    Lock S (copS ce P o) (copR ce V o) (fun P' V' => CRel ce P' V' cp') := by
  have hw : List.Forall₂ (Auth ce.base.delta) P.a.wires V.a.wires := by
    have := h.a.auth hg.env
    exact this
  have hpw := h.a.plainWires
  obtain ⟨out, hb⟩ := h.b
  have hbw : cp.b.wires = P.b.wires.map lsb := hb.plainWires
  have hbk := hb.wires
  cases o with
  | bool o =>
    simp only [cplainStep, Option.map_eq_some_iff] at ho
    obtain ⟨b, h1, rfl⟩ := ho
    obtain ⟨t, h2, h3⟩ := plainStep_outs h1 out
    refine Lock.bind (lock_bop hs hb h3) ?_
    rintro b1 v1 ⟨k1, k2⟩
    have e1 := k1.outs
    have e2 := hb.outs
    simp only at e1 e2
    refine Lock.pure ⟨⟨_, k1⟩, h.a, ?_, h.ag, h.eda, h.inv, h.pos, h.num, h.fpA, h.fpB, h.hashed, ?_, h.cand⟩
    · simp only
      rw [k2, h.bg, nextBatch_bool (Nat.lt_of_lt_of_le hs.threads hs.fits)]
    · simp only
      rw [e1.1, e2.1, e1.2, e2.2, List.drop_left, h2, h.outs.1, h.outs.2]
      exact ⟨rfl, rfl⟩
  | arith o =>
    simp only [cplainStep, Option.map_eq_some_iff] at ho
    obtain ⟨a, h1, rfl⟩ := ho
    simp only [copS, copR]
    rw [h.eda]
    refine Lock.bind (lock_aop hg ha _ h.a hc h1) ?_
    rintro a1 v1 ⟨k1, k2⟩
    refine Lock.pure ⟨h.b, k1, h.bg, ?_, rfl, h.inv, h.pos, h.num, h.fpA, h.fpB, h.hashed, h.outs, h.cand⟩
    simp only
    rw [k2, h.ag, nextBatch_bool (sz := ce.base.checkSz) ((mulTasks_isSome _ _).1 ha.tasks).1, mulCount_one]
  | b2a ws =>
    simp only [cplainStep, Option.map_eq_some_iff] at ho
    obtain ⟨x, h1, rfl⟩ := ho
    rw [hbw] at h1
    obtain ⟨l, X, a1, a2, a3, a4⟩ := fieldAt_lab h1
    simp only [copS, copR]
    rw [hbk, pick_map _ _ _ _ a1, a1]
    simp only [SProg.ofOpt, RProg.ofOpt, SProg.bind, RProg.bind]
    refine Lock.bind (lock_b2aRound hs hg hl false (X := [X]) (xs := [l]) (.cons a2 .nil) (by simpa using a3) h ?_) ?_
    · have := hg.N
      simp only [List.length_singleton]
      omega
    · rintro ⟨P1, r⟩ ⟨V1, r'⟩ ⟨k1, k2, k3⟩
      refine Lock.pure ?_
      rw [useEda_setA]
      have := k1.pushA k2 k3
      rw [(useEda_a _ cp).1, List.map_singleton, ← a4] at this
      exact this
  | a2b i =>
    simp only [cplainStep, Option.map_eq_some_iff] at ho
    obtain ⟨x, h1, rfl⟩ := ho
    rw [hpw] at h1
    have hi := (List.getElem?_eq_some_iff.1 h1).1
    rw [List.length_map] at hi
    obtain ⟨m, k, g1, g2, g3⟩ := Auth.get hw hi
    rw [List.getElem?_map, g1, Option.map_some, Option.some.injEq] at h1
    simp only [copS, copR, g1, g2, SProg.ofOpt, RProg.ofOpt, SProg.bind, RProg.bind]
    refine Lock.bind (lock_a2bRound hs hg hl false (xs := [m]) (xs' := [k]) (.cons g3 .nil) h ?_) ?_
    · have := hg.N
      simp only [List.length_singleton]
      omega
    · rintro ⟨P1, r⟩ ⟨V1, r'⟩ ⟨k1, k2, k3⟩
      simp only at k2 k3
      subst k2
      refine Lock.pure ?_
      rw [useEda_setB]
      have := k1.pushB (flatten_lab (by simpa using g3.value) k3)
      rw [(useEda_a _ cp).2, List.map_singleton, h1, List.flatMap_cons, List.flatMap_nil, List.append_nil] at this
      exact this
  | b2aN wss =>
    simp only [cplainStep, Option.map_eq_some_iff] at ho
    obtain ⟨xs, h1, rfl⟩ := ho
    rw [hbw] at h1
    obtain ⟨ls, X, a1, a2, a3, a4, a5⟩ := fieldsAt_lab h1
    simp only [copS, copR]
    rw [hbk, mapM_pick_map _ _ _ _ a1, a1, h.eda]
    simp only [SProg.ofOpt, RProg.ofOpt, SProg.bind, RProg.bind, List.length_map]
    obtain ⟨s1, s2⟩ := bulkRounds_spec hg.N (h.num ▸ h.inv.le) ls.length
    rw [h.num]
    refine Lock.bind (lock_b2aBulk hs hg hl _ a2 a3 (s1.trans a2.length_eq.symm) h s2) ?_
    rintro ⟨P1, r⟩ ⟨V1, r'⟩ ⟨k1, k2, k3⟩
    refine Lock.pure ?_
    rw [useEda_setA]
    have := k1.pushA k2 k3
    rw [(useEda_a _ cp).1, ← a4, a5] at this
    exact this
  | a2bN is =>
    simp only [cplainStep, Option.map_eq_some_iff] at ho
    obtain ⟨xs, h1, rfl⟩ := ho
    rw [hpw] at h1
    obtain ⟨l, l', a1, a2, a3, a4, a5⟩ := auth_pick hw is h1
    simp only [copS, copR]
    rw [a1, a2, h.eda]
    simp only [SProg.ofOpt, RProg.ofOpt, SProg.bind, RProg.bind]
    rw [← a3.length_eq]
    obtain ⟨s1, s2⟩ := bulkRounds_spec hg.N (h.num ▸ h.inv.le) l.length
    rw [h.num]
    refine Lock.bind (lock_a2bBulk hs hg hl _ a3 s1 h s2) ?_
    rintro ⟨P1, r⟩ ⟨V1, r'⟩ ⟨k1, k2, k3⟩
    simp only at k2 k3
    subst k2
    refine Lock.pure ?_
    rw [useEda_setB]
    have := k1.pushB (flatten_lab (auth_canon a3) k3)
    rw [(useEda_a _ cp).2, a4, a5] at this
    exact this
  | sync =>
    simp only [cplainStep, Option.some.injEq] at ho
    subst ho
    exact Lock.flushC (Lock.pure h)

/-- A program in lock step. -/
theorem lock_cops (hs : ce.ne.Sane) (ha : ce.env.Sane) (hg : ce.Good) (hl : ce.Lucky) (ops : List COp) : ∀ {P : CPrv F} {V : CVer F}
    {cp cp' : CPlain}, CRel ce P V cp → (∀ o ∈ ops, o.CanonC) → ops.foldlM (cplainStep ce) cp = some cp' →
    Lock S (copsS ce P ops) (copsR ce V ops) (fun P' V' => CRel ce P' V' cp') := by
  induction ops with
  | nil =>
    intro P V cp cp' h _ ho
    simp at ho
    subst ho
    exact Lock.pure h
  | cons o ops ih =>
    intro P V cp cp' h hc ho
    simp only [List.foldlM_cons, Option.bind_eq_bind, Option.bind_eq_some_iff] at ho
    obtain ⟨c1, h1, h2⟩ := ho
    simp only [copsS, copsR]
    exact Lock.bind (lock_cop hs ha hg hl h (hc o List.mem_cons_self) h1)
      (fun _ _ k => ih k (fun x hx => hc x (List.mem_cons_of_mem _ hx)) h2)

/-- What both parties have at the end. -/
def CEnd (ce : ConvEnv F) (cp : CPlain) (P : CPrv F) (V : CVer F) : Prop :=
  P.outs = cp.b.outs ∧ V.outs = cp.b.outs ∧ V.b.cheats = [] ∧ P.a.outs = cp.a.outs.map toW ∧ V.a.outs = cp.a.outs.map toW ∧
    V.a.accepted = true ∧ P.a.wires.map (fun w => fp (high64 w)) = cp.a.wires ∧ List.Forall₂ (Auth ce.base.delta) P.a.wires V.a.wires

/-- A session in lock step. -/
theorem lock_conv (hs : ce.ne.Sane) (ha : ce.env.Sane) (hg : ce.Good) (hl : ce.Lucky) {ops : List COp} {cp : CPlain}
    (hc : ∀ o ∈ ops, o.CanonC) (ho : cplainRun ce ops = some cp) (hcb : ∀ b ∈ cp.b.claims, b = false) (hca : ∀ x ∈ cp.a.claims, x = 0)
    (hand : lastBatch cp.ands ce.ne.e.checkSz = 0 ∨ ce.ne.e.threads ≤ lastBatch cp.ands ce.ne.e.checkSz)
    (hmul : lastBatch cp.muls ce.base.checkSz = 0 ∨ (mulTasks (lastBatch cp.muls ce.base.checkSz) ce.base.threads).isSome) :
    Lock S (convS ce ops) (convR ce ops) (CEnd ce cp) := by
  unfold convS convR
  refine Lock.bind (lock_rcot hg.ne 0 1) (fun _ _ _ => ?_)
  refine Lock.bind (lock_extA hg 0 0) ?_
  intro _ _ _
  refine Lock.bind (Lock.calls (hg.ed 0 1)) ?_
  intro _ _ _
  have h0 : CRel ce ⟨PrvSt.init, APrv.init, edaInit, [], ce.candA 0, [], []⟩ ⟨VerSt.init, AVer.init, edaInit, [], ce.candB 0, [], []⟩
      ⟨⟨[], [], []⟩, ⟨[], [], []⟩, 0, 0, 0⟩ :=
    ⟨⟨[], BRel.init _⟩, ARel.init _, rfl, rfl, rfl, edaInit_inv _ _, edaInit_pos _ _, rfl, rfl, rfl, rfl, ⟨rfl, rfl⟩, fun h => absurd rfl h⟩
  refine Lock.bind (lock_cops hs ha hg hl ops h0 hc ho) ?_
  intro P V h
  unfold cfinS cfinR
  obtain ⟨o, hb⟩ := h.b
  refine Lock.bind (lock_bfin hs hb (by rw [h.bg]; exact hand) hcb) ?_
  rintro b v ⟨_, _, m3⟩
  unfold tripleS tripleR
  simp only [SProg.bind, RProg.bind]
  refine Lock.dataC (hg.dig _) (by decide) ?_
  rw [h.hashed, if_pos rfl]
  simp only [RProg.bind]
  rw [h.eda]
  refine Lock.bind (lock_afin hg ha _ h.a (by rw [h.ag]; exact hmul) hca) ?_
  rintro a a' ⟨n1, n2, n3, n4, n5⟩
  exact Lock.pure ⟨h.outs.1, h.outs.2, m3, n1, n2, n3, n4, n5⟩

end
end EmpZk
