/-
Conversions and whole sessions in lock step.
-/
import Verif.Lemmas.ConvGen

namespace EmpZk

section
variable {F : Type} [Field F] [BlockField F] [DecidableEq F] {ce : ConvEnv F} {S : Nat}

/-! ### plain values -/

omit [DecidableEq F] in
theorem useOne_eq (s : CPlain) : useOne ce s = { takeOne ce s with ands := (takeOne ce s).ands + ce.diff.ands } := by
  unfold useOne takeOne
  split <;> rfl

/-- `n` edaBits are taken. -/
def takeEda (ce : ConvEnv F) : Nat → CPlain → CPlain
  | 0, s => s
  | n + 1, s => takeEda ce n (takeOne ce s)

omit [DecidableEq F] in
theorem takeOne_ands (s : CPlain) (k : Nat) : takeOne ce { s with ands := s.ands + k } = { takeOne ce s with ands := (takeOne ce s).ands + k } := by
  unfold takeOne
  simp only
  split
  · simp only [CPlain.mk.injEq, true_and, and_true]; omega
  · rfl

omit [DecidableEq F] in
theorem takeEda_ands (n : Nat) : ∀ (s : CPlain) (k : Nat),
    takeEda ce n { s with ands := s.ands + k } = { takeEda ce n s with ands := (takeEda ce n s).ands + k } := by
  induction n with
  | zero => intro s k; rfl
  | succ n ih => intro s k; rw [takeEda, takeOne_ands, ih]; rfl

omit [DecidableEq F] in
theorem useEda_eq (n : Nat) : ∀ s : CPlain, useEda ce n s = { takeEda ce n s with ands := (takeEda ce n s).ands + n * ce.diff.ands } := by
  induction n with
  | zero => intro s; simp [useEda, takeEda]
  | succ n ih =>
    intro s
    rw [useEda, ih, useOne_eq, takeEda_ands, takeEda]
    simp only [CPlain.mk.injEq, true_and, and_true]
    rw [Nat.succ_mul]
    omega

omit [DecidableEq F] in
theorem useEda_add (m n : Nat) : ∀ s : CPlain, useEda ce (m + n) s = useEda ce n (useEda ce m s) := by
  induction m with
  | zero => intro s; rw [Nat.zero_add]; rfl
  | succ m ih => intro s; rw [Nat.succ_add, useEda, useEda, ih]

omit [DecidableEq F] in
theorem useEda_stock (hN : 0 < ce.cfg.N) (n : Nat) : ∀ {s : CPlain}, n ≤ s.stock ∨ s.stock = 0 ∧ n ≤ ce.cfg.N →
    n = (if s.stock = 0 then ce.cfg.N else s.stock) → (useEda ce n s).stock = 0 := by
  have key : ∀ n, ∀ {s : CPlain}, n = s.stock → (useEda ce n s).stock = 0 := by
    intro n
    induction n with
    | zero => intro s h; rw [useEda, ← h]
    | succ n ih =>
      intro s h
      rw [useEda]
      refine ih ?_
      rw [useOne, if_neg (by omega)]
      simp only; omega
  intro s _ h
  by_cases h0 : s.stock = 0
  · rw [if_pos h0] at h
    obtain ⟨k, rfl⟩ := Nat.exists_eq_succ_of_ne_zero (by omega : n ≠ 0)
    rw [useEda]
    refine key k ?_
    rw [useOne, if_pos h0]
    simp only; omega
  · rw [if_neg h0] at h
    exact key n h

omit [DecidableEq F] in
theorem takeOne_a (s : CPlain) : (takeOne ce s).a = s.a ∧ (takeOne ce s).b = s.b ∧ (takeOne ce s).muls = s.muls := by
  unfold takeOne; split <;> exact ⟨rfl, rfl, rfl⟩

omit [DecidableEq F] in
theorem takeEda_a (n : Nat) : ∀ s : CPlain, (takeEda ce n s).a = s.a ∧ (takeEda ce n s).b = s.b ∧ (takeEda ce n s).muls = s.muls := by
  induction n with
  | zero => intro s; exact ⟨rfl, rfl, rfl⟩
  | succ n ih =>
    intro s
    obtain ⟨h1, h2, h3⟩ := takeOne_a (ce := ce) s
    obtain ⟨k1, k2, k3⟩ := ih (takeOne ce s)
    exact ⟨k1.trans h1, k2.trans h2, k3.trans h3⟩

omit [DecidableEq F] in
theorem takeEda_setA (n : Nat) : ∀ (s : CPlain) (x : APlain), takeEda ce n { s with a := x } = { takeEda ce n s with a := x } := by
  induction n with
  | zero => intro s x; rfl
  | succ n ih =>
    intro s x
    rw [takeEda, takeEda, ← ih]
    congr 1
    unfold takeOne
    simp only
    split <;> rfl

omit [DecidableEq F] in
theorem takeEda_setB (n : Nat) : ∀ (s : CPlain) (x : Plain), takeEda ce n { s with b := x } = { takeEda ce n s with b := x } := by
  induction n with
  | zero => intro s x; rfl
  | succ n ih =>
    intro s x
    rw [takeEda, takeEda, ← ih]
    congr 1
    unfold takeOne
    simp only
    split <;> rfl

omit [DecidableEq F] in
theorem useEda_setA (n : Nat) (s : CPlain) (x : APlain) : useEda ce n { s with a := x } = { useEda ce n s with a := x } := by
  rw [useEda_eq, useEda_eq, takeEda_setA]

omit [DecidableEq F] in
theorem useEda_setB (n : Nat) (s : CPlain) (x : Plain) : useEda ce n { s with b := x } = { useEda ce n s with b := x } := by
  rw [useEda_eq, useEda_eq, takeEda_setB]

omit [DecidableEq F] in
theorem useEda_a (n : Nat) (s : CPlain) : (useEda ce n s).a = s.a ∧ (useEda ce n s).b = s.b := by
  rw [useEda_eq]
  exact ⟨(takeEda_a n s).1, (takeEda_a n s).2.1⟩

omit [DecidableEq F] in
/-- The rest after one edaBit of a round still fits. -/
theorem takeOne_fits {n : Nat} {s : CPlain} (h : n + 1 ≤ s.stock ∨ s.stock = 0 ∧ n + 1 ≤ ce.cfg.N) : n ≤ (takeOne ce s).stock := by
  unfold takeOne
  rcases h with h | ⟨h0, h⟩
  · rw [if_neg (by omega)]; simp only; omega
  · rw [if_pos h0]; simp only; omega

/-- Integers and their labels. -/
def IntLab (x : Int62) (l : List F) : Prop := l.map lsb = bits62 x

/-! ### to the field -/

theorem CRel.setB {P : CPrv F} {V : CVer F} {cp : CPlain} (h : CRel ce P V cp) {b : PrvSt F} {v : VerSt F} {n : Nat}
    (hb : ∃ o, BRel ce.ne b v { cp.b with outs := o }) (hn : b.gates.length = lastBatch n ce.ne.e.checkSz) :
    CRel ce { P with b := b } { V with b := v } { cp with ands := n } :=
  ⟨hb, h.a, hn, h.ag, h.eda, h.inv, h.pos, h.num, h.fpA, h.fpB, h.hashed, h.outs, h.cand⟩

/-- The differences in lock step. -/
theorem lock_diffs (hs : ce.ne.Sane) (hg : ce.Good) (hl : ce.Lucky) {X : List Int62} {xs : List (List F)} (hX : List.Forall₂ IntLab X xs) :
    ∀ {P : CPrv F} {V : CVer F} {cp : CPlain}, CRel ce P V cp → X.length ≤ cp.stock ∨ cp.stock = 0 ∧ X.length ≤ ce.cfg.N →
    Lock S (b2aDiffS ce P xs) (b2aDiffR ce V (xs.map (List.map (keyOf ce.ne.e.delta)))) (fun r r' => CRel ce r.1 r'.1 (useEda ce X.length cp) ∧
      r'.2 = r.2.map (fun q => (q.1.map (keyOf ce.ne.e.delta), q.2)) ∧
      List.Forall₂ (fun (x : Int62) (q : List F × Nat) => ∃ M K, r.1.fp[q.2]? = some M ∧ r'.1.fp[q.2]? = some K ∧ Auth ce.base.delta M K ∧
        IntLab (f2Diff x ((high64 M).setWidth 62)) q.1) X r.2 ∧ (X.length ≤ cp.stock → r.1.fp = P.fp ∧ r'.1.fp = V.fp)) := by
  induction hX with
  | nil =>
    intro P V cp h _
    exact Lock.pure ⟨h, rfl, .nil, fun _ => ⟨rfl, rfl⟩⟩
  | @cons x l X xs hx hX ih =>
    intro P V cp h hfit
    simp only [List.map_cons, b2aDiffS, b2aDiffR]
    refine Lock.bind (lock_next hs hg hl h) ?_
    rintro ⟨P1, ls, i⟩ ⟨V1, ls', i'⟩ ⟨k1, k2, k3, ⟨M, K, k4, k5, k6, k7⟩, k8⟩
    simp only at k1 k2 k3 k4 k5 k7 k8
    subst k2 k3
    obtain ⟨o, hb⟩ := k1.b
    rw [bitsW_eq] at k7
    refine Lock.bind (lock_circ hs hg.diff hb hx k7 k1.bg) ?_
    rintro r r' ⟨m1, m2, m3, m4⟩
    have hk := k1.setB ⟨o, m1⟩ m2
    rw [← useOne_eq] at hk
    have hst : (useOne ce cp).stock = (takeOne ce cp).stock := by rw [useOne_eq]
    have hfit' : X.length ≤ (useOne ce cp).stock := by
      rw [hst]
      exact takeOne_fits (by simpa using hfit)
    refine Lock.bind (ih hk (Or.inl hfit')) ?_
    rintro q q' ⟨n1, n2, n3, n4⟩
    obtain ⟨f1, f2⟩ := n4 hfit'
    simp only at f1 f2
    refine Lock.pure ⟨?_, ?_, .cons ⟨M, K, ?_, ?_, k6, m4⟩ n3, ?_⟩
    · rw [List.length_cons, useEda]; exact n1
    · simp only [n2, m3, List.map_cons]
    · simp only; rw [f1]; exact k4
    · simp only; rw [f2]; exact k5
    · intro hle
      rw [List.length_cons] at hle
      obtain ⟨g1, g2⟩ := k8 (by omega)
      exact ⟨f1.trans g1, f2.trans g2⟩

theorem foldlM_reveal (w : List Bool) (cl : List Bool) : ∀ (is : List Nat) (o : List Bool) (_ : ∀ i ∈ is, i < w.length),
    (is.map BOp.reveal).foldlM plainStep ⟨w, o, cl⟩ = some ⟨w, o ++ is.map (fun i => w.getD i false), cl⟩ := by
  intro is
  induction is with
  | nil => intro o _; simp
  | cons i is ih =>
    intro o hi
    have h1 := hi i List.mem_cons_self
    simp only [List.map_cons, List.foldlM_cons, plainStep, List.getElem?_eq_getElem h1, Option.bind_eq_bind, Option.bind_some]
    rw [ih _ (fun j hj => hi j (List.mem_cons_of_mem _ hj))]
    simp [h1]

/-- An opening of an integer in lock step. -/
theorem lock_reveal {ne : NetEnv F} (hs : ne.Sane) {p : PrvSt F} {v : VerSt F} {pl : Plain} (h : ∃ o, BRel ne p v { pl with outs := o })
    {x : Int62} {l : List F} (hx : IntLab x l) :
    Lock S (revealS ne p l) (revealR ne v (l.map (keyOf ne.e.delta))) (fun r r' => (∃ o, BRel ne r.1 r'.1 { pl with outs := o }) ∧
      r.1.gates.length = p.gates.length ∧ r.2 = x.setWidth 64 ∧ r'.2 = x.setWidth 64) := by
  obtain ⟨o, hb⟩ := h
  unfold revealS revealR
  have h0 := hb.setWires l
  rw [hx] at h0
  have hl : l.length = 62 := by
    have := congrArg List.length hx
    rwa [List.length_map, bits62_length] at this
  rw [List.length_map, hl]
  have hr := foldlM_reveal (bits62 x) pl.claims (List.range 62) o (fun i hi => by rw [bits62_length]; exact List.mem_range.1 hi)
  refine Lock.bind (lock_bops hs _ h0 hr) ?_
  rintro p1 v1 ⟨k1, k2⟩
  have e1 := k1.outs
  have e2 := hb.outs
  simp only at e1 e2
  have e3 : (List.range 62).map (fun i => (bits62 x).getD i false) = bits62 x := by
    unfold bits62
    refine List.map_congr_left ?_
    intro i hi
    simp [List.mem_range.1 hi]
  rw [e3] at e1 k1
  have hb1 := hb.backWires k1
  refine Lock.pure ⟨⟨_, hb1⟩, ?_, ?_, ?_⟩
  · simp only
    rw [k2, show ((List.range 62).map BOp.reveal).map BOp.isAnd = List.replicate 62 false by decide]
    rfl
  · simp only
    rw [e1.1, e2.1, List.drop_left, numOf_bits62, BitVec.ofNat_toNat]
  · simp only
    rw [e1.2, e2.2, List.drop_left, numOf_bits62, BitVec.ofNat_toNat]

/-- All openings in lock step. -/
theorem lock_reveals {ne : NetEnv F} (hs : ne.Sane) {D : List Int62} {ds : List (List F × Nat)}
    (hD : List.Forall₂ (fun x (q : List F × Nat) => IntLab x q.1) D ds) :
    ∀ {p : PrvSt F} {v : VerSt F} {pl : Plain}, (∃ o, BRel ne p v { pl with outs := o }) →
    Lock S (b2aOpenS ne p ds) (b2aOpenR ne v (ds.map (fun q => (q.1.map (keyOf ne.e.delta), q.2)))) (fun r r' =>
      (∃ o, BRel ne r.1 r'.1 { pl with outs := o }) ∧ r.1.gates.length = p.gates.length ∧
      r.2 = List.zipWith (fun (x : Int62) (q : List F × Nat) => (q.2, x.setWidth 64)) D ds ∧ r'.2 = r.2) := by
  induction hD with
  | nil =>
    intro p v pl h
    exact Lock.pure ⟨h, rfl, rfl, rfl⟩
  | cons hx _ ih =>
    intro p v pl h
    simp only [List.map_cons, b2aOpenS, b2aOpenR]
    refine Lock.bind (lock_reveal hs h hx) ?_
    rintro r r' ⟨k1, k2, k3, k4⟩
    refine Lock.bind (ih k1) ?_
    rintro q q' ⟨m1, m2, m3, m4⟩
    exact Lock.pure ⟨m1, m2.trans k2, by simp only [List.zipWith_cons_cons, m3, k3], by simp only [m4, k4, k3]⟩

theorem same_setWidth {w : W} (h : Canon w) : Same (w.setWidth 62) w := by
  unfold Same
  rw [BitVec.toNat_setWidth]
  exact Nat.mod_eq_of_lt (lt_trans h (by decide))

/-- The results of a round. -/
theorem b2a_outs {delta : W} (hd : Canon delta) {fp fpV : List U128} {X : List Int62} {ds : List (List F × Nat)} (hp : ∀ x ∈ X, x.toNat < pN)
    (h : List.Forall₂ (fun (x : Int62) (q : List F × Nat) => ∃ M K, fp[q.2]? = some M ∧ fpV[q.2]? = some K ∧ Auth delta M K ∧
      IntLab (f2Diff x ((high64 M).setWidth 62)) q.1) X ds) :
    ∃ D, List.Forall₂ (fun x (q : List F × Nat) => IntLab x q.1) D ds ∧ ∃ o o',
      b2aOutA fp (List.zipWith (fun (x : Int62) (q : List F × Nat) => (q.2, x.setWidth 64)) D ds) = some o ∧
      b2aOutB delta fpV (List.zipWith (fun (x : Int62) (q : List F × Nat) => (q.2, x.setWidth 64)) D ds) = some o' ∧
      List.Forall₂ (Auth delta) o o' ∧ o.map (fun w => EmpZk.fp (high64 w)) = X.map (fun x => ((x.toNat : Nat) : Fp)) := by
  induction h with
  | nil => exact ⟨[], .nil, [], [], rfl, rfl, .nil, rfl⟩
  | @cons x q X ds hx _ ih =>
    obtain ⟨M, K, h1, h2, h3, h4⟩ := hx
    obtain ⟨D, k1, o, o', k2, k3, k4, k5⟩ := ih (fun y hy => hp y (List.mem_cons_of_mem _ hy))
    obtain ⟨a1, a2⟩ := C41_bool2arith hd h3 (same_setWidth h3.value) (hp x List.mem_cons_self)
    refine ⟨f2Diff x ((high64 M).setWidth 62) :: D, .cons h4 k1, _ :: o, _ :: o', ?_, ?_, .cons a1 k4, ?_⟩
    · unfold b2aOutA at *
      rw [List.zipWith_cons_cons, List.mapM_cons, k2]
      simp only [h1, Option.bind_eq_bind, Option.bind_some, Option.pure_def]
    · unfold b2aOutB at *
      rw [List.zipWith_cons_cons, List.mapM_cons, k3]
      simp only [h2, Option.bind_eq_bind, Option.bind_some, Option.pure_def]
    · rw [List.map_cons, List.map_cons, k5]
      congr 1
      rw [EmpZk.fp, ← a2]

/-- A round of conversions to the field in lock step. -/
theorem lock_b2aRound (hs : ce.ne.Sane) (hg : ce.Good) (hl : ce.Lucky) (fl : Bool) {X : List Int62} {xs : List (List F)}
    (hX : List.Forall₂ IntLab X xs) (hp : ∀ x ∈ X, x.toNat < pN) {P : CPrv F} {V : CVer F} {cp : CPlain} (h : CRel ce P V cp)
    (hfit : X.length ≤ cp.stock ∨ cp.stock = 0 ∧ X.length ≤ ce.cfg.N) :
    Lock S (b2aRoundS ce fl P xs) (b2aRoundR ce fl V (xs.map (List.map (keyOf ce.ne.e.delta)))) (fun r r' =>
      CRel ce r.1 r'.1 (useEda ce X.length cp) ∧ List.Forall₂ (Auth ce.base.delta) r.2 r'.2 ∧
      r.2.map (fun w => fp (high64 w)) = X.map (fun x => ((x.toNat : Nat) : Fp))) := by
  unfold b2aRoundS b2aRoundR
  refine Lock.bind (lock_diffs hs hg hl hX h hfit) ?_
  rintro ⟨P1, ds⟩ ⟨V1, ds'⟩ ⟨k1, k2, k3, _⟩
  simp only at k1 k2 k3
  subst k2
  obtain ⟨D, d1, o, o', d2, d3, d4, d5⟩ := b2a_outs hg.env.delta hp k3
  refine Lock.bind (lock_reveals hs d1 k1.b) ?_
  rintro ⟨b, q⟩ ⟨b', q'⟩ ⟨m1, m2, m3, m4⟩
  simp only at m1 m2 m3 m4
  subst m4 m3
  have hk := k1.setB m1 (n := (useEda ce X.length cp).ands) (by rw [m2]; exact k1.bg)
  have hd3 : b2aOutB ce.base.delta V1.fp (List.zipWith (fun (x : Int62) (q : List F × Nat) => (q.2, x.setWidth 64)) D ds) = some o' := d3
  simp only [d2, hd3, SProg.ofOpt, RProg.ofOpt, SProg.bind, RProg.bind]
  cases fl
  · exact Lock.pure ⟨hk, d4, d5⟩
  · exact Lock.flushC (Lock.pure ⟨hk, d4, d5⟩)

theorem roundsOk_next {c : EdaCfg} {n num : Nat} {ns : List Nat} (h : roundsOk c num (n :: ns)) :
    n ≤ num ∨ num = 0 ∧ n ≤ c.N := by
  have := h.1
  split at this
  · rename_i h0
    exact Or.inr ⟨h0, this⟩
  · exact Or.inl this

/-- A bulk conversion to the field in lock step. -/
theorem lock_b2aBulk (hs : ce.ne.Sane) (hg : ce.Good) (hl : ce.Lucky) (ns : List Nat) : ∀ {X : List Int62} {xs : List (List F)},
    List.Forall₂ IntLab X xs → (∀ x ∈ X, x.toNat < pN) → ns.sum = X.length → ∀ {P : CPrv F} {V : CVer F} {cp : CPlain}, CRel ce P V cp →
    roundsOk ce.cfg cp.stock ns →
    Lock S (b2aBulkS ce P ns xs) (b2aBulkR ce V ns (xs.map (List.map (keyOf ce.ne.e.delta)))) (fun r r' =>
      CRel ce r.1 r'.1 (useEda ce X.length cp) ∧ List.Forall₂ (Auth ce.base.delta) r.2 r'.2 ∧
      r.2.map (fun w => fp (high64 w)) = X.map (fun x => ((x.toNat : Nat) : Fp))) := by
  induction ns with
  | nil =>
    intro X xs hX _ hsum P V cp h _
    have h0 : X = [] := List.length_eq_zero_iff.1 hsum.symm
    subst h0
    cases hX
    exact Lock.pure ⟨h, .nil, rfl⟩
  | cons n ns ih =>
    intro X xs hX hp hsum P V cp h hr
    rw [List.sum_cons] at hsum
    have hlen := hX.length_eq
    simp only [b2aBulkS, b2aBulkR]
    rw [List.length_map, if_pos (by omega), if_pos (by omega), ← List.map_take, ← List.map_drop]
    have hfit := roundsOk_next hr
    have htl : (X.take n).length = n := by rw [List.length_take]; omega
    refine Lock.bind (lock_b2aRound hs hg hl true (List.forall₂_take n hX) (fun x hx => hp x (List.mem_of_mem_take hx)) h
      (by rw [htl]; exact hfit)) ?_
    rintro r r' ⟨k1, k2, k3⟩
    rw [htl] at k1
    refine Lock.bind (ih (List.forall₂_drop n hX) (fun x hx => hp x (List.mem_of_mem_drop hx)) (by rw [List.length_drop]; omega) k1 ?_) ?_
    · cases ns with
      | nil => trivial
      | cons m ns =>
        rw [useEda_stock hg.N n hfit (hr.2.1 (by simp))]
        exact hr.2.2
    · rintro q q' ⟨m1, m2, m3⟩
      refine Lock.pure ⟨?_, List.rel_append k2 m2, ?_⟩
      · rw [← useEda_add, List.length_drop, show n + (X.length - n) = X.length by omega] at m1
        exact m1
      · simp only
        rw [List.map_append, k3, m3, ← List.map_append, List.take_append_drop]

/-! ### to integers -/

/-- The sums in lock step. -/
theorem lock_a2bSums (hs : ce.ne.Sane) (hg : ce.Good) (hl : ce.Lucky) {xs xs' : List U128} (hX : List.Forall₂ (Auth ce.base.delta) xs xs') :
    ∀ {P : CPrv F} {V : CVer F} {cp : CPlain}, CRel ce P V cp → xs.length ≤ cp.stock ∨ cp.stock = 0 ∧ xs.length ≤ ce.cfg.N →
    Lock S (a2bSumS ce P xs) (a2bSumR ce V xs') (fun r r' => CRel ce r.1 r'.1 (takeEda ce xs.length cp) ∧
      List.Forall₂ (fun (q q' : U128 × List F) => Auth ce.base.delta q.1 q'.1 ∧ q'.2 = q.2.map (keyOf ce.ne.e.delta)) r.2 r'.2 ∧
      List.Forall₂ (fun x (q : U128 × List F) => ∃ t, IntLab t q.2 ∧ f2Diff ((high64 q.1).setWidth 62) t = (high64 x).setWidth 62) xs r.2) := by
  induction hX with
  | nil =>
    intro P V cp h _
    exact Lock.pure ⟨h, .nil, .nil⟩
  | @cons x x' xs xs' hx hX ih =>
    intro P V cp h hfit
    simp only [a2bSumS, a2bSumR]
    refine Lock.bind (lock_next hs hg hl h) ?_
    rintro ⟨P1, ls, i⟩ ⟨V1, ls', i'⟩ ⟨k1, k2, k3, ⟨M, K, k4, k5, k6, k7⟩, k8⟩
    simp only at k1 k2 k3 k4 k5 k7 k8
    subst k2 k3
    rw [bitsW_eq] at k7
    simp only [k4, k5, SProg.ofOpt, RProg.ofOpt, SProg.bind, RProg.bind]
    refine Lock.bind (ih k1 (Or.inl (takeOne_fits (by simpa using hfit)))) ?_
    rintro q q' ⟨n1, n2, n3⟩
    have hsame := (C41_arith2bool hg.env.delta k6 hx (same_setWidth k6.value)).2
    refine Lock.pure ⟨?_, .cons ⟨auth_intfpAdd k6 hx, rfl⟩ n2, .cons ⟨_, k7, ?_⟩ n3⟩
    · rw [List.length_cons, takeEda]; exact n1
    · refine BitVec.eq_of_toNat_eq ?_
      rw [(same_setWidth hx.value : _ = _)]
      exact hsame

theorem foldlM_pub (cl : List Bool) (o : List Bool) : ∀ (bs w : List Bool),
    (bs.map BOp.pub).foldlM plainStep ⟨w, o, cl⟩ = some ⟨w ++ bs, o, cl⟩ := by
  intro bs
  induction bs with
  | nil => intro w; simp
  | cons b bs ih =>
    intro w
    simp only [List.map_cons, List.foldlM_cons, plainStep, Option.bind_eq_bind, Option.bind_some]
    rw [ih]
    simp

/-- The corrections in lock step. -/
theorem lock_a2bOut {ne : NetEnv F} (hs : ne.Sane) {c : Circ62} (hc : c.Computes f2Diff) {X : List Int62} {ds : List (W × List F)}
    (hD : List.Forall₂ (fun x (d : W × List F) => ∃ t, IntLab t d.2 ∧ f2Diff (d.1.setWidth 62) t = x) X ds) :
    ∀ {p : PrvSt F} {v : VerSt F} {pl : Plain} {n : Nat}, BRel ne p v pl → p.gates.length = lastBatch n ne.e.checkSz →
    Lock S (a2bOutS ne c p ds) (a2bOutR ne c v (ds.map (fun d => (d.1, d.2.map (keyOf ne.e.delta))))) (fun r r' => BRel ne r.1 r'.1 pl ∧
      r.1.gates.length = lastBatch (n + ds.length * c.ands) ne.e.checkSz ∧ r'.2 = r.2.map (List.map (keyOf ne.e.delta)) ∧
      List.Forall₂ IntLab X r.2) := by
  induction hD with
  | nil =>
    intro p v pl n h hn
    exact Lock.pure ⟨h, by simpa using hn, rfl, .nil⟩
  | @cons x d X ds hx _ ih =>
    intro p v pl n h hn
    obtain ⟨t, ht, rfl⟩ := hx
    simp only [List.map_cons, a2bOutS, a2bOutR]
    have h0 := h.setWires []
    simp only [List.map_nil] at h0
    refine Lock.bind (lock_bops hs _ h0 (foldlM_pub pl.claims pl.outs (bitsW d.1) [])) ?_
    rintro p1 v1 ⟨k1, k2⟩
    have hw := k1.plainWires
    simp only [List.nil_append] at hw
    have hb := h.backWires k1
    rw [k1.wires]
    have hg1 : p1.gates.length = lastBatch n ne.e.checkSz := by
      rw [k2, ← hn]
      have : ∀ (l : List Bool) (g : Nat), nextBatches ne.e.checkSz g ((l.map BOp.pub).map BOp.isAnd) = g := by
        intro l
        induction l with
        | nil => intro g; rfl
        | cons b l ih => intro g; exact ih g
      exact this _ _
    refine Lock.bind (lock_circ (p := { p1 with wires := p.wires }) (v := { v1 with wires := v.wires }) hs hc hb
      (x := d.1.setWidth 62) (y := t) (by rw [← hw, bitsW_eq]) ht hg1) ?_
    rintro r r' ⟨m1, m2, m3, m4⟩
    refine Lock.bind (ih m1 m2) ?_
    rintro q q' ⟨n1, n2, n3, n4⟩
    refine Lock.pure ⟨n1, ?_, ?_, .cons m4 n4⟩
    · rw [n2, List.length_cons]
      congr 1
      ring
    · simp only [n3, m3, List.map_cons]

/-- A round of conversions to integers in lock step. -/
theorem lock_a2bRound (hs : ce.ne.Sane) (hg : ce.Good) (hl : ce.Lucky) (fl : Bool) {xs xs' : List U128}
    (hX : List.Forall₂ (Auth ce.base.delta) xs xs') {P : CPrv F} {V : CVer F} {cp : CPlain} (h : CRel ce P V cp)
    (hfit : xs.length ≤ cp.stock ∨ cp.stock = 0 ∧ xs.length ≤ ce.cfg.N) :
    Lock S (a2bRoundS ce fl P xs) (a2bRoundR ce fl V xs') (fun r r' => CRel ce r.1 r'.1 (useEda ce xs.length cp) ∧
      r'.2 = r.2.map (List.map (keyOf ce.ne.e.delta)) ∧ List.Forall₂ IntLab (xs.map (fun x => (high64 x).setWidth 62)) r.2) := by
  unfold a2bRoundS a2bRoundR
  refine Lock.bind (lock_a2bSums hs hg hl hX h hfit) ?_
  rintro ⟨P1, ds⟩ ⟨V1, ds'⟩ ⟨k1, k2, k3⟩
  simp only at k1 k2 k3
  simp only
  have hk : ds'.length = (ds.map (fun q => high64 q.1)).length := by rw [List.length_map, k2.length_eq]
  refine Lock.sendC (by rw [encWs_length, hk]) ?_
  rw [hk, decWs_encWs]
  have e1 : List.zipWith (fun v (q : U128 × List F) => (v, q.2)) (ds.map (fun q => high64 q.1)) ds' =
      (ds.map (fun q => (high64 q.1, q.2))).map (fun d => (d.1, d.2.map (keyOf ce.ne.e.delta))) := by
    clear k3 hk
    induction k2 with
    | nil => rfl
    | cons h _ ih => simp only [List.map_cons, List.zipWith_cons_cons, ih, h.2]
  have e2 : List.zipWith (fun v (q : U128 × List F) => openWord ce.base.delta v q.1) (ds.map (fun q => high64 q.1)) ds' =
      ds.map (fun q => low64 q.1) := by
    clear k3 hk e1
    induction k2 with
    | nil => rfl
    | cons h _ ih =>
      simp only [List.map_cons, List.zipWith_cons_cons, ih]
      have := openWord_eq (delta := ce.base.delta) hg.env.delta h.1
      rw [openWord, this]
  rw [e1, e2]
  have hlen : ds.length = xs.length := k3.length_eq.symm
  have hD : List.Forall₂ (fun x (d : W × List F) => ∃ t, IntLab t d.2 ∧ f2Diff (d.1.setWidth 62) t = x)
      (xs.map (fun x => (high64 x).setWidth 62)) (ds.map (fun q => (high64 q.1, q.2))) := by
    rw [List.forall₂_map_left_iff, List.forall₂_map_right_iff]
    exact k3
  obtain ⟨o, hb⟩ := k1.b
  have hout := lock_a2bOut (S := S) hs hg.diff hD hb k1.bg
  rw [List.length_map, hlen] at hout
  have hfin : Lock S ((a2bOutS ce.ne ce.diff P1.b (ds.map (fun q => (high64 q.1, q.2)))).bind (fun r =>
        .done ({ P1 with b := r.1, hashed := P1.hashed ++ ds.map (fun q => Sum.inl (low64 q.1)) }, r.2)))
      ((a2bOutR ce.ne ce.diff V1.b ((ds.map (fun q => (high64 q.1, q.2))).map (fun d => (d.1, d.2.map (keyOf ce.ne.e.delta))))).bind (fun r =>
        .done ({ V1 with b := r.1, hashed := V1.hashed ++ (ds.map (fun q => low64 q.1)).map Sum.inl }, r.2)))
      (fun r r' => CRel ce r.1 r'.1 (useEda ce xs.length cp) ∧
      r'.2 = r.2.map (List.map (keyOf ce.ne.e.delta)) ∧ List.Forall₂ IntLab (xs.map (fun x => (high64 x).setWidth 62)) r.2) := by
    refine Lock.bind hout ?_
    rintro r r' ⟨m1, m2, m3, m4⟩
    refine Lock.pure ⟨?_, m3, m4⟩
    have hk' := k1.setB ⟨o, m1⟩ m2
    rw [useEda_eq]
    refine ⟨hk'.b, hk'.a, hk'.bg, hk'.ag, hk'.eda, hk'.inv, hk'.pos, hk'.num, hk'.fpA, hk'.fpB, ?_, hk'.outs, hk'.cand⟩
    simp only
    rw [k1.hashed, List.map_map]
    rfl
  cases fl
  · exact hfin
  · exact Lock.flushC hfin

/-- A bulk conversion to integers in lock step. -/
theorem lock_a2bBulk (hs : ce.ne.Sane) (hg : ce.Good) (hl : ce.Lucky) (ns : List Nat) : ∀ {xs xs' : List U128},
    List.Forall₂ (Auth ce.base.delta) xs xs' → ns.sum = xs.length → ∀ {P : CPrv F} {V : CVer F} {cp : CPlain}, CRel ce P V cp →
    roundsOk ce.cfg cp.stock ns →
    Lock S (a2bBulkS ce P ns xs) (a2bBulkR ce V ns xs') (fun r r' => CRel ce r.1 r'.1 (useEda ce xs.length cp) ∧
      r'.2 = r.2.map (List.map (keyOf ce.ne.e.delta)) ∧ List.Forall₂ IntLab (xs.map (fun x => (high64 x).setWidth 62)) r.2) := by
  induction ns with
  | nil =>
    intro xs xs' hX hsum P V cp h _
    have h0 : xs = [] := List.length_eq_zero_iff.1 hsum.symm
    subst h0
    cases hX
    exact Lock.pure ⟨h, rfl, .nil⟩
  | cons n ns ih =>
    intro xs xs' hX hsum P V cp h hr
    rw [List.sum_cons] at hsum
    have hlen := hX.length_eq
    simp only [a2bBulkS, a2bBulkR]
    rw [if_pos (by omega), if_pos (by omega)]
    have hfit := roundsOk_next hr
    have htl : (xs.take n).length = n := by rw [List.length_take]; omega
    refine Lock.bind (lock_a2bRound hs hg hl true (List.forall₂_take n hX) h (by rw [htl]; exact hfit)) ?_
    rintro r r' ⟨k1, k2, k3⟩
    rw [htl] at k1
    refine Lock.bind (ih (List.forall₂_drop n hX) (by rw [List.length_drop]; omega) k1 ?_) ?_
    · cases ns with
      | nil => trivial
      | cons m ns =>
        rw [useEda_stock hg.N n hfit (hr.2.1 (by simp))]
        exact hr.2.2
    · rintro q q' ⟨m1, m2, m3⟩
      refine Lock.pure ⟨?_, ?_, ?_⟩
      · rw [← useEda_add, List.length_drop, show n + (xs.length - n) = xs.length by omega] at m1
        exact m1
      · simp only [k2, m2, List.map_append]
      · have : List.Forall₂ IntLab (_ ++ _) (_ ++ _) := List.rel_append k3 m3
        rwa [← List.map_append, List.take_append_drop] at this

end
end EmpZk
