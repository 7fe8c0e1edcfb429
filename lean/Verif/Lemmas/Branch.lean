import Verif.Lemmas.MixNet
import Verif.Lemmas.RamCheckNet
import Verif.Spec.Branch

namespace EmpZk

section
variable {o s α : Type}

theorem path_ops {step : s → o → Option s} {outs : s → List Bool} {x : s} {l : List o} {k : List Bool → Branch o α} {w : List o × s × α}
    (h : Branch.path step outs x (.ops l k) = some w) :
    ∃ y r, l.foldlM step x = some y ∧ Branch.path step outs y (k (outs y)) = some r ∧ w = (l ++ r.1, r.2.1, r.2.2) := by
  simp only [Branch.path, Option.bind_eq_some_iff, Option.map_eq_some_iff] at h
  obtain ⟨y, h1, r, h2, h3⟩ := h
  exact ⟨y, r, h1, h2, h3.symm⟩

theorem path_ops_of {step : s → o → Option s} {outs : s → List Bool} {x y : s} {l : List o} {k : List Bool → Branch o α} {r : List o × s × α}
    (h : l.foldlM step x = some y) (hr : Branch.path step outs y (k (outs y)) = some r) :
    Branch.path step outs x (.ops l k) = some (l ++ r.1, r.2.1, r.2.2) := by
  simp only [Branch.path, h, hr, Option.bind_some, Option.map_some]

/-- The path of a tree is a run of its instructions. -/
theorem path_run {step : s → o → Option s} {outs : s → List Bool} (t : Branch o α) : ∀ {x y : s} {l : List o} {a : α},
    Branch.path step outs x t = some (l, y, a) → l.foldlM step x = some y := by
  induction t with
  | fin a => intro x y l b h; cases h; rfl
  | undef => intro x y l b h; cases h
  | ops l k ih =>
    intro x y l' b h
    obtain ⟨z, r, h1, h2, h3⟩ := path_ops h
    cases h3
    rw [List.foldlM_append, h1]
    exact ih _ h2

end

section
variable {F α : Type} [Field F] [BlockField F] [DecidableEq F]
variable {me : MixEnv F} {S : Nat}

/-- A branching boolean program in lock step. -/
theorem lock_btree {ne : NetEnv F} (hs : ne.Sane) (t : Branch BOp α) : ∀ {p : PrvSt F} {v : VerSt F} {pl pl' : Plain} {l : List BOp} {a : α},
    BRel ne p v pl → t.path plainStep Plain.outs pl = some (l, pl', a) →
    Lock S (btreeS ne p t) (btreeR ne v t) (fun p' v' => BRel ne p'.1 v'.1 pl' ∧ p'.2 = a ∧ v'.2 = a ∧
      p'.1.gates.length = nextBatches ne.e.checkSz p.gates.length (l.map BOp.isAnd)) := by
  induction t with
  | fin a =>
    intro p v pl pl' l b h ht
    cases ht
    exact Lock.pure ⟨h, rfl, rfl, rfl⟩
  | undef => intro p v pl pl' l b h ht; cases ht
  | ops l k ih =>
    intro p v pl pl' l' b h ht
    obtain ⟨q, r, h1, h2, h3⟩ := path_ops ht
    cases h3
    simp only [btreeS, btreeR]
    refine Lock.bind (lock_bops hs l h h1) ?_
    rintro p1 v1 ⟨k1, k2⟩
    rw [k1.outs.1, k1.outs.2]
    refine (ih _ k1 h2).mono ?_
    rintro p2 v2 ⟨m1, m2, m3, m4⟩
    exact ⟨m1, m2, m3, by rw [m4, k2, List.map_append, nextBatches_append]⟩

theorem chals_prefix (l l' : List F) (ch : Nat → F) (h : l <+: l') (hk : ∀ k, k < l'.length → l'[k]? = some (ch k)) :
    ∀ k, k < l.length → l[k]? = some (ch k) := by
  obtain ⟨t, rfl⟩ := h
  intro k hkl
  have := hk k (by rw [List.length_append]; omega)
  rw [List.getElem?_append_left hkl] at this
  exact this

/-- A branching program while `F2kOSTriple` exists, in lock step. -/
theorem lock_mtree (hg : me.Good) (hs : me.ne.Sane) (hts : me.ne.e.threads ≤ me.sz) (t : Branch MOp α) :
    ∀ {P : MPrv F} {V : MVer F} {mp : MPlain F}, MRel me P V mp →
    (∀ ch : Nat → F, (∀ k, k < mp.rs.length → mp.rs[k]? = some (ch k)) → (t.path (mplainStep ch) (fun x => x.bp.outs) mp).isSome) →
    Lock S (mtreeS me P t) (mtreeR me V t) (fun P' V' => ∃ l mp' a, (∀ ch : Nat → F, (∀ k, k < mp'.rs.length → mp'.rs[k]? = some (ch k)) →
        t.path (mplainStep ch) (fun x => x.bp.outs) mp = some (l, mp', a)) ∧ mp.rs <+: mp'.rs ∧ MRel me P'.1 V'.1 mp' ∧ P'.2 = a ∧ V'.2 = a ∧
      P'.1.b.gates.length = nextBatches me.ne.e.checkSz P.b.gates.length (l.map MOp.isAnd) ∧
      P'.1.buf.left.length = nextBatches me.sz P.buf.left.length (l.map MOp.isMul)) := by
  induction t with
  | fin a =>
    intro P V mp h _
    exact Lock.pure ⟨[], mp, a, fun _ _ => rfl, List.prefix_rfl, h, rfl, rfl, rfl, rfl⟩
  | undef =>
    intro P V mp h ht
    exfalso
    obtain ⟨ch, hch⟩ : ∃ ch : Nat → F, ∀ k, k < mp.rs.length → mp.rs[k]? = some (ch k) :=
      ⟨fun k => mp.rs.getD k 0, fun k hk => by simp [List.getElem?_eq_getElem hk]⟩
    have := ht ch hch
    simp [Branch.path] at this
  | ops l k ih =>
    intro P V mp h ht
    simp only [mtreeS, mtreeR]
    refine Lock.bind (lock_mops hg hs hts l h ?_) ?_
    · intro ch hch
      obtain ⟨w, hw⟩ := Option.isSome_iff_exists.1 (ht ch hch)
      obtain ⟨y, r, h1, _, _⟩ := path_ops hw
      exact Option.isSome_iff_exists.2 ⟨y, h1⟩
    · rintro P1 V1 ⟨mp1, k1, k2, k3, k4, k5⟩
      rw [k3.b.outs.1, k3.b.outs.2]
      refine (ih _ k3 ?_).mono ?_
      · intro ch hch
        obtain ⟨w, hw⟩ := Option.isSome_iff_exists.1 (ht ch (chals_prefix _ _ ch k2 hch))
        obtain ⟨y, r, h1, h2, _⟩ := path_ops hw
        have e : some y = some mp1 := h1.symm.trans (k1 ch hch)
        cases e
        exact Option.isSome_iff_exists.2 ⟨r, h2⟩
      · rintro P2 V2 ⟨l2, mp2, a, m1, m2, m3, m4, m5, m6, m7⟩
        refine ⟨l ++ l2, mp2, a, ?_, k2.trans m2, m3, m4, m5, ?_, ?_⟩
        · intro ch hch
          exact path_ops_of (k1 ch (chals_prefix _ _ ch m2 hch)) (m1 ch hch)
        · rw [m6, k4, List.map_append, nextBatches_append]
        · rw [m7, k5, List.map_append, nextBatches_append]

/-- A whole branching session in lock step. -/
theorem lock_branch (hg : me.Good) (hs : me.ne.Sane) (hts : me.ne.e.threads ≤ me.sz) {t : SessTree}
    (hrun : ∀ ch : Nat → F, ∃ pre ops post mp, Walk ch t pre ops post mp ∧ (∀ b ∈ mp.bp.claims, b = false) ∧
      (lastBatch (mixAnds pre ops post) me.ne.e.checkSz = 0 ∨ me.ne.e.threads ≤ lastBatch (mixAnds pre ops post) me.ne.e.checkSz) ∧
      (lastBatch (mixMuls ops) me.sz = 0 ∨ me.ne.e.threads ≤ lastBatch (mixMuls ops) me.sz)) :
    Lock S (branchS me t) (branchR me t) (fun P V => ∃ ch pre ops post mp, Walk ch t pre ops post mp ∧ P.b.outs = mp.bp.outs ∧
      V.b.outs = mp.bp.outs ∧ V.b.cheats = [] ∧ V.warns = 0 ∧ P.fw.map Prod.fst = mp.fs ∧ V.fw = P.fw.map (keyF me.ne.e.delta) ∧
      P.rs = mp.rs ∧ V.rs = mp.rs) := by
  have hcz : 0 < me.ne.e.checkSz := Nat.lt_of_lt_of_le hs.threads hs.fits
  obtain ⟨pre, _, _, _, ⟨⟨pb, t1, _, _, _, hpb, _⟩⟩, _⟩ := hrun (fun _ => 0)
  unfold branchS branchR
  refine Lock.bind (lock_rcot hg.ne 0 1) (fun _ _ _ => ?_)
  refine Lock.bind (lock_btree hs t (BRel.init me.ne) hpb) ?_
  rintro ⟨p1, _⟩ ⟨v1, _⟩ ⟨k1, rfl, rfl, k2⟩
  have hnew : Lock S (f2kNewS me p1) (f2kNewR me v1) (fun P V => MRel me P V ⟨pb, [], []⟩ ∧ P.b.gates = p1.gates ∧ P.buf.left = []) := by
    unfold f2kNewS f2kNewR
    refine Lock.bind (Lock.calls (hg.sv 0)) (fun _ _ _ => Lock.pure ⟨⟨?_, rfl, rfl, ?_, ?_, ?_, rfl, Nat.zero_le _, rfl, ⟨rfl, rfl⟩, rfl⟩, rfl, rfl⟩)
    · rw [k1.used]; exact k1.setUsed _
    · simp only [F2kBuf.key, hg.keys, List.map_nil]
    · exact ⟨rfl, rfl, Nat.zero_le _, hg.room 0⟩
    · intro g hgm
      simp [F2kBuf.pending] at hgm
  refine Lock.bind hnew ?_
  rintro P2 V2 ⟨k3, k4, k5⟩
  refine Lock.bind (lock_mtree hg hs hts _ k3 ?_) ?_
  · intro ch _
    obtain ⟨_, _, _, _, ⟨⟨pb', t1', _, _, _, hpb', h1, _⟩⟩, _⟩ := hrun ch
    rw [hpb, Option.some.injEq, Prod.mk.injEq, Prod.mk.injEq] at hpb'
    obtain ⟨rfl, rfl, rfl⟩ := hpb'
    rw [h1]; rfl
  rintro ⟨P3, _⟩ ⟨V3, _⟩ ⟨ops, mp, t2, l1, l2, l3, rfl, rfl, l4, l5⟩
  obtain ⟨ch, hch⟩ : ∃ ch : Nat → F, ∀ k, k < mp.rs.length → mp.rs[k]? = some (ch k) :=
    ⟨fun k => mp.rs.getD k 0, fun k hk => by simp [List.getElem?_eq_getElem hk]⟩
  have hops := l1 ch hch
  obtain ⟨pre', ops', post, mpF, ⟨⟨pb', t1', s, t2', b2, hpb', hops', hpost, rfl⟩⟩, hcl, ha, hm⟩ := hrun ch
  rw [hpb, Option.some.injEq, Prod.mk.injEq, Prod.mk.injEq] at hpb'
  obtain ⟨rfl, rfl, rfl⟩ := hpb'
  simp only at hops
  rw [hops, Option.some.injEq, Prod.mk.injEq, Prod.mk.injEq] at hops'
  obtain ⟨rfl, rfl, rfl⟩ := hops'
  have e0 : (0 : Nat) = lastBatch 0 me.ne.e.checkSz := rfl
  have e0' : (0 : Nat) = lastBatch 0 me.sz := rfl
  have hcount : ∀ {α : Type} (f : α → Bool) (l : List α), (l.map f).countP id = l.countP f := by
    intro α f l
    rw [List.countP_map]; rfl
  simp only at l3 l4 l5 k2
  have hmul : P3.buf.left.length = lastBatch (mixMuls ops) me.sz := by
    rw [l5, k5, List.length_nil, e0', nextBatches_eq hg.sz, hcount, Nat.zero_add]; rfl
  refine Lock.bind (lock_f2kDel hg hs l3 (by rw [hmul]; exact hm)) ?_
  rintro P4 V4 ⟨m1, m2, m3, m4, m5, m6, m7⟩
  refine Lock.bind (lock_btree hs _ m1 hpost) ?_
  rintro ⟨p5, _⟩ ⟨v5, _⟩ ⟨n1, _, _, n2⟩
  simp only at n1 n2
  have hand : p5.gates.length = lastBatch (mixAnds pre ops post) me.ne.e.checkSz := by
    rw [n2, m2, l4, k4, k2, show (PrvSt.init : PrvSt F).gates.length = 0 from rfl, e0, nextBatches_eq hcz, nextBatches_eq hcz, nextBatches_eq hcz,
      hcount, hcount, hcount, Nat.zero_add]
    rfl
  refine Lock.bind (lock_bfin hs n1 (by rw [hand]; exact ha) hcl) ?_
  rintro p6 v6 ⟨o1, o2, o3⟩
  exact Lock.pure ⟨ch, pre, ops, post, { mp with bp := b2 }, ⟨⟨pb, _, mp, _, b2, hpb, hops, hpost, rfl⟩⟩, o1, o2, o3, m3, m4, m5, m6, m7⟩

/-! ### arbitrary messages -/

theorem verAndRoom_outs {e : BEnv F} {s q : VerSt F} {ans : F × F} (h : verAndRoom e s ans = some q) : q.outs = s.outs := by
  unfold verAndRoom at h
  split at h
  · unfold verAndCheck at h
    split at h
    · cases h
    · cases h; rfl
  · cases h; rfl

theorem verStep_outs {e : BEnv F} {s q : VerSt F} {m : BMsg F} {op : BOp} (h : verStep e s m op = some q) :
    q.outs = s.outs ++ saidBits [op] [m] := by
  cases op with
  | input b => cases h; simp [saidBits]
  | pub b => cases h; simp [saidBits]
  | xor i j =>
    simp only [verStep, Option.bind_eq_bind, Option.bind_eq_some_iff] at h
    obtain ⟨a, _, b, _, h⟩ := h
    cases h; simp [saidBits]
  | not i =>
    simp only [verStep, Option.bind_eq_bind, Option.bind_eq_some_iff] at h
    obtain ⟨a, _, h⟩ := h
    cases h; simp [saidBits]
  | and i j =>
    simp only [verStep, Option.bind_eq_bind, Option.bind_eq_some_iff] at h
    obtain ⟨a, _, b, _, r, hr, h⟩ := h
    unfold verAndPush at h
    split at h
    · cases h; simp [saidBits, verAndRoom_outs hr]
    · cases h
  | reveal i =>
    simp only [verStep, Option.bind_eq_bind, Option.bind_eq_some_iff] at h
    obtain ⟨a, _, h⟩ := h
    cases h; simp [saidBits]
  | poly st =>
    simp only [verStep, Option.bind_eq_bind, Option.bind_eq_some_iff] at h
    obtain ⟨p, _, h⟩ := h
    unfold verPolyPush at h
    split at h
    · cases h
      unfold verPolyRoom
      split <;> simp [saidBits, verPolyCheck]
    · cases h

omit [Field F] [BlockField F] [DecidableEq F] in
theorem saidBits_cons (o : BOp) (l : List BOp) (m : BMsg F) (ms : List (BMsg F)) : saidBits (o :: l) (m :: ms) = saidBits [o] [m] ++ saidBits l ms := by
  cases o <;> simp [saidBits]

theorem verRun_outs {e : BEnv F} (l : List BOp) : ∀ {s q : VerSt F} {ms : List (BMsg F)}, verRun e s l ms = some q → q.outs = s.outs ++ saidBits l ms := by
  induction l with
  | nil =>
    intro s q ms h
    cases ms with
    | nil => cases h; simp [saidBits]
    | cons => cases h
  | cons o l ih =>
    intro s q ms h
    cases ms with
    | nil => cases h
    | cons m ms =>
      simp only [verRun, Option.bind_eq_bind, Option.bind_eq_some_iff] at h
      obtain ⟨s1, h1, h2⟩ := h
      rw [ih h2, verStep_outs h1, saidBits_cons o l m ms, List.append_assoc]

theorem verRun_append {e : BEnv F} (l l' : List BOp) : ∀ {s : VerSt F} {ms : List (BMsg F)}, l.length ≤ ms.length →
    verRun e s (l ++ l') ms = (verRun e s l (ms.take l.length)).bind (fun s1 => verRun e s1 l' (ms.drop l.length)) := by
  induction l with
  | nil => intro s ms _; simp [verRun]
  | cons o l ih =>
    intro s ms h
    cases ms with
    | nil => simp at h
    | cons m ms =>
      simp only [List.length_cons, Nat.add_le_add_iff_right] at h
      simp only [List.cons_append, List.length_cons, List.take_succ_cons, List.drop_succ_cons, verRun, Option.bind_eq_bind, Option.bind_assoc]
      congr 1
      funext s1
      exact ih h

theorem verRun_short {e : BEnv F} (l : List BOp) : ∀ {s : VerSt F} {ms : List (BMsg F)}, ms.length < l.length → verRun e s l ms = none := by
  induction l with
  | nil => intro s ms h; simp at h
  | cons o l ih =>
    intro s ms h
    cases ms with
    | nil => rfl
    | cons m ms =>
      simp only [List.length_cons, Nat.add_lt_add_iff_right] at h
      simp only [verRun, Option.bind_eq_bind]
      cases verStep e s m o with
      | none => rfl
      | some s1 => exact ih h

theorem verRun_length {e : BEnv F} (l : List BOp) : ∀ {s q : VerSt F} {ms : List (BMsg F)}, verRun e s l ms = some q → l.length = ms.length := by
  induction l with
  | nil =>
    intro s q ms h
    cases ms with
    | nil => rfl
    | cons => cases h
  | cons o l ih =>
    intro s q ms h
    cases ms with
    | nil => cases h
    | cons m ms =>
      simp only [verRun, Option.bind_eq_bind, Option.bind_eq_some_iff] at h
      obtain ⟨s1, _, h2⟩ := h
      rw [List.length_cons, List.length_cons, ih h2]

theorem verFinalize_outs {e : BEnv F} {s q : VerSt F} {m : BFin F} (h : verFinalize e s m = some q) : q.outs = s.outs := by
  simp only [verFinalize, Option.bind_eq_bind, Option.bind_eq_some_iff] at h
  obtain ⟨r, h1, h2⟩ := h
  have e1 : q.outs = r.outs := by
    cases h2
    unfold verFinHash
    split <;> rfl
  have e2 : r.outs = (verFinPoly e s m.polyAns).outs := by
    unfold verFinAnd at h1
    split at h1
    · unfold verAndCheck at h1
      split at h1
      · cases h1
      · cases h1; rfl
    · cases h1; rfl
  have e3 : (verFinPoly e s m.polyAns).outs = s.outs := by
    unfold verFinPoly
    split <;> rfl
  rw [e1, e2, e3]

omit [Field F] [BlockField F] [DecidableEq F] in
theorem saidBits_take (l : List BOp) : ∀ (ms : List (BMsg F)), saidBits l (ms.take l.length) = saidBits l ms := by
  induction l with
  | nil => intro ms; simp [saidBits]
  | cons o l ih =>
    intro ms
    cases ms with
    | nil => simp
    | cons m ms =>
      rw [List.length_cons, List.take_succ_cons, saidBits_cons, saidBits_cons o l m ms, ih]

/-- The verifier of a branching program is the verifier of the path that the messages make it take. -/
theorem vtreeRun_said (e : BEnv F) (t : Branch BOp Unit) : ∀ (s : VerSt F) (ms : List (BMsg F)),
    vtreeRun e s t ms = (t.said s.outs ms).bind (fun l => verRun e s l ms) := by
  induction t with
  | fin a => intro s ms; cases ms <;> rfl
  | undef => intro s ms; rfl
  | ops l k ih =>
    intro s ms
    simp only [vtreeRun, Branch.said]
    by_cases hl : l.length ≤ ms.length
    · rw [if_pos hl]
      cases h : verRun e s l (ms.take l.length) with
      | none =>
        rw [Option.bind_none, Option.bind_map]
        symm
        rw [Option.bind_eq_none_iff]
        intro x _
        rw [Function.comp_apply, verRun_append _ _ hl, h, Option.bind_none]
      | some s1 =>
        have ho := verRun_outs l h
        rw [saidBits_take] at ho
        rw [Option.bind_some, ih, ho, Option.bind_map]
        congr 1
        funext x
        rw [Function.comp_apply, verRun_append _ _ hl, h, Option.bind_some]
    · rw [if_neg hl, Option.bind_none, verRun_short l (by rw [List.length_take]; omega), Option.bind_none]

/-- Number of bits revealed. -/
def reveals (l : List BOp) : Nat := l.countP (fun o => match o with | .reveal _ => true | _ => false)

omit [Field F] [BlockField F] [DecidableEq F] in
theorem saidBits_length (l : List BOp) : ∀ {ms : List (BMsg F)}, l.length ≤ ms.length → (saidBits l ms).length = reveals l := by
  induction l with
  | nil => intro ms _; simp [saidBits, reveals]
  | cons o l ih =>
    intro ms h
    cases ms with
    | nil => simp at h
    | cons m ms =>
      simp only [List.length_cons, Nat.add_le_add_iff_right] at h
      have := ih h
      cases o <;> simp [saidBits, reveals, List.countP_cons] at this ⊢ <;> exact this

theorem plainStep_said {p q : Plain} {o : BOp} (h : plainStep p o = some q) : ∃ x, q.outs = p.outs ++ x ∧ x.length = reveals [o] := by
  cases o with
  | input b => cases h; exact ⟨[], by simp, rfl⟩
  | pub b => cases h; exact ⟨[], by simp, rfl⟩
  | xor i j =>
    simp only [plainStep, Option.bind_eq_bind, Option.bind_eq_some_iff] at h
    obtain ⟨a, _, b, _, h⟩ := h
    cases h; exact ⟨[], by simp, rfl⟩
  | not i =>
    simp only [plainStep, Option.bind_eq_bind, Option.bind_eq_some_iff] at h
    obtain ⟨a, _, h⟩ := h
    cases h; exact ⟨[], by simp, rfl⟩
  | and i j =>
    simp only [plainStep, Option.bind_eq_bind, Option.bind_eq_some_iff] at h
    obtain ⟨a, _, b, _, h⟩ := h
    cases h; exact ⟨[], by simp, rfl⟩
  | reveal i =>
    simp only [plainStep, Option.bind_eq_bind, Option.bind_eq_some_iff] at h
    obtain ⟨a, _, h⟩ := h
    cases h; exact ⟨[a], rfl, rfl⟩
  | poly st =>
    simp only [plainStep, Option.bind_eq_bind, Option.bind_eq_some_iff] at h
    obtain ⟨a, _, h⟩ := h
    cases h; exact ⟨[], by simp, rfl⟩

theorem plainOps_said (l : List BOp) : ∀ {p q : Plain}, l.foldlM plainStep p = some q → ∃ x, q.outs = p.outs ++ x ∧ x.length = reveals l := by
  induction l with
  | nil => intro p q h; cases h; exact ⟨[], by simp, rfl⟩
  | cons o l ih =>
    intro p q h
    simp only [List.foldlM_cons, Option.bind_eq_bind, Option.bind_eq_some_iff] at h
    obtain ⟨p1, h1, h2⟩ := h
    obtain ⟨x, hx, hxl⟩ := plainStep_said h1
    obtain ⟨y, hy, hyl⟩ := ih h2
    refine ⟨x ++ y, by rw [hy, hx, List.append_assoc], ?_⟩
    rw [List.length_append, hxl, hyl]
    simp only [reveals, List.countP_cons, List.countP_nil]
    omega

theorem reveals_same {l l' : List BOp} (h : List.Forall₂ BOp.same l l') : reveals l = reveals l' := by
  induction h with
  | nil => rfl
  | cons h _ ih =>
    simp only [reveals, List.countP_cons] at ih ⊢
    rw [ih]
    congr 1
    rename_i a b _ _ _
    cases a <;> cases b <;> simp_all [BOp.same]

omit [Field F] [BlockField F] [DecidableEq F] in
theorem saidBits_append (l l' : List BOp) : ∀ {ms : List (BMsg F)}, l.length ≤ ms.length →
    saidBits (l ++ l') ms = saidBits l ms ++ saidBits l' (ms.drop l.length) := by
  induction l with
  | nil => intro ms _; simp [saidBits]
  | cons o l ih =>
    intro ms h
    cases ms with
    | nil => simp at h
    | cons m ms =>
      simp only [List.length_cons, Nat.add_le_add_iff_right] at h
      rw [List.cons_append, saidBits_cons, saidBits_cons o l m ms, ih h, List.append_assoc, List.length_cons, List.drop_succ_cons]

theorem forall2_append_left {α β : Type} {R : α → β → Prop} {a b : List α} : ∀ {c : List β}, List.Forall₂ R (a ++ b) c →
    ∃ c1 c2, List.Forall₂ R a c1 ∧ List.Forall₂ R b c2 ∧ c = c1 ++ c2 := by
  induction a with
  | nil => intro c h; exact ⟨[], c, .nil, h, rfl⟩
  | cons x a ih =>
    intro c h
    cases h with
    | cons h1 h2 =>
      obtain ⟨c1, c2, k1, k2, rfl⟩ := ih h2
      exact ⟨_ :: c1, c2, .cons h1 k1, k2, rfl⟩

omit [Field F] [BlockField F] [DecidableEq F] in
/-- If the plain values agree with what was said at the end, they agree on the way, so the plain program takes the same path. -/
theorem said_path (t : Branch BOp Unit) : ∀ {o : List Bool} {ms : List (BMsg F)} {l l' : List BOp} {p p' : Plain}, t.said o ms = some l →
    List.Forall₂ BOp.same l l' → l'.foldlM plainStep p = some p' → p.outs = o → p'.outs = o ++ saidBits l ms → t.PathLike p l' p' () := by
  induction t with
  | fin a =>
    intro o ms l l' p p' h hs hr _ _
    cases ms with
    | nil => cases h; cases hs; cases hr; exact .fin _ _
    | cons => cases h
  | undef => intro o ms l l' p p' h; cases h
  | ops l k ih =>
    intro o ms l2 l' p p' h hs hr ho ho'
    simp only [Branch.said] at h
    by_cases hl : l.length ≤ ms.length
    · rw [if_pos hl, Option.map_eq_some_iff] at h
      obtain ⟨l3, h3, rfl⟩ := h
      obtain ⟨a1, a2, s1, s2, rfl⟩ := forall2_append_left hs
      rw [List.foldlM_append] at hr
      simp only [Option.bind_eq_bind, Option.bind_eq_some_iff] at hr
      obtain ⟨q, hq, hr⟩ := hr
      obtain ⟨x, hx, hxl⟩ := plainOps_said _ hq
      obtain ⟨y, hy, hyl⟩ := plainOps_said _ hr
      have hsplit : saidBits (l ++ l3) ms = saidBits l ms ++ saidBits l3 (ms.drop l.length) := saidBits_append l l3 hl
      have hxe : x = saidBits l ms ∧ y = saidBits l3 (ms.drop l.length) := by
        rw [hy, hx, ho, hsplit, List.append_assoc, List.append_cancel_left_eq] at ho'
        exact List.append_inj ho' (by rw [hxl, saidBits_length l hl, reveals_same s1])
      have hqo : q.outs = o ++ saidBits l ms := by rw [hx, ho, hxe.1]
      refine .ops s1 hq ?_
      rw [hqo]
      exact ih _ h3 s2 hr hqo (by rw [hy, hqo, hxe.2])
    · rw [if_neg hl] at h; cases h

/-! ### with a memory -/

omit [Field F] [BlockField F] [DecidableEq F] in
theorem uGens_append {c : RamCfg} (us us' : List UOp) : ∀ {g g1 g2 : RNet} {a b : List MOp}, uGens c g us = some (a, g1) → uGens c g1 us' = some (b, g2) →
    uGens c g (us ++ us') = some (a ++ b, g2) := by
  induction us with
  | nil => intro g g1 g2 a b h h'; cases h; exact h'
  | cons u us ih =>
    intro g g1 g2 a b h h'
    simp only [uGens, Option.bind_eq_bind, Option.bind_eq_some_iff] at h
    obtain ⟨⟨a1, g3⟩, h1, ⟨a2, g4⟩, h2, h3⟩ := h
    cases h3
    simp only [List.cons_append, uGens, h1, ih h2 h', Option.bind_eq_bind, Option.bind_some, List.append_assoc]

/-- The instructions of a branching program with a memory follow its path. -/
theorem rsim_tree {lib : CmpLib} {c : RamCfg} (hc : c.Ok) (t : Branch UOp (Branch BOp Unit)) : ∀ {g : RNet} {u u' : UPlain} {s : MPlain F}
    {us : List UOp} {post : Branch BOp Unit}, RSim c g u s → t.path (uplainStep c) (fun x => x.bp.outs) u = some (us, u', post) →
    u'.log.length ≤ 2 ^ c.ssz →
    ∃ a g' s', uGens c g us = some (a, g') ∧ RSim c g' u' s' ∧ mixMuls a = 0 ∧ (∀ ch, mplainOps ch s a = some s') ∧
      ∀ b, checkGen lib c g' = some b → ∀ ch s'', mplainOps ch s' b = some s'' →
        (uTreeGen lib c g t).path (mplainStep ch) (fun x => x.bp.outs) s = some (a ++ b, s'', post) := by
  induction t with
  | fin p =>
    intro g u u' s us post h ht _
    cases ht
    refine ⟨[], g, s, rfl, h, rfl, fun _ => rfl, ?_⟩
    intro b hb ch s'' hs
    rw [uTreeGen, hb]
    have := path_ops_of (step := mplainStep ch) (outs := fun x => x.bp.outs) (k := fun _ => Branch.fin p) hs rfl
    rw [this]; simp
  | undef => intro g u u' s us post h ht _; cases ht
  | ops l k ih =>
    intro g u u' s us post h ht hlen
    obtain ⟨u1, r, h1, h2, h3⟩ := path_ops ht
    cases h3
    have hlog := uplainOps_log _ (path_run _ h2)
    obtain ⟨a1, g1, s1, k1, k2, k3, k4⟩ := rsim_steps hc l h (Nat.le_trans hlog hlen) h1
    obtain ⟨a2, g2, s2, m1, m2, m3, m4, m5⟩ := ih _ k2 h2 hlen
    refine ⟨a1 ++ a2, g2, s2, uGens_append _ _ k1 m1, m2, by rw [mixMuls_append, k3, m3], ?_, ?_⟩
    · intro ch
      rw [mplainOps_append, k4, Option.bind_some, m4]
    · intro b hb ch s'' hs
      have e := m5 b hb ch s'' hs
      rw [← k2.bp] at e
      rw [uTreeGen, k1, List.append_assoc]
      exact path_ops_of (k := fun o => uTreeGen lib c g1 (k o)) (k4 ch) e

/-- Before the memory exists. -/
theorem ramTree_pre {lib : CmpLib} {c : RamCfg} (t : RamTree) : ∀ {p p' : Plain} {l : List BOp} {r : Branch UOp (Branch BOp Unit)},
    t.path plainStep Plain.outs p = some (l, p', r) →
    (ramTreeGen lib c p t).path plainStep Plain.outs p = some (l, p', uTreeGen lib c ⟨p'.wires, 0, ramInit c, []⟩ r) := by
  induction t with
  | fin a => intro p p' l r h; cases h; rfl
  | undef => intro p p' l r h; cases h
  | ops l k ih =>
    intro p p' l' r h
    obtain ⟨q, w, h1, h2, h3⟩ := path_ops h
    cases h3
    rw [ramTreeGen, h1]
    exact path_ops_of (k := fun o => ramTreeGen lib c q (k o)) h1 (ih _ h2)

end
end EmpZk
