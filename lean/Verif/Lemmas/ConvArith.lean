/-
The arithmetic part of a session with conversions: honest parties in lock step.
-/
import Verif.Lemmas.MixBool
import Verif.Lemmas.ArithBatchNet
import Verif.Lemmas.ArithAuth
import Verif.Spec.ConvNet

namespace EmpZk

/-- The arithmetic states of two honest parties with plain values `pl`. -/
def ARel (e : AEnv) (p : APrv) (v : AVer) (pl : APlain) : Prop :=
  ∃ c ab ch, p = aprvOf c ∧ v = averImg (fp e.delta) c ab ch ∧ AHon e.view c ∧ APlainOf c pl ∧ ABounds e.view c ∧ FlagInv e v

/-- The buffers have sizes for which the checks are defined. -/
structure AEnv.Sane (e : AEnv) : Prop where
  good : e.Good
  tasks : (mulTasks e.checkSz e.threads).isSome
  poly : 0 < e.polySz

section
variable {e : AEnv} {p : APrv} {v : AVer} {pl : APlain} {S : Nat}

theorem ARel.init (e : AEnv) : ARel e APrv.init AVer.init ⟨[], [], []⟩ :=
  ⟨ACom.init, false, false, rfl, rfl, AHon.init _, APlainOf.init, ABounds.init _, FlagInv.init _⟩

theorem ARel.used (h : ARel e p v pl) : v.used = p.used := by obtain ⟨c, ab, ch, rfl, rfl, _⟩ := h; rfl
theorem ARel.mulBatches (h : ARel e p v pl) : v.mulBatches = p.mulBatches := by obtain ⟨c, ab, ch, rfl, rfl, _⟩ := h; rfl
theorem ARel.polyBatches (h : ARel e p v pl) : v.polyBatches = p.polyBatches := by obtain ⟨c, ab, ch, rfl, rfl, _⟩ := h; rfl
theorem ARel.gates (h : ARel e p v pl) : v.gates.length = p.gates.length := by
  obtain ⟨c, ab, ch, rfl, rfl, _⟩ := h; simp [averImg, aprvOf]
theorem ARel.polys (h : ARel e p v pl) : v.polys.length = p.polys.length := by
  obtain ⟨c, ab, ch, rfl, rfl, _⟩ := h; simp [averImg, aprvOf]
theorem ARel.gates_nil (h : ARel e p v pl) : v.gates ≠ [] ↔ p.gates ≠ [] := by
  rw [ne_eq, ne_eq, ← List.length_eq_zero_iff, ← List.length_eq_zero_iff, h.gates]
theorem ARel.polys_nil (h : ARel e p v pl) : v.polys ≠ [] ↔ p.polys ≠ [] := by
  rw [ne_eq, ne_eq, ← List.length_eq_zero_iff, ← List.length_eq_zero_iff, h.polys]

theorem ARel.outs (h : ARel e p v pl) : p.outs = pl.outs.map toW ∧ v.outs = pl.outs.map toW := by
  obtain ⟨c, ab, ch, rfl, rfl, _, k, _⟩ := h
  rw [k.outs]; exact ⟨rfl, rfl⟩

theorem ARel.plainWires (h : ARel e p v pl) : pl.wires = p.wires.map (fun w => fp (high64 w)) := by
  obtain ⟨c, ab, ch, rfl, rfl, _, k, _⟩ := h
  rw [k.wires]
  simp only [aprvOf, List.map_map]
  refine List.map_congr_left fun x _ => ?_
  simp only [Function.comp_apply, high64_lab, fp_toW]

/-- The wires are authenticated. -/
theorem ARel.auth (hg : e.Good) (h : ARel e p v pl) : List.Forall₂ (Auth e.delta) p.wires v.wires := by
  obtain ⟨c, ab, ch, rfl, rfl, _⟩ := h
  simp only [aprvOf, averImg, List.forall₂_map_left_iff, List.forall₂_map_right_iff]
  rw [List.forall₂_same]
  intro x _
  have := auth_lab (fp e.delta) x
  rwa [toW_fp hg.delta] at this

/-- Authenticated labels become new wires. -/
theorem ARel.push (h : ARel e p v pl) {o o' : List U128} (ho : List.Forall₂ (Auth e.delta) o o') :
    ARel e { p with wires := p.wires ++ o } { v with wires := v.wires ++ o' }
      { pl with wires := pl.wires ++ o.map (fun w => fp (high64 w)) } := by
  obtain ⟨c, ab, ch, rfl, rfl, hon, hpl, hb, hf⟩ := h
  have e1 : ∀ {o o' : List U128}, List.Forall₂ (Auth e.delta) o o' → (o.map comOf).map lab = o ∧ (o.map comOf).map (keyAt (fp e.delta)) = o' := by
    intro o o' ho
    induction ho with
    | nil => exact ⟨rfl, rfl⟩
    | cons h _ ih => simp only [List.map_cons, h.lab_eq, h.key_eq, ih.1, ih.2, and_self]
  obtain ⟨e1, e2⟩ := e1 ho
  refine ⟨{ c with wires := c.wires ++ o.map comOf }, ab, ch, ?_, ?_, ⟨hon.opened, hon.gates, hon.mulLog, hon.polyLog, hon.canon⟩,
    ⟨?_, hpl.outs, hpl.claims⟩, ⟨hb.gates, hb.polys⟩, hf.congr rfl rfl rfl rfl rfl⟩
  · simp only [aprvOf, List.map_append, e1]
  · simp only [averImg, List.map_append, e2]
  · simp only [hpl.wires, List.map_append, List.map_map]; rfl

theorem acomStep_bounds {vw : AView} {c c' : ACom} (hb : ABounds vw c) {m : AMsg} {o : AOp} (h : acomStep vw c m o = some c') :
    ABounds vw c' := by
  cases o with
  | input w => simp only [acomStep, Option.some.injEq] at h; subst h; exact ⟨hb.gates, hb.polys⟩
  | pub w => simp only [acomStep, Option.some.injEq] at h; subst h; exact ⟨hb.gates, hb.polys⟩
  | add i j =>
    simp only [acomStep, Option.bind_eq_bind, Option.bind_eq_some_iff, Option.some.injEq] at h
    obtain ⟨_, _, _, _, rfl⟩ := h; exact ⟨hb.gates, hb.polys⟩
  | mulc i k =>
    simp only [acomStep, Option.bind_eq_bind, Option.bind_eq_some_iff, Option.some.injEq] at h
    obtain ⟨_, _, rfl⟩ := h; exact ⟨hb.gates, hb.polys⟩
  | reveal i =>
    simp only [acomStep, Option.bind_eq_bind, Option.bind_eq_some_iff, Option.some.injEq] at h
    obtain ⟨_, _, rfl⟩ := h; exact ⟨hb.gates, hb.polys⟩
  | revealCheck i x =>
    simp only [acomStep, Option.bind_eq_bind, Option.bind_eq_some_iff, Option.some.injEq] at h
    obtain ⟨_, _, rfl⟩ := h; exact ⟨hb.gates, hb.polys⟩
  | revealZero i =>
    simp only [acomStep, Option.bind_eq_bind, Option.bind_eq_some_iff, Option.some.injEq] at h
    obtain ⟨_, _, rfl⟩ := h; exact ⟨hb.gates, hb.polys⟩
  | mul i j =>
    simp only [acomStep, Option.bind_eq_bind, Option.bind_eq_some_iff] at h
    obtain ⟨_, _, _, _, r, hr, h⟩ := h
    have hrp : r.polys = c.polys := by
      unfold acomMulRoom at hr
      split at hr
      · split at hr
        · simp only [Option.some.injEq] at hr; subst hr; rfl
        · simp at hr
      · simp only [Option.some.injEq] at hr; subst hr; rfl
    unfold acomMulPush at h
    split at h
    · rename_i hlt
      simp only [Option.some.injEq] at h
      subst h
      exact ⟨by simpa using hlt, by rw [hrp]; exact hb.polys⟩
    · simp at h
  | poly st =>
    simp only [acomStep, Option.bind_eq_bind, Option.bind_eq_some_iff] at h
    obtain ⟨q, _, h⟩ := h
    have hrg : (acomPolyRoom vw c m.ans).gates = c.gates := by
      unfold acomPolyRoom; split <;> rfl
    unfold acomPolyPush at h
    split at h
    · rename_i hlt
      simp only [Option.some.injEq] at h
      subst h
      exact ⟨by rw [hrg]; exact hb.gates, by simpa using hlt⟩
    · simp at h

/-- One instruction. -/
theorem ARel.step (hs : e.Sane) (h : ARel e p v pl) {o : AOp} (hc : o.CanonC) {pl' : APlain} (ho : aplainStep pl o = some pl') :
    ∃ p' m v', aprvStep e p o = some (p', m) ∧ averStep e v m o = some v' ∧ ARel e p' v' pl' := by
  obtain ⟨c, ab, ch, rfl, rfl, hon, hpl, hb, hf⟩ := h
  have h1 := (aprvStep_isSome (v := e.view) (d := fp e.delta) hs.tasks hs.poly hb hon o hpl.wires).2 (by rw [ho]; rfl)
  obtain ⟨⟨p', m⟩, hq⟩ := Option.isSome_iff_exists.1 h1
  obtain ⟨c', k1, k2, k3, k4, pl2, k5, k6⟩ := aprvStep_com e.view (fp e.delta) hc hq hon hpl
  rw [ho, Option.some.injEq] at k5
  subst k5
  simp only at k1 k2 k4
  subst k2
  obtain ⟨ab', ch', hv⟩ := averStep_img e.view (fp e.delta) c ab ch m k4 o hc
  rw [k1, Option.map_some, hs.good.eta] at hv
  rw [hs.good.eta] at hq
  exact ⟨_, _, _, hq, hv, c', ab', ch', rfl, rfl, k3, k6, acomStep_bounds hb k1, hf.step hv⟩

/-- A check of multiplications. -/
theorem ARel.mulCheck (hs : e.Sane) (h : ARel e p v pl) (ht : (mulTasks p.gates.length e.threads).isSome) :
    ∃ p' a v', aprvMulCheck e p = some (p', a) ∧ averMulCheck e v a = some v' ∧ ARel e p' v' pl ∧
      p'.gates = [] ∧ p'.wires = p.wires ∧ p'.polys = p.polys := by
  obtain ⟨c, ab, ch, rfl, rfl, hon, hpl, hb, hf⟩ := h
  have hl : (aprvOf c).gates.length = c.gates.length := by simp [aprvOf]
  rw [hl] at ht
  obtain ⟨ts, hts⟩ := Option.isSome_iff_exists.1 ht
  have hm : ∃ q, aprvMulCheck (e.view.env (fp e.delta)) (aprvOf c) = some q := by
    have e0 : mulCheckA (aprvOf c).gates (e.view.env (fp e.delta)).threads ((e.view.env (fp e.delta)).seed (aprvOf c).mulBatches)
        ((e.view.env (fp e.delta)).cor (aprvOf c).used) =
        mulCheckA (c.gates.map CGate.lab) e.view.threads (e.view.seed c.mulBatches) (lab (e.view.cor c.used)) := rfl
    simp only [aprvMulCheck, e0, mulCheckA_lab]
    rw [show e.view.threads = e.threads from rfl, hts]
    exact ⟨_, rfl⟩
  obtain ⟨⟨p', a⟩, hq⟩ := hm
  obtain ⟨k1, k2, k3⟩ := aprvMulCheck_com e.view (fp e.delta) hq hon
  simp only at k2 k3
  subst k2
  obtain ⟨ab', hv⟩ := averMulCheck_img e.view (fp e.delta) c ab ch a
  rw [if_pos k1, hs.good.eta] at hv
  rw [hs.good.eta] at hq
  exact ⟨_, _, _, hq, hv, ⟨_, ab', ch, rfl, rfl, k3, hpl.mulCheck _, ⟨Nat.zero_le _, hb.polys⟩, hf.mulCheck hv⟩, rfl, rfl, rfl⟩

/-- A check of statements. -/
theorem ARel.polyCheck (hs : e.Sane) (h : ARel e p v pl) (hp : p.polys ≠ []) :
    ∃ p' a v', aprvPolyCheck e p = some (p', a) ∧ averPolyCheck e v a = some v' ∧ ARel e p' v' pl ∧
      p'.polys = [] ∧ p'.wires = p.wires ∧ p'.gates = p.gates := by
  obtain ⟨c, ab, ch, rfl, rfl, hon, hpl, hb, hf⟩ := h
  have hp' : c.polys ≠ [] := by simpa [aprvOf] using hp
  obtain ⟨a, hq, k3⟩ := aprvPolyCheck_com e.view (fp e.delta) hp' hon
  obtain ⟨ch', hv⟩ := averPolyCheck_img e.view (fp e.delta) c ab ch a hp'
  rw [hs.good.eta] at hv hq
  exact ⟨_, _, _, hq, hv, ⟨_, ab, ch', rfl, rfl, k3, hpl.polyCheck _, ⟨hb.gates, Nat.zero_le _⟩, hf.polyCheck hv⟩, rfl, rfl, rfl⟩

/-- At the end nothing was reported. -/
theorem ARel.accepted (hs : e.Sane) (h : ARel e p v pl) (hz : ∀ x ∈ pl.claims, x = 0) :
    v.aborted = false ∧ v.cheat = false ∧ v.stored = p.stored := by
  obtain ⟨c, ab, ch, rfl, rfl, hon, hpl, hb, hf⟩ := h
  obtain ⟨z1, z2, z3⟩ := hpl.claims hz
  have he := hs.good.eta
  refine ⟨hf.ab.2 ⟨?_, ?_⟩, hf.ch.2 ?_, ?_⟩
  · intro r hr
    simp only [averImg, List.mem_map] at hr
    obtain ⟨r', hr', rfl⟩ := hr
    obtain ⟨ts, hts, hans⟩ := hon.mulLog r' hr'
    have hgc : ∀ g ∈ r'.gates, g.Correct := by
      intro g hg
      apply hon.gates
      simp only [ACom.allGates, List.mem_append, List.mem_flatMap]
      exact Or.inl ⟨r', hr', hg⟩
    suffices hk : AMulOK (e.view.env (fp e.delta)) _ by rw [he] at hk; exact hk
    unfold AMulOK
    refine (mulCheckB_keyAt (fp e.delta) r'.gates e.view.threads r'.seeds (e.view.cor r'.ope) r'.ans).trans ?_
    rw [hts, Option.map_some, hans]
    simp only [Option.some.injEq, beq_iff_eq, multMod_toW, addMod_toW]
    congr 1
    rw [mulErr, taskSum_correct _ hgc]
    ring
  · intro x hx
    simp only [averImg, List.mem_map] at hx
    obtain ⟨y, hy, rfl⟩ := hx
    exact z3 y hy
  · intro r hr
    simp only [averImg, List.mem_map] at hr
    obtain ⟨r', hr', rfl⟩ := hr
    obtain ⟨hne, hans⟩ := hon.polyLog r' hr'
    have hcan : ∀ q ∈ r'.polys, q.CanonC := by
      intro q hq
      apply hon.canon
      simp only [ACom.stmts, List.mem_append, List.mem_flatMap]
      exact Or.inl ⟨r', hr', hq⟩
    suffices hk : APolyOK (e.view.env (fp e.delta)) _ by rw [he] at hk; exact hk
    unfold APolyOK
    refine (apolyCheckB_keyAt (fp e.delta) r'.polys hcan hne r'.seed (e.view.cor r'.ope) r'.ans).trans ?_
    rw [chiSum_zero _ _ _ (fun q hq => by
      apply z2
      simp only [ACom.stmts, List.mem_append, List.mem_flatMap]
      exact Or.inl ⟨r', hr', hq⟩), hans]
    simp only [Option.some.injEq, beq_iff_eq, multMod_toW, addMod_toW]
    congr 1
    ring
  · simp only [averImg, aprvOf]
    apply List.map_congr_left
    intro o ho
    rw [z1 o ho]
    congr 1
    ring

end

/-! ### in lock step -/

section
variable {F : Type} [Field F] [BlockField F] [DecidableEq F] {ce : ConvEnv F} {p : APrv} {v : AVer} {pl : APlain} {S : Nat}

omit [DecidableEq F] in
theorem lock_extA (hg : ce.Good) (k u : Nat) : Lock S (extAS ce k u) (extAR ce k u) (fun _ _ => True) := Lock.calls (hg.av u k)

omit [DecidableEq F] in
theorem lock_amulCheck (hg : ce.Good) (hs : ce.env.Sane) (k : Nat) (h : ARel ce.env p v pl)
    (ht : (mulTasks p.gates.length ce.base.threads).isSome) :
    Lock S (amulCheckS ce k p) (amulCheckR ce k v) (fun p' v' => ARel ce.env p' v' pl ∧ p'.gates = [] ∧ p'.wires = p.wires ∧
      p'.polys = p.polys) := by
  unfold amulCheckS amulCheckR
  refine Lock.flushC (Lock.backC (encBlk_length _) (by decide) (Lock.flushC ?_))
  obtain ⟨p', a, v', k1, k2, k3, k4⟩ := h.mulCheck hs ht
  have e1 : mulCheckA p.gates ce.base.threads (ce.expand (decBlk (encBlk (ce.seed0 v.mulBatches)))) (ce.base.cor p.used) = some a ∧
      { p with used := p.used + 1, gates := [], mulBatches := p.mulBatches + 1 } = p' := by
    rw [decBlk_encBlk, h.mulBatches]
    simp only [aprvMulCheck, Option.bind_eq_bind, Option.bind_eq_some_iff, Option.some.injEq, Prod.mk.injEq] at k1
    obtain ⟨a', ha, hp, rfl⟩ := k1
    exact ⟨ha, hp⟩
  rw [e1.1]
  simp only [SProg.ofOpt, SProg.bind]
  rw [h.used]
  refine Lock.bind (lock_extA hg _ _) (fun _ _ _ => ?_)
  refine Lock.dataC (encAns_length a) (by decide) ?_
  simp only [decAns_encAns, k2, RProg.ofOpt, RProg.bind]
  rw [e1.2]
  exact Lock.flushC (Lock.pure ⟨k3, k4⟩)

omit [DecidableEq F] in
theorem lock_apolyCheck (hg : ce.Good) (hs : ce.env.Sane) (k : Nat) (h : ARel ce.env p v pl) (hp : p.polys ≠ []) :
    Lock S (apolyCheckS ce k p) (apolyCheckR ce k v) (fun p' v' => ARel ce.env p' v' pl ∧ p'.polys = [] ∧ p'.wires = p.wires ∧
      p'.gates = p.gates) := by
  unfold apolyCheckS apolyCheckR
  refine Lock.flushC (Lock.backC (encW_length _) (by decide) ?_)
  obtain ⟨p', a, v', k1, k2, k3, k4⟩ := h.polyCheck hs hp
  have e1 : apolyCheckA p.polys (decW (encW (mod64 (ce.base.polySeed v.polyBatches)))) (ce.base.cor p.used) = some a ∧
      { p with used := p.used + 1, polys := [], polyBatches := p.polyBatches + 1 } = p' := by
    rw [decW_encW, h.polyBatches]
    simp only [aprvPolyCheck, Option.bind_eq_bind, Option.bind_eq_some_iff, Option.some.injEq, Prod.mk.injEq] at k1
    obtain ⟨a', ha, hp, rfl⟩ := k1
    exact ⟨ha, hp⟩
  rw [e1.1]
  simp only [SProg.ofOpt, SProg.bind]
  rw [h.used]
  refine Lock.bind (lock_extA hg _ _) (fun _ _ _ => ?_)
  refine Lock.dataC (encAns_length a) (by decide) ?_
  simp only [decAns_encAns, k2, RProg.ofOpt]
  rw [e1.2]
  exact Lock.pure ⟨k3, k4⟩

omit [DecidableEq F] in
theorem lock_amulRoom (hg : ce.Good) (hs : ce.env.Sane) (k : Nat) (h : ARel ce.env p v pl) :
    Lock S (amulRoomS ce k p) (amulRoomR ce k v) (fun p' v' => ARel ce.env p' v' pl ∧
      p'.gates.length = (if p.gates.length = ce.base.checkSz then 0 else p.gates.length) ∧ p'.wires = p.wires) := by
  unfold amulRoomS amulRoomR
  rw [h.gates]
  by_cases hf : p.gates.length = ce.base.checkSz
  · simp only [if_pos hf]
    refine (lock_amulCheck hg hs k h (by rw [hf]; exact hs.tasks)).mono ?_
    rintro a b ⟨k1, k2, k3, k4⟩
    exact ⟨k1, by rw [k2]; rfl, k3⟩
  · simp only [if_neg hf]
    exact Lock.pure ⟨h, rfl, rfl⟩

omit [DecidableEq F] in
theorem lock_apolyRoom (hg : ce.Good) (hs : ce.env.Sane) (k : Nat) (h : ARel ce.env p v pl) :
    Lock S (apolyRoomS ce k p) (apolyRoomR ce k v) (fun p' v' => ARel ce.env p' v' pl ∧ p'.polys.length < ce.base.polySz ∧
      p'.wires = p.wires ∧ p'.gates = p.gates) := by
  unfold apolyRoomS apolyRoomR
  have hiff : (v.polys.length ≥ ce.base.polySz ∧ v.polys ≠ []) ↔ (p.polys.length ≥ ce.base.polySz ∧ p.polys ≠ []) := by
    rw [h.polys, h.polys_nil]
  by_cases hf : p.polys.length ≥ ce.base.polySz ∧ p.polys ≠ []
  · rw [if_pos hf, if_pos (hiff.2 hf)]
    refine (lock_apolyCheck hg hs k h hf.2).mono ?_
    rintro a b ⟨k1, k2, k3, k4⟩
    exact ⟨k1, by rw [k2]; exact hs.poly, k3, k4⟩
  · rw [if_neg hf, if_neg (fun h' => hf (hiff.1 h'))]
    refine Lock.pure ⟨h, ?_, rfl, rfl⟩
    by_contra hlt
    apply hf
    refine ⟨by omega, ?_⟩
    intro h0
    rw [h0] at hlt
    exact hlt hs.poly

/-- A multiplication. -/
def AOp.isMul : AOp → Bool
  | .mul _ _ => true
  | _ => false

omit [DecidableEq F] in
/-- One instruction in lock step. -/
theorem lock_aop (hg : ce.Good) (hs : ce.env.Sane) (k : Nat) (h : ARel ce.env p v pl) {o : AOp} (hc : o.CanonC) {pl' : APlain}
    (ho : aplainStep pl o = some pl') :
    Lock S (aopS ce k p o) (aopR ce k v o) (fun p' v' => ARel ce.env p' v' pl' ∧
      p'.gates.length = nextBatch ce.base.checkSz p.gates.length o.isMul) := by
  cases o with
  | input w =>
    obtain ⟨p', m, v', k1, k2, k3⟩ := h.step hs hc ho
    have hm : p'.gates = p.gates := by
      simp only [aprvStep, Option.some.injEq, Prod.mk.injEq] at k1
      rw [← k1.1]
    have k2' : averStep ce.env v ⟨m.w, 0, 0⟩ (.input w) = some v' := by rw [← k2]; rfl
    simp only [aopS, aopR]
    rw [h.used]
    refine Lock.bind (lock_extA hg _ _) (fun _ _ _ => ?_)
    simp only [k1, SProg.ofOpt, SProg.bind]
    refine Lock.dataC (encW_length _) (by decide) ?_
    simp only [decW_encW, k2', RProg.ofOpt]
    exact Lock.pure ⟨k3, by rw [hm]; rfl⟩
  | pub w =>
    obtain ⟨p', m, v', k1, k2, k3⟩ := h.step hs hc ho
    have hm : m = ⟨0, 0, 0⟩ ∧ p'.gates = p.gates := by
      simp only [aprvStep, Option.some.injEq, Prod.mk.injEq] at k1
      exact ⟨k1.2.symm, by rw [← k1.1]⟩
    rw [hm.1] at k2
    simp only [aopS, aopR, k1, k2, SProg.ofOpt, RProg.ofOpt, SProg.bind]
    exact Lock.pure ⟨k3, by rw [hm.2]; rfl⟩
  | add i j =>
    obtain ⟨p', m, v', k1, k2, k3⟩ := h.step hs hc ho
    have hm : m = ⟨0, 0, 0⟩ ∧ p'.gates = p.gates := by
      simp only [aprvStep, Option.bind_eq_bind, Option.bind_eq_some_iff, Option.some.injEq, Prod.mk.injEq] at k1
      obtain ⟨_, _, _, _, rfl, rfl⟩ := k1
      exact ⟨rfl, rfl⟩
    rw [hm.1] at k2
    simp only [aopS, aopR, k1, k2, SProg.ofOpt, RProg.ofOpt, SProg.bind]
    exact Lock.pure ⟨k3, by rw [hm.2]; rfl⟩
  | mulc i c =>
    obtain ⟨p', m, v', k1, k2, k3⟩ := h.step hs hc ho
    have hm : m = ⟨0, 0, 0⟩ ∧ p'.gates = p.gates := by
      simp only [aprvStep, Option.bind_eq_bind, Option.bind_eq_some_iff, Option.some.injEq, Prod.mk.injEq] at k1
      obtain ⟨_, _, rfl, rfl⟩ := k1
      exact ⟨rfl, rfl⟩
    rw [hm.1] at k2
    simp only [aopS, aopR, k1, k2, SProg.ofOpt, RProg.ofOpt, SProg.bind]
    exact Lock.pure ⟨k3, by rw [hm.2]; rfl⟩
  | revealZero i =>
    obtain ⟨p', m, v', k1, k2, k3⟩ := h.step hs hc ho
    have hm : m = ⟨0, 0, 0⟩ ∧ p'.gates = p.gates := by
      simp only [aprvStep, Option.bind_eq_bind, Option.bind_eq_some_iff, Option.some.injEq, Prod.mk.injEq] at k1
      obtain ⟨_, _, rfl, rfl⟩ := k1
      exact ⟨rfl, rfl⟩
    rw [hm.1] at k2
    simp only [aopS, aopR, k1, k2, SProg.ofOpt, RProg.ofOpt, SProg.bind]
    exact Lock.pure ⟨k3, by rw [hm.2]; rfl⟩
  | reveal i =>
    obtain ⟨p', m, v', k1, k2, k3⟩ := h.step hs hc ho
    have hm : m = ⟨m.w, 0, 0⟩ ∧ p'.gates = p.gates := by
      simp only [aprvStep, Option.bind_eq_bind, Option.bind_eq_some_iff, Option.some.injEq, Prod.mk.injEq] at k1
      obtain ⟨_, _, rfl, rfl⟩ := k1
      exact ⟨rfl, rfl⟩
    rw [hm.1] at k2
    simp only [aopS, aopR, k1, SProg.ofOpt, SProg.bind]
    refine Lock.dataC (encW_length _) (by decide) ?_
    simp only [decW_encW, k2, RProg.ofOpt]
    exact Lock.pure ⟨k3, by rw [hm.2]; rfl⟩
  | revealCheck i x =>
    obtain ⟨p', m, v', k1, k2, k3⟩ := h.step hs hc ho
    have hm : m = ⟨m.w, 0, 0⟩ ∧ p'.gates = p.gates := by
      simp only [aprvStep, Option.bind_eq_bind, Option.bind_eq_some_iff, Option.some.injEq, Prod.mk.injEq] at k1
      obtain ⟨_, _, rfl, rfl⟩ := k1
      exact ⟨rfl, rfl⟩
    rw [hm.1] at k2
    simp only [aopS, aopR, k1, SProg.ofOpt, SProg.bind]
    refine Lock.dataC (encW_length _) (by decide) ?_
    simp only [decW_encW, k2, RProg.ofOpt]
    exact Lock.pure ⟨k3, by rw [hm.2]; rfl⟩
  | mul i j =>
    obtain ⟨_, m, _, q1, q2, _⟩ := h.step hs hc ho
    simp only [aprvStep, Option.bind_eq_bind, Option.bind_eq_some_iff] at q1
    obtain ⟨a, ha, b, hb, _⟩ := q1
    simp only [averStep, Option.bind_eq_bind, Option.bind_eq_some_iff] at q2
    obtain ⟨a', ha', b', hb', _⟩ := q2
    simp only [aopS, aopR, ha, hb, ha', hb', SProg.ofOpt, RProg.ofOpt, SProg.bind, RProg.bind]
    have hwv := (h.auth hs.good)
    have hw0 := h.plainWires
    refine Lock.bind (lock_amulRoom hg hs k h) ?_
    rintro p1 v1 ⟨k1, k2, k3⟩
    rw [k1.used]
    refine Lock.bind (lock_extA hg _ _) (fun _ _ _ => ?_)
    obtain ⟨p', m', v', l1, l2, l3⟩ := k1.step hs hc ho
    have hsz : 0 < ce.base.checkSz := ((mulTasks_isSome _ _).1 hs.tasks).1
    have hlt : p1.gates.length ≠ ce.env.checkSz := by
      show _ ≠ ce.base.checkSz
      rw [k2]
      split <;> omega
    have hlt' : v1.gates.length ≠ ce.env.checkSz := by rw [k1.gates]; exact hlt
    rw [← k3] at ha hb
    simp only [aprvStep, ha, hb, Option.bind_eq_bind, Option.bind_some, aprvMulRoom, if_neg hlt, Option.bind_eq_some_iff, Option.some.injEq,
      Prod.mk.injEq] at l1
    obtain ⟨q, hq, rfl, rfl⟩ := l1
    have hv1 : v1.wires = v.wires := by
      obtain ⟨c, ab, ch, rfl, rfl, _⟩ := h
      obtain ⟨c1, ab1, ch1, rfl, rfl, _⟩ := k1
      simp only [aprvOf] at k3
      simp only [averImg]
      rw [List.map_injective_iff.2 ?_ k3]
      intro x y hxy
      have e1 := congrArg high64 hxy
      have e2 := congrArg low64 hxy
      rw [high64_lab, high64_lab] at e1
      rw [low64_lab, low64_lab] at e2
      exact Prod.ext (toW_inj e1) (toW_inj e2)
    rw [← hv1] at ha' hb'
    simp only [averStep, ha', hb', Option.bind_eq_bind, Option.bind_some, averMulRoom, if_neg hlt'] at l2
    simp only [hq, SProg.bind]
    refine Lock.dataC (encW_length _) (by decide) ?_
    simp only [decW_encW, l2]
    refine Lock.pure ⟨l3, ?_⟩
    unfold aprvMulPush at hq
    split at hq
    · simp only [Option.some.injEq] at hq
      rw [← hq]
      simp only [List.length_append, List.length_singleton, k2]
      rfl
    · simp at hq
  | poly st =>
    obtain ⟨_, m, _, q1, q2, _⟩ := h.step hs hc ho
    simp only [aprvStep, Option.bind_eq_bind, Option.bind_eq_some_iff] at q1
    obtain ⟨a, ha, _⟩ := q1
    simp only [averStep, Option.bind_eq_bind, Option.bind_eq_some_iff] at q2
    obtain ⟨a', ha', _⟩ := q2
    simp only [aopS, aopR, ha, ha', SProg.ofOpt, RProg.ofOpt, SProg.bind, RProg.bind]
    refine Lock.bind (lock_apolyRoom hg hs k h) ?_
    rintro p1 v1 ⟨k1, k2, k3, k4⟩
    obtain ⟨p', m', v', l1, l2, l3⟩ := k1.step hs hc ho
    have hv1 : v1.wires = v.wires := by
      obtain ⟨c, ab, ch, rfl, rfl, _⟩ := h
      obtain ⟨c1, ab1, ch1, rfl, rfl, _⟩ := k1
      simp only [aprvOf] at k3
      simp only [averImg]
      rw [List.map_injective_iff.2 ?_ k3]
      intro x y hxy
      have e1 := congrArg high64 hxy
      have e2 := congrArg low64 hxy
      rw [high64_lab, high64_lab] at e1
      rw [low64_lab, low64_lab] at e2
      exact Prod.ext (toW_inj e1) (toW_inj e2)
    rw [← k3] at ha
    rw [← hv1] at ha'
    have hr1 : ¬ (p1.polys.length ≥ ce.env.polySz ∧ p1.polys ≠ []) := by
      show ¬ (p1.polys.length ≥ ce.base.polySz ∧ p1.polys ≠ [])
      rintro ⟨h1, _⟩; omega
    have hr2 : ¬ (v1.polys.length ≥ ce.env.polySz ∧ v1.polys ≠ []) := by
      show ¬ (v1.polys.length ≥ ce.base.polySz ∧ v1.polys ≠ [])
      rw [k1.polys]; rintro ⟨h1, _⟩; omega
    simp only [aprvStep, ha, Option.bind_eq_bind, Option.bind_some, aprvPolyRoom, if_neg hr1, Option.bind_eq_some_iff, Option.some.injEq,
      Prod.mk.injEq] at l1
    obtain ⟨q, hq, rfl, rfl⟩ := l1
    simp only [averStep, ha', Option.bind_eq_bind, Option.bind_some, averPolyRoom, if_neg hr2] at l2
    simp only [hq, l2]
    refine Lock.pure ⟨l3, ?_⟩
    unfold aprvPolyPush at hq
    split at hq
    · simp only [Option.some.injEq] at hq
      rw [← hq]
      simp only [k4]
      rfl
    · simp at hq

omit [DecidableEq F] in
/-- The end of the arithmetic part in lock step. -/
theorem lock_afin (hg : ce.Good) (hs : ce.env.Sane) (k : Nat) (h : ARel ce.env p v pl)
    (hm : p.gates.length = 0 ∨ (mulTasks p.gates.length ce.base.threads).isSome) (hz : ∀ x ∈ pl.claims, x = 0) :
    Lock S (afinS ce k p) (afinR ce k v) (fun p' v' => p'.outs = pl.outs.map toW ∧ v'.outs = pl.outs.map toW ∧ v'.accepted = true ∧
      p'.wires.map (fun w => fp (high64 w)) = pl.wires ∧ List.Forall₂ (Auth ce.base.delta) p'.wires v'.wires) := by
  unfold afinS afinR
  have h1 : Lock S (if p.polys ≠ [] then apolyCheckS ce k p else SProg.done p) (if v.polys ≠ [] then apolyCheckR ce k v else RProg.done v)
      (fun p' v' => ARel ce.env p' v' pl ∧ p'.gates = p.gates) := by
    by_cases hf : p.polys ≠ []
    · rw [if_pos hf, if_pos (h.polys_nil.2 hf)]
      exact (lock_apolyCheck hg hs k h hf).mono (fun _ _ q => ⟨q.1, q.2.2.2⟩)
    · rw [if_neg hf, if_neg (fun h' => hf (h.polys_nil.1 h'))]
      exact Lock.pure ⟨h, rfl⟩
  refine Lock.bind h1 ?_
  rintro p1 v1 ⟨k1, k2⟩
  have h2 : Lock S (if p1.gates ≠ [] then amulCheckS ce k p1 else SProg.done p1) (if v1.gates ≠ [] then amulCheckR ce k v1 else RProg.done v1)
      (fun p' v' => ARel ce.env p' v' pl) := by
    by_cases hf : p1.gates ≠ []
    · rw [if_pos hf, if_pos (k1.gates_nil.2 hf)]
      refine (lock_amulCheck hg hs k k1 ?_).mono (fun _ _ q => q.1)
      rw [k2] at hf ⊢
      rcases hm with hm | hm
      · exact absurd (List.length_eq_zero_iff.1 hm) hf
      · exact hm
    · rw [if_neg hf, if_neg (fun h' => hf (k1.gates_nil.1 h'))]
      exact Lock.pure k1
  refine Lock.bind h2 ?_
  intro p2 v2 k3
  refine Lock.dataC (encDig_length _) (by decide) ?_
  obtain ⟨l1, l2, l3⟩ := k3.accepted hs hz
  simp only [decDig_encDig]
  have ha : List.Forall₂ (Auth ce.base.delta) p2.wires v2.wires := ARel.auth (e := ce.env) hs.good k3
  refine Lock.pure ⟨k3.outs.1, k3.outs.2, ?_, k3.plainWires.symm, ha⟩
  simp only [AVer.accepted, averFinHash, l1, l2, l3]
  simp [ConvEnv.env]

end
end EmpZk
