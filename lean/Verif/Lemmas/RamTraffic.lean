/-
Programs with a memory: the instructions that their calls and checks make depend on the values in the wires and on the addresses only through
the bits the prover inputs.
-/
import Verif.Spec.MixTraffic
import Verif.Lemmas.BoolSession
import Verif.Lemmas.ExtNet

namespace EmpZk

/-- The results, if both exist, are related. -/
def OBoth {α β : Type} (R : α → β → Prop) (o : Option α) (o' : Option β) : Prop := ∀ a b, o = some a → o' = some b → R a b

theorem OBoth.some {α β : Type} {R : α → β → Prop} {a : α} {b : β} (h : R a b) : OBoth R (Option.some a) (Option.some b) := by
  intro x y hx hy
  cases hx
  cases hy
  exact h

theorem OBoth.left {α β : Type} {R : α → β → Prop} {o : Option β} : OBoth R (none : Option α) o := by
  intro x y hx
  cases hx

theorem OBoth.right {α β : Type} {R : α → β → Prop} {o : Option α} : OBoth R o (none : Option β) := by
  intro x y _ hy
  cases hy

theorem OBoth.bind {α β γ δ : Type} {R : α → β → Prop} {Q : γ → δ → Prop} {o : Option α} {o' : Option β} {f : α → Option γ}
    {f' : β → Option δ} (h : OBoth R o o') (hf : ∀ a b, R a b → OBoth Q (f a) (f' b)) : OBoth Q (o >>= f) (o' >>= f') := by
  intro x y hx hy
  simp only [Option.bind_eq_bind, Option.bind_eq_some_iff] at hx hy
  obtain ⟨a, ha, hx⟩ := hx
  obtain ⟨b, hb, hy⟩ := hy
  exact hf a b (h a b ha hb) x y hx hy

theorem OBoth.any {α β : Type} (o : Option α) (o' : Option β) : OBoth (fun _ _ => True) o o' := fun _ _ _ _ => trivial

theorem OBoth.same {α : Type} (o : Option α) : OBoth Eq o o := fun a b ha hb => by
  rw [ha] at hb
  exact Option.some.inj hb

theorem OBoth.ite {α β : Type} {R : α → β → Prop} {p q : Prop} [Decidable p] [Decidable q] {a b : Option α} {c d : Option β} (hpq : p ↔ q)
    (h1 : OBoth R a c) (h2 : OBoth R b d) : OBoth R (if p then a else b) (if q then c else d) := by
  by_cases hp : p
  · rw [if_pos hp, if_pos (hpq.mp hp)]
    exact h1
  · rw [if_neg hp, if_neg (fun hq => hp (hpq.mpr hq))]
    exact h2

theorem OBoth.guard {α β : Type} {R : α → β → Prop} {p q : Prop} [Decidable p] [Decidable q] {a b : Option α} {c d : Option β}
    (ha : a = none) (hc : c = none) (h : OBoth R b d) : OBoth R (if p then a else b) (if q then c else d) := by
  subst ha
  subst hc
  split
  · exact OBoth.left
  · split
    · exact OBoth.right
    · exact h

theorem bitsOf_len2 (w x y : Nat) : (bitsOf w x).length = (bitsOf w y).length := by simp [bitsOf]

/-- Inputs without their values. -/
theorem inputs_erase {l l' : List Bool} (h : l.length = l'.length) :
    (l.map (fun b => MOp.bool (.input b))).map MOp.erase = (l'.map (fun b => MOp.bool (.input b))).map MOp.erase := by
  rw [List.map_map, List.map_map]
  have e : ∀ m : List Bool, m.map (MOp.erase ∘ fun b => MOp.bool (.input b)) = List.replicate m.length (MOp.bool (.input false)) := by
    intro m
    induction m with
    | nil => rfl
    | cons b m ih => rw [List.map_cons, ih, List.length_cons, List.replicate_succ]; rfl
  rw [e, e, h]

theorem inInt_erase (w x y : Nat) : (inInt w x).map MOp.erase = (inInt w y).map MOp.erase := inputs_erase (bitsOf_len2 w x y)

theorem inInts_erase (w : Nat) {l l' : List Nat} (h : l.length = l'.length) :
    (l.flatMap (inInt w)).map MOp.erase = (l'.flatMap (inInt w)).map MOp.erase := by
  induction l generalizing l' with
  | nil => rw [List.length_eq_zero_iff.mp h.symm]
  | cons a l ih =>
    cases l' with
    | nil => simp at h
    | cons b l' =>
      simp only [List.flatMap_cons, List.map_append]
      rw [inInt_erase w a b, ih (by simpa using h)]

theorem flat_len {α β : Type} {n : Nat} {f : α → List β} (hf : ∀ a, (f a).length = n) (l : List α) : (l.flatMap f).length = l.length * n := by
  induction l with
  | nil => simp
  | cons a l ih => simp only [List.flatMap_cons, List.length_append, hf, ih, List.length_cons, Nat.succ_mul]; omega

/-- One gate on plain values: as many wires for other values. -/
theorem plainStep_both {s s' : Plain} (h : s.wires.length = s'.wires.length) {o o' : BOp} (ho : o.erase = o'.erase) :
    OBoth (fun a b => a.wires.length = b.wires.length) (plainStep s o) (plainStep s' o') := by
  cases o <;> cases o' <;> simp only [BOp.erase, reduceCtorEq, BOp.pub.injEq, BOp.xor.injEq, BOp.not.injEq, BOp.and.injEq, BOp.reveal.injEq,
    BOp.poly.injEq] at ho <;>
  first
  | exact OBoth.some (by simp [h])
  | exact (OBoth.any _ _).bind (fun _ _ _ => (OBoth.any _ _).bind (fun _ _ _ => OBoth.some (by simp [h])))
  | exact (OBoth.any _ _).bind (fun _ _ _ => OBoth.some (by simp [h]))

theorem plainSteps_both (q : List BOp) : ∀ {s s' : Plain}, s.wires.length = s'.wires.length →
    OBoth (fun a b => a.wires.length = b.wires.length) (q.foldlM plainStep s) (q.foldlM plainStep s') := by
  induction q with
  | nil => intro s s' h; exact OBoth.some h
  | cons o q ih =>
    intro s s' h
    rw [List.foldlM_cons, List.foldlM_cons]
    exact (plainStep_both h rfl).bind (fun _ _ hab => ih hab)

/-! ### `ZKRAM` -/

/-- Equal up to values. -/
structure RSame (g g' : RNet) : Prop where
  bits : g.bits.length = g'.bits.length
  nf : g.nf = g'.nf
  step : g.ram.step = g'.ram.step
  macs : g.macs = g'.macs

theorem ramPush_both (c : RamCfg) {st st' : RamState} (h : st.step = st'.step) (m m' : List Nat) (i i' x x' v v' : Nat) (o o' : Bool) :
    OBoth (fun a b => a.step = b.step) (ramPush c st m i x v o) (ramPush c st' m' i' x' v' o') :=
  (OBoth.any _ _).bind (fun _ _ _ => OBoth.some (by simp [h]))

theorem uGen_both (c : RamCfg) {g g' : RNet} (h : RSame g g') {u u' : UOp} (hu : u.erase = u'.erase) :
    OBoth (fun a b => a.1.map MOp.erase = b.1.map MOp.erase ∧ RSame a.2 b.2) (uGen c g u) (uGen c g' u') := by
  cases u with
  | bool o =>
    cases u' <;> simp only [UOp.erase, reduceCtorEq, UOp.bool.injEq] at hu
    exact (plainStep_both h.bits hu).bind (fun _ _ hab => OBoth.some ⟨by simp [MOp.erase, hu], hab, h.nf, h.step, h.macs⟩)
  | read ix =>
    cases u' <;> simp only [UOp.erase, reduceCtorEq, UOp.read.injEq] at hu
    subst hu
    refine (OBoth.any _ _).bind (fun ib ib' _ => OBoth.bind (R := fun a b => a.1.step = b.1.step) ?_ (fun a b hab => ?_))
    · exact (OBoth.any _ _).bind (fun _ _ _ => (ramPush_both c h.step _ _ _ _ _ _ _ _ _ _).bind (fun _ _ hh => OBoth.some hh))
    · obtain ⟨ra, va⟩ := a
      obtain ⟨rb, vb⟩ := b
      simp only [h.bits, h.step, h.nf, h.macs]
      exact (OBoth.same _).bind (fun ws _ hw => OBoth.some ⟨by subst hw; simp only [List.map_append, inInt_erase c.vsz va vb],
        by simp [h.bits, bitsOf], rfl, hab, rfl⟩)
  | write ix vs =>
    cases u' <;> simp only [UOp.erase, reduceCtorEq, UOp.write.injEq] at hu
    obtain ⟨rfl, rfl⟩ := hu
    refine (OBoth.any _ _).bind (fun ib ib' _ => (OBoth.any _ _).bind (fun vb vb' _ => OBoth.bind (R := fun a b => a.step = b.step) ?_
      (fun a b hab => ?_)))
    · exact (OBoth.any _ _).bind (fun _ _ _ => ramPush_both c h.step _ _ _ _ _ _ _ _ _ _)
    · simp only [h.bits, h.step, h.nf, h.macs]
      exact (OBoth.same _).bind (fun ws _ hw => OBoth.some ⟨by subst hw; rfl, by simp [h.bits, bitsOf], rfl, hab, rfl⟩)
  | access op ix vs =>
    cases u' <;> simp only [UOp.erase, reduceCtorEq, UOp.access.injEq] at hu
    obtain ⟨rfl, rfl, rfl⟩ := hu
    refine (OBoth.any _ _).bind (fun ib ib' _ => (OBoth.any _ _).bind (fun ob ob' _ => (OBoth.any _ _).bind (fun vb vb' _ =>
      OBoth.bind (R := fun a b => a.1.step = b.1.step) ?_ (fun a b hab => ?_))))
    · exact (OBoth.any _ _).bind (fun _ _ _ => (ramPush_both c h.step _ _ _ _ _ _ _ _ _ _).bind (fun _ _ hh => OBoth.some hh))
    · obtain ⟨ra, va⟩ := a
      obtain ⟨rb, vb⟩ := b
      simp only [h.bits, h.step, h.nf, h.macs]
      exact (OBoth.same _).bind (fun ws _ hw => OBoth.some ⟨by subst hw; simp only [List.map_append, inInt_erase c.vsz va vb],
        by simp [h.bits, bitsOf], rfl, hab, rfl⟩)

theorem uGens_both (c : RamCfg) : ∀ {us us' : List UOp} {g g' : RNet}, us.map UOp.erase = us'.map UOp.erase → RSame g g' →
    OBoth (fun a b => a.1.map MOp.erase = b.1.map MOp.erase ∧ RSame a.2 b.2) (uGens c g us) (uGens c g' us') := by
  intro us
  induction us with
  | nil =>
    intro us' g g' hu h
    cases us' with
    | nil => exact OBoth.some ⟨rfl, h⟩
    | cons u us' => simp at hu
  | cons u us ih =>
    intro us' g g' hu h
    cases us' with
    | nil => simp at hu
    | cons u' us' =>
      simp only [List.map_cons, List.cons.injEq] at hu
      exact (uGen_both c h hu.1).bind (fun a b hab => (ih hu.2 hab.2).bind (fun x y hxy => OBoth.some ⟨by
        simp only [List.map_append, hab.1, hxy.1], hxy.2⟩))

theorem rangeRows_len {α : Type} {f : Nat → Option α} {n : Nat} {l : List α} (h : (List.range n).mapM f = some l) : l.length = n := by
  have := mapM_len h
  simpa using this

theorem checkGen_both (lib : CmpLib) (c : RamCfg) {g g' : RNet} (h : RSame g g') :
    OBoth (fun a b => a.map MOp.erase = b.map MOp.erase) (checkGen lib c g) (checkGen lib c g') := by
  refine OBoth.bind (R := fun a b => a.2.rows.length = b.2.rows.length) ?_ (fun a b hab => ?_)
  · intro a b ha hb
    simp only [ramCheck, Option.bind_eq_bind, Option.bind_eq_some_iff] at ha hb
    obtain ⟨r, hr, _, _, ha⟩ := ha
    obtain ⟨r', hr', _, _, hb⟩ := hb
    cases ha
    cases hb
    simp only [rangeRows_len hr, rangeRows_len hr', h.step]
  · obtain ⟨_, ca⟩ := a
    obtain ⟨_, cb⟩ := b
    simp only [h.bits, h.step, h.nf, h.macs]
    refine (OBoth.same _).bind (fun packs _ hp => (OBoth.same _).bind (fun se _ hs => OBoth.some ?_))
    subst hp
    subst hs
    have hl : (ca.rows.flatMap (rowBits c)).length = (cb.rows.flatMap (rowBits c)).length := by
      have e : ∀ x : RamEnt, (rowBits c x).length = rowW c := by intro x; simp [rowBits, rowW, bitsOf]; omega
      rw [flat_len e, flat_len e]
      exact congrArg (· * rowW c) hab
    simp only [List.map_append, inputs_erase hl]

/-- Whole programs with a memory. -/
theorem ramGen_both (lib : CmpLib) (c : RamCfg) {bits bits' : List Bool} (hb : bits.length = bits'.length) {us us' : List UOp}
    (hu : us.map UOp.erase = us'.map UOp.erase) :
    OBoth (fun a b => a.map MOp.erase = b.map MOp.erase) (ramGen lib c bits us) (ramGen lib c bits' us') := by
  refine OBoth.bind (uGens_both c hu ⟨hb, rfl, rfl, rfl⟩) (fun a b hab => OBoth.bind (checkGen_both lib c hab.2) (fun x y hxy => OBoth.some ?_))
  simp only [List.map_append, hab.1, hxy]

/-! ### `ROZKRAM` -/

/-- Equal up to values. -/
structure VSame (g g' : RoNet) : Prop where
  bits : g.bits.length = g'.bits.length
  uw : g.uw = g'.uw
  nf : g.nf = g'.nf
  nr : g.nr = g'.nr
  mem : g.st.mem.length = g'.st.mem.length
  list : g.st.list.length = g'.st.list.length
  step : g.st.step = g'.st.step
  macs : g.macs = g'.macs

theorem rename_both (uw : List Nat) {o o' : BOp} (ho : o.erase = o'.erase) :
    OBoth (fun a b => a.erase = b.erase) (o.rename uw) (o'.rename uw) := by
  cases o <;> cases o' <;> simp only [BOp.erase, reduceCtorEq, BOp.pub.injEq, BOp.xor.injEq, BOp.not.injEq, BOp.and.injEq, BOp.reveal.injEq,
    BOp.poly.injEq] at ho
  case input.input => exact OBoth.some rfl
  case pub.pub => subst ho; exact OBoth.some rfl
  all_goals
    first
    | subst ho
    | obtain ⟨rfl, rfl⟩ := ho
    intro a b ha hb
    rw [ha] at hb
    cases hb
    rfl

theorem vBool_both {g g' : RoNet} (h : VSame g g') {o o' : BOp} (ho : o.erase = o'.erase) :
    OBoth (fun a b => a.1.erase = b.1.erase ∧ VSame a.2 b.2) (vBool g o) (vBool g' o') := by
  refine OBoth.bind (R := fun a b => a.erase = b.erase) (by rw [h.uw]; exact rename_both _ ho) (fun a b hab => ?_)
  exact (plainStep_both h.bits hab).bind (fun _ _ hh => OBoth.some ⟨hab, hh, by simp only [h.uw, h.bits, hh], h.nf, h.nr, h.mem, h.list,
    h.step, h.macs⟩)

theorem roInit1_both (c : RoCfg) (i : Nat) {st st' : RoState} (h1 : st.mem.length = st'.mem.length) (h2 : st.list.length = st'.list.length)
    (h3 : st.step = st'.step) (v v' : Nat) :
    OBoth (fun a b => a.mem.length = b.mem.length ∧ a.list.length = b.list.length ∧ a.step = b.step) (roInitFrom c i st [v])
      (roInitFrom c i st' [v']) :=
  (OBoth.any _ _).bind (fun _ _ _ => OBoth.some ⟨by simp [h1], by simp [h2], h3⟩)

theorem vInit_both (c : RoCfg) (data : List (List Nat)) : ∀ (i : Nat) {g g' : RoNet}, VSame g g' →
    OBoth (fun a b => a.1.map MOp.erase = b.1.map MOp.erase ∧ VSame a.2 b.2) (vInit c i g data) (vInit c i g' data) := by
  induction data with
  | nil => intro i g g' h; exact OBoth.some ⟨rfl, h⟩
  | cons d ds ih =>
    intro i g g' h
    simp only [vInit, h.uw]
    refine (OBoth.same _).bind (fun vs _ hv => ?_)
    subst hv
    refine (OBoth.any _ _).bind (fun vb vb' _ => OBoth.guard rfl rfl ((roInit1_both c i h.mem h.list h.step _ _).bind
      (fun st st' hst => ?_)))
    simp only [h.bits]
    refine (OBoth.same _).bind (fun ws _ hw => ?_)
    subst hw
    refine OBoth.bind (ih (i + 1) ?_) (fun a b hab => OBoth.some ⟨by simp only [List.map_append, List.map_cons, hab.1], hab.2⟩)
    exact ⟨by simp [h.bits], rfl, by simp [h.nf], h.nr, hst.1, hst.2.1, hst.2.2, by simp [h.macs, h.nf]⟩

theorem roRows_both (c : RoCfg) (n : Nat) : ∀ {es es' : List RoEnt} (k : Nat), es.length = es'.length →
    OBoth (fun a b => a.map MOp.erase = b.map MOp.erase) (roRowsOps c n k es) (roRowsOps c n k es') := by
  intro es
  induction es with
  | nil =>
    intro es' k h
    rw [List.length_eq_zero_iff.mp h.symm]
    exact OBoth.some rfl
  | cons e es ih =>
    intro es' k h
    cases es' with
    | nil => simp at h
    | cons e' es' =>
      exact (OBoth.same _).bind (fun ws _ hw => (ih (k + 1) (by simpa using h)).bind (fun a b hab => OBoth.some (by
        subst hw
        simp only [List.map_append, List.map_cons, hab, inInt_erase c.vsz e.val e'.val, inInt_erase (c.isz + 1) e.idx e'.idx])))

theorem roCheck_both (c : RoCfg) {st st' : RoState} (h1 : st.mem.length = st'.mem.length) (h2 : st.list.length = st'.list.length) :
    OBoth (fun a b => a.1.mem.length = b.1.mem.length ∧ a.1.list.length = b.1.list.length ∧ a.1.step = b.1.step ∧
      a.2.rows.length = b.2.rows.length) (roCheck c st) (roCheck c st') :=
  OBoth.guard rfl rfl ((OBoth.any _ _).bind (fun _ _ _ => OBoth.guard rfl rfl (OBoth.some ⟨h1, by simp [h1, h2], rfl, by simp [h2]⟩)))

theorem roCheckGen_both (lib : CmpLib) (c : RoCfg) {g g' : RoNet} (h : VSame g g') :
    OBoth (fun a b => a.1.map MOp.erase = b.1.map MOp.erase ∧ VSame a.2 b.2) (roCheckGen lib c g) (roCheckGen lib c g') := by
  refine (roCheck_both c h.mem h.list).bind (fun a b hab => ?_)
  obtain ⟨sa, ca⟩ := a
  obtain ⟨sb, cb⟩ := b
  refine OBoth.guard rfl rfl ?_
  simp only [h.bits, h.list, h.nf, h.nr, h.macs, h.mem, h.uw]
  refine (roRows_both c _ 0 hab.2.2.2).bind (fun ra rb hr => (OBoth.same _).bind (fun se _ hs => ?_))
  subst hs
  have e : ∀ x : RoEnt, (roRowBits c x).length = roW c := by intro x; simp [roRowBits, roW, bitsOf]
  refine (plainSteps_both _ (by simp only [List.length_append, flat_len e, h.bits]; exact congrArg (_ + · * _) hab.2.2.2)).bind
    (fun x y hxy => OBoth.some ⟨by simp only [List.map_append, hr], hxy, rfl, rfl, rfl, hab.1, hab.2.1, hab.2.2.1, rfl⟩)

theorem vPush_both (c : RoCfg) {g g' : RoNet} (h : VSame g g') (ix : List Nat) :
    OBoth (fun a b => a.1.map MOp.erase = b.1.map MOp.erase ∧ VSame a.2 b.2) (vPush c g ix) (vPush c g' ix) := by
  unfold vPush
  simp only [h.uw]
  refine (OBoth.same _).bind (fun iw _ hw => ?_)
  subst hw
  refine (OBoth.any _ _).bind (fun ib ib' _ => OBoth.bind (R := fun a b => a.1.mem.length = b.1.mem.length ∧
    a.1.list.length = b.1.list.length ∧ a.1.step = b.1.step) ?_ (fun a b hab => ?_))
  · exact (OBoth.any _ _).bind (fun _ _ _ => (OBoth.any _ _).bind (fun _ _ _ => OBoth.some ⟨h.mem, by simp [h.list], by simp [h.step]⟩))
  · obtain ⟨sa, va⟩ := a
    obtain ⟨sb, vb⟩ := b
    simp only [h.bits, h.nf, h.nr, h.macs]
    exact (OBoth.same _).bind (fun ws _ hw => OBoth.some ⟨by subst hw; simp only [List.map_append, inInt_erase c.vsz va vb],
      by simp [h.bits, bitsOf], rfl, rfl, rfl, hab.1, hab.2.1, hab.2.2, rfl⟩)

theorem vGen_both (lib : CmpLib) (c : RoCfg) {g g' : RoNet} (h : VSame g g') {u u' : VOp} (hu : u.erase = u'.erase) :
    OBoth (fun a b => a.1.map MOp.erase = b.1.map MOp.erase ∧ VSame a.2 b.2) (vGen lib c g u) (vGen lib c g' u') := by
  cases u with
  | bool o =>
    cases u' <;> simp only [VOp.erase, reduceCtorEq, VOp.bool.injEq] at hu
    exact (vBool_both h hu).bind (fun a b hab => OBoth.some ⟨by simp [MOp.erase, hab.1], hab.2⟩)
  | read ix =>
    cases u' <;> simp only [VOp.erase, reduceCtorEq, VOp.read.injEq] at hu
    subst hu
    refine (vPush_both c h ix).bind (fun a b hab => OBoth.ite (by rw [hab.2.step, hab.2.mem]) ?_ (OBoth.some hab))
    exact (roCheckGen_both lib c hab.2).bind (fun x y hxy => OBoth.some ⟨by simp only [List.map_append, hab.1, hxy.1], hxy.2⟩)
  | check =>
    cases u' <;> simp only [VOp.erase, reduceCtorEq] at hu
    exact roCheckGen_both lib c h

theorem vGens_both (lib : CmpLib) (c : RoCfg) : ∀ {us us' : List VOp} {g g' : RoNet}, us.map VOp.erase = us'.map VOp.erase → VSame g g' →
    OBoth (fun a b => a.1.map MOp.erase = b.1.map MOp.erase ∧ VSame a.2 b.2) (vGens lib c g us) (vGens lib c g' us') := by
  intro us
  induction us with
  | nil =>
    intro us' g g' hu h
    cases us' with
    | nil => exact OBoth.some ⟨rfl, h⟩
    | cons u us' => simp at hu
  | cons u us ih =>
    intro us' g g' hu h
    cases us' with
    | nil => simp at hu
    | cons u' us' =>
      simp only [List.map_cons, List.cons.injEq] at hu
      exact (vGen_both lib c h hu.1).bind (fun a b hab => (ih hu.2 hab.2).bind (fun x y hxy => OBoth.some ⟨by
        simp only [List.map_append, hab.1, hxy.1], hxy.2⟩))

theorem vBools_both : ∀ {os os' : List BOp} {g g' : RoNet}, os.map BOp.erase = os'.map BOp.erase → VSame g g' →
    OBoth (fun a b => a.map BOp.erase = b.map BOp.erase) (vBools g os) (vBools g' os') := by
  intro os
  induction os with
  | nil =>
    intro os' g g' hu h
    cases os' with
    | nil => exact OBoth.some rfl
    | cons u os' => simp at hu
  | cons o os ih =>
    intro os' g g' hu h
    cases os' with
    | nil => simp at hu
    | cons o' os' =>
      simp only [List.map_cons, List.cons.injEq] at hu
      exact (vBool_both h hu.1).bind (fun a b hab => (ih hu.2 hab.2).bind (fun x y hxy => OBoth.some (by
        simp only [List.map_cons, hab.1, hxy])))

/-- Whole programs with a read-only memory. -/
theorem roProg_both (lib : CmpLib) (c : RoCfg) {bits bits' : List Bool} (hb : bits.length = bits'.length) (data : List (List Nat))
    {us us' : List VOp} (hu : us.map VOp.erase = us'.map VOp.erase) {post post' : List BOp} (hp : post.map BOp.erase = post'.map BOp.erase) :
    OBoth (fun a b => a.1.map MOp.erase = b.1.map MOp.erase ∧ a.2.map BOp.erase = b.2.map BOp.erase) (roProg lib c bits data us post)
      (roProg lib c bits' data us' post') := by
  refine OBoth.bind (vInit_both c data 0 ⟨hb, congrArg List.range hb, rfl, rfl, rfl, rfl, rfl, rfl⟩) (fun a b hab =>
    OBoth.bind (vGens_both lib c hu hab.2) (fun x y hxy => OBoth.bind (vBools_both hp hxy.2) (fun p q hpq => OBoth.some ⟨?_, hpq⟩)))
  simp only [List.map_append, hab.1, hxy.1]

/-! ### `ZkRamExt` -/

/-- Equal up to values. -/
structure XSame (g g' : XNet) : Prop where
  bits : g.bits.length = g'.bits.length
  nf : g.nf = g'.nf
  step : g.st.step = g'.st.step
  macs : g.macs = g'.macs

theorem words_len (w : Nat) (l : List Nat) : (l.flatMap (bitsOf w)).length = l.length * w := flat_len (fun x => by simp [bitsOf]) l

theorem xGen_both (c : RxCfg) {g g' : XNet} (h : XSame g g') {u u' : XOp} (hu : u.erase = u'.erase) :
    OBoth (fun a b => a.1.map MOp.erase = b.1.map MOp.erase ∧ XSame a.2 b.2) (xGen c g u) (xGen c g' u') := by
  cases u with
  | bool o =>
    cases u' <;> simp only [XOp.erase, reduceCtorEq, XOp.bool.injEq] at hu
    exact (plainStep_both h.bits hu).bind (fun _ _ hab => OBoth.some ⟨by simp [MOp.erase, hu], hab, h.nf, h.step, h.macs⟩)
  | read ix =>
    cases u' <;> simp only [XOp.erase, reduceCtorEq, XOp.read.injEq] at hu
    subst hu
    refine (OBoth.any _ _).bind (fun ib ib' _ => OBoth.bind (R := fun a b => a.1.step = b.1.step ∧ a.2.length = b.2.length) ?_
      (fun a b hab => ?_))
    · intro a b ha hb
      simp only [extRead, Option.bind_eq_bind, Option.bind_eq_some_iff] at ha hb
      obtain ⟨_, _, _, _, v, hv, ha⟩ := ha
      obtain ⟨_, _, _, _, v', hv', hb⟩ := hb
      cases ha
      cases hb
      exact ⟨by simp [h.step], (rangeRows_len hv).trans (rangeRows_len hv').symm⟩
    · obtain ⟨ra, va⟩ := a
      obtain ⟨rb, vb⟩ := b
      simp only [h.bits, h.step, h.nf, h.macs]
      exact (OBoth.same _).bind (fun ws _ hw => OBoth.some ⟨by subst hw; simp only [List.map_append, inInts_erase 64 hab.2],
        by
          subst hw
          have := hab.2
          simp only at this
          simp [h.bits, bitsOf, this], by rw [hw], hab.1, by rw [hw]⟩)
  | write ix vs =>
    cases u' <;> simp only [XOp.erase, reduceCtorEq, XOp.write.injEq] at hu
    obtain ⟨rfl, rfl⟩ := hu
    refine (OBoth.any _ _).bind (fun ib ib' _ => (OBoth.any _ _).bind (fun vb vb' _ => OBoth.bind (R := fun a b => a.step = b.step) ?_
      (fun a b hab => ?_)))
    · exact (OBoth.any _ _).bind (fun _ _ _ => (OBoth.any _ _).bind (fun _ _ _ => (OBoth.any _ _).bind (fun _ _ _ => OBoth.some (by
        simp [h.step]))))
    · simp only [h.bits, h.step, h.nf, h.macs]
      exact (OBoth.same _).bind (fun ws _ hw => OBoth.some ⟨by subst hw; rfl, by simp [h.bits, bitsOf], by rw [hw], hab, by rw [hw]⟩)

theorem xGens_both (c : RxCfg) : ∀ {us us' : List XOp} {g g' : XNet}, us.map XOp.erase = us'.map XOp.erase → XSame g g' →
    OBoth (fun a b => a.1.map MOp.erase = b.1.map MOp.erase ∧ XSame a.2 b.2) (xGens c g us) (xGens c g' us') := by
  intro us
  induction us with
  | nil =>
    intro us' g g' hu h
    cases us' with
    | nil => exact OBoth.some ⟨rfl, h⟩
    | cons u us' => simp at hu
  | cons u us ih =>
    intro us' g g' hu h
    cases us' with
    | nil => simp at hu
    | cons u' us' =>
      simp only [List.map_cons, List.cons.injEq] at hu
      exact (xGen_both c h hu.1).bind (fun a b hab => (ih hu.2 hab.2).bind (fun x y hxy => OBoth.some ⟨by
        simp only [List.map_append, hab.1, hxy.1], hxy.2⟩))

theorem extUnpackLoop_both (r r' : List Nat) (n : Nat) (d : Bool) : ∀ (fuel j : Nat),
    OBoth (fun a b => a.length = b.length) (extUnpackLoop r n d fuel j) (extUnpackLoop r' n d fuel j) := by
  intro fuel
  induction fuel with
  | zero => intro j; exact OBoth.left
  | succ fuel ih =>
    intro j
    unfold extUnpackLoop
    refine OBoth.ite Iff.rfl ?_ ?_
    · refine (OBoth.any _ _).bind (fun _ _ _ => OBoth.ite Iff.rfl ?_ OBoth.left)
      exact (ih (j + 2)).bind (fun a b hab => OBoth.some (by simp [hab]))
    · refine (OBoth.any _ _).bind (fun _ _ _ => OBoth.ite Iff.rfl ?_ ?_)
      · exact OBoth.ite Iff.rfl (OBoth.some rfl) OBoth.left
      · exact OBoth.ite Iff.rfl (OBoth.some rfl) OBoth.left

theorem extUnpack_both (c : RxCfg) (r r' : List Nat) : OBoth (fun a b => a.val.length = b.val.length) (extUnpack c r) (extUnpack c r') :=
  (OBoth.any _ _).bind (fun _ _ _ => (extUnpackLoop_both r r' _ _ _ _).bind (fun a b hab => OBoth.some (by simp [hab])))

theorem xRowBits_both (c : RxCfg) (f f' : Nat → Option (List Nat)) : ∀ l : List Nat,
    OBoth (fun a b => (a.flatMap (xRowBits c)).length = (b.flatMap (xRowBits c)).length) (l.mapM (fun i => (f i).bind (extUnpack c)))
      (l.mapM (fun i => (f' i).bind (extUnpack c))) := by
  intro l
  induction l with
  | nil => exact OBoth.some rfl
  | cons i l ih =>
    rw [List.mapM_cons, List.mapM_cons]
    refine OBoth.bind (R := fun a b => a.val.length = b.val.length) ((OBoth.any (f i) (f' i)).bind (fun _ _ _ => extUnpack_both c _ _))
      (fun a b hab => ih.bind (fun x y hxy => OBoth.some ?_))
    simp only [List.flatMap_cons, List.length_append, hxy, xRowBits, words_len, hab, List.length_cons, bitsOf, List.length_map,
      List.length_range]

theorem xCheckGen_both (lib : CmpLib) (c : RxCfg) {g g' : XNet} (h : XSame g g') :
    OBoth (fun a b => a.map MOp.erase = b.map MOp.erase) (xCheckGen lib c g) (xCheckGen lib c g') := by
  refine OBoth.bind (R := fun a b => (a.2.rows.flatMap (xRowBits c)).length = (b.2.rows.flatMap (xRowBits c)).length) ?_ (fun a b hab => ?_)
  · unfold extCheck
    simp only [h.step]
    exact (xRowBits_both c _ _ _).bind (fun _ _ hr => (OBoth.any _ _).bind (fun _ _ _ => OBoth.some hr))
  · obtain ⟨_, ca⟩ := a
    obtain ⟨_, cb⟩ := b
    simp only [h.bits, h.step, h.nf, h.macs]
    refine (OBoth.same _).bind (fun q _ hq => ?_)
    subst hq
    by_cases h1 : ca.cond = false
    · rw [if_pos h1]
      exact OBoth.left
    by_cases h2 : cb.cond = false
    · rw [if_pos h2]
      exact OBoth.right
    rw [if_neg h1, if_neg h2]
    refine (OBoth.same _).bind (fun packs _ hp => (OBoth.same _).bind (fun la _ hla => (OBoth.same _).bind (fun lb _ hlb =>
      (OBoth.same _).bind (fun se _ hs => OBoth.some ?_))))
    subst hp
    subst hla
    subst hlb
    subst hs
    simp only [List.map_append, inputs_erase hab]

/-- Whole programs with a memory of several words per cell. -/
theorem extGen_both (lib : CmpLib) (c : RxCfg) {bits bits' : List Bool} (hb : bits.length = bits'.length) {us us' : List XOp}
    (hu : us.map XOp.erase = us'.map XOp.erase) :
    OBoth (fun a b => a.map MOp.erase = b.map MOp.erase) (extGen lib c bits us) (extGen lib c bits' us') := by
  refine OBoth.bind (xGens_both c hu ⟨hb, rfl, rfl, rfl⟩) (fun a b hab => OBoth.bind (xCheckGen_both lib c hab.2) (fun x y hxy =>
    OBoth.some ?_))
  simp only [List.map_append, hab.1, hxy]

end EmpZk
