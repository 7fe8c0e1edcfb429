/-
What the committed values of a mixed session satisfy when all products, gates and openings among them are right.
-/
import Verif.Lemmas.MixFollow
import Verif.Lemmas.BoolExtract

namespace EmpZk

section
variable {F : Type} [Field F] [BlockField F] [DecidableEq F]
variable {ne : NetEnv F} {me : MixEnv F} {v : BView F}

omit [Field F] [BlockField F] [DecidableEq F] in
theorem RProg.All.optBind {α β : Type} {Q : β → Prop} {x : Option α} {f : α → RProg β} (h : ∀ a, x = some a → (f a).All Q) :
    ((RProg.ofOpt x).bind f).All Q := (RProg.All.ofOpt (Q := fun a => x = some a) (fun _ h => h)).bind h

/-! ### boolean part -/

/-- If the second state is faithful, so is the first, and it comes from it by the plain computation on some inputs. -/
def BPost (c : ComSt F) (os : List BOp) (c' : ComSt F) : Prop :=
  Faithful c' → Faithful c ∧ ∃ os', List.Forall₂ BOp.same os os' ∧ os'.foldlM plainStep c.plain = some c'.plain

/-- The same gates, openings, plain values and labels. -/
def BEq (c r : ComSt F) : Prop := r.allGates = c.allGates ∧ r.opened = c.opened ∧ r.plain = c.plain ∧ r.wires = c.wires

omit [DecidableEq F] in
theorem BEq.faithful {c r : ComSt F} (h : BEq c r) (hf : Faithful r) : Faithful c :=
  ⟨by rw [← h.1]; exact hf.gates, by rw [← h.2.1]; exact hf.opened⟩

omit [DecidableEq F] in
theorem BEq.faithful' {c r : ComSt F} (h : BEq c r) (hf : Faithful c) : Faithful r :=
  ⟨by rw [h.1]; exact hf.gates, by rw [h.2.1]; exact hf.opened⟩

omit [DecidableEq F] in
theorem BEq.trans {a b c : ComSt F} (h : BEq a b) (k : BEq b c) : BEq a c :=
  ⟨k.1.trans h.1, k.2.1.trans h.2.1, k.2.2.1.trans h.2.2.1, k.2.2.2.trans h.2.2.2⟩

omit [DecidableEq F] in
theorem andCheck_all (c : ComSt F) : (andCheckC ne v c).All (fun r => BEq c r ∧ r.gates = [] ∧ r.polys = c.polys) := by
  intro _ dg
  refine (RProg.All.calls _).bind (fun _ _ => ?_)
  intro _ bs _ _
  exact ⟨⟨by simp [ComSt.allGates, comAndCheck], rfl, rfl, rfl⟩, rfl, rfl⟩

omit [DecidableEq F] in
theorem polyCheck_all (c : ComSt F) : (polyCheckC ne v c).All (fun r => BEq c r ∧ r.polys = [] ∧ r.gates = c.gates) := by
  intro _ _
  refine (RProg.All.calls _).bind (fun _ _ => ?_)
  intro _ bs
  exact ⟨⟨rfl, rfl, by simp [ComSt.plain, comPolyCheck, ComSt.stmts], rfl⟩, rfl, rfl⟩

omit [DecidableEq F] in
theorem andRoom_all (c : ComSt F) : (andRoomC ne v c).All (BEq c) := by
  unfold andRoomC
  split
  · exact (andCheck_all c).mono (fun _ h => h.1)
  · exact ⟨rfl, rfl, rfl, rfl⟩

omit [DecidableEq F] in
theorem polyRoom_all (c : ComSt F) : (polyRoomC ne v c).All (BEq c) := by
  unfold polyRoomC
  split
  · exact (polyCheck_all c).mono (fun _ h => h.1)
  · exact ⟨rfl, rfl, rfl, rfl⟩

omit [DecidableEq F] in
theorem bpost_step {c s c' : ComSt F} (he : BEq c s) {m : BMsg F} {o : BOp} (h : comStep v s m o = some c') : BPost c [o] c' := by
  intro hf
  have h1 := comStep_mono h hf
  obtain ⟨o', k1, k2⟩ := comStep_plain h hf
  refine ⟨he.faithful h1, [o'], .cons k1 .nil, ?_⟩
  rw [he.2.2.1] at k2
  simp [List.foldlM_cons, k2]

omit [DecidableEq F] in
theorem bop_all (c : ComSt F) (o : BOp) : (bopC ne v c o).All (BPost c [o]) := by
  have h0 : BEq c c := ⟨rfl, rfl, rfl, rfl⟩
  cases o with
  | input b => exact (RProg.All.calls _).bind (fun _ _ _ _ => RProg.All.ofOpt (fun c' h => bpost_step h0 h))
  | pub b => exact RProg.All.ofOpt (fun c' h => bpost_step h0 (m := ⟨false, 0, 0⟩) h)
  | xor i j => exact RProg.All.ofOpt (fun c' h => bpost_step h0 (m := ⟨false, 0, 0⟩) h)
  | not i => exact RProg.All.ofOpt (fun c' h => bpost_step h0 (m := ⟨false, 0, 0⟩) h)
  | reveal i => exact fun _ _ => RProg.All.ofOpt (fun c' h => bpost_step h0 h)
  | and i j =>
    refine RProg.All.optBind (fun a ha => RProg.All.optBind (fun b hb => (andRoom_all c).bind (fun s hs =>
      (RProg.All.calls _).bind (fun _ _ d _ => RProg.All.ofOpt (fun c' h => ?_)))))
    refine bpost_step (v := v) hs (m := ⟨d, 0, 0⟩) ?_
    have hl : s.gates.length < v.checkSz := by
      unfold comAndPush at h
      split at h
      · assumption
      · simp at h
    simp only [comStep, hs.2.2.2, ha, hb, comAndRoom, Option.bind_eq_bind, Option.bind_some]
    rw [if_neg (by omega), Option.bind_some]
    exact h
  | poly p =>
    refine RProg.All.optBind (fun q hq => (polyRoom_all c).bind (fun s hs => RProg.All.ofOpt (fun c' h => ?_)))
    refine bpost_step (v := v) hs (m := ⟨false, 0, 0⟩) ?_
    have hl : s.polys.length < v.polySz := by
      unfold comPolyPush at h
      split at h
      · assumption
      · simp at h
    simp only [comStep, hs.2.2.2, hq, comPolyRoom, Option.bind_eq_bind, Option.bind_some]
    rw [if_neg (by omega)]
    exact h

omit [DecidableEq F] in
theorem bops_all (os : List BOp) : ∀ c : ComSt F, (bopsC ne v c os).All (BPost c os) := by
  induction os with
  | nil => intro c hf; exact ⟨hf, [], .nil, rfl⟩
  | cons o os ih =>
    intro c
    refine (bop_all c o).bind (fun c1 h1 => (ih c1).mono (fun c2 h2 hf => ?_))
    obtain ⟨f1, os', k1, k2⟩ := h2 hf
    obtain ⟨f0, o', l1, l2⟩ := h1 f1
    refine ⟨f0, o' ++ os', List.rel_append (R := BOp.same) l1 k1, ?_⟩
    rw [List.foldlM_append, l2]
    exact k2

omit [DecidableEq F] in
/-- Inputs change nothing but the labels. -/
theorem inputs_all (bs : List Bool) : ∀ c : ComSt F, (bopsC ne v c (bs.map BOp.input)).All (fun r => r.allGates = c.allGates ∧
    r.opened = c.opened ∧ r.stmts = c.stmts) := by
  induction bs with
  | nil => intro c; exact ⟨rfl, rfl, rfl⟩
  | cons b bs ih =>
    intro c
    refine RProg.All.bind (Q := fun r => r.allGates = c.allGates ∧ r.opened = c.opened ∧ r.stmts = c.stmts) ?_ (fun c1 h1 => (ih c1).mono (fun c2 h2 => ?_))
    · refine (RProg.All.calls _).bind (fun _ _ _ _ => RProg.All.ofOpt (fun c' h => ?_))
      simp only [comStep, Option.some.injEq] at h
      subst h
      exact ⟨rfl, rfl, rfl⟩
    · exact ⟨h2.1.trans h1.1, h2.2.1.trans h1.2.1, h2.2.2.trans h1.2.2⟩

omit [DecidableEq F] in
theorem bfin_all (c : ComSt F) : (bfinC ne v c).All (fun r => BEq c r.1 ∧ r.1.gates = [] ∧ r.1.polys = []) := by
  unfold bfinC
  refine RProg.All.bind (Q := fun s => BEq c s ∧ s.polys = []) ?_ (fun s1 h1 => RProg.All.bind (Q := fun s => BEq c s ∧ s.gates = [] ∧ s.polys = []) ?_ (fun s2 h2 => fun _ bs => h2))
  · split
    · exact (polyCheck_all c).mono (fun _ h => ⟨h.1, h.2.1⟩)
    · rename_i h; exact ⟨⟨rfl, rfl, rfl, rfl⟩, not_not.1 h⟩
  · split
    · exact (andCheck_all s1).mono (fun _ h => ⟨h1.1.trans h.1, h.2.1, h.2.2.trans h1.2⟩)
    · rename_i h; exact ⟨h1.1, not_not.1 h, h1.2⟩

/-! ### products -/

/-- The products of two blocks so far. -/
def MCom.mulGates (C : MCom F) : List ((F × F) × (F × F) × (F × F)) := C.muls.flatMap MulRec.gates ++ C.buf.pending

/-- The products of three to five blocks so far. -/
def MCom.prdGates (C : MCom F) : List (PGate F) := C.prds.flatMap PrdRec.gates ++ C.polys

/-- The plain values behind a committed state. -/
def MCom.plain (C : MCom F) : MPlain F := ⟨C.b.plain, C.fw.map Prod.fst, C.rs⟩

/-- Gates, openings, products and comparisons are right. -/
structure MFaith (C : MCom F) : Prop where
  b : Faithful C.b
  muls : ∀ g ∈ C.mulGates, MulOk g
  prds : ∀ g ∈ C.prdGates, g.Ok
  eqs : ∀ e ∈ C.eqs, e.1.1 = e.2.1.1

/-- The same as far as faith goes. -/
structure MEq (C R : MCom F) : Prop where
  b : BEq C.b R.b
  fw : R.fw = C.fw
  rs : R.rs = C.rs
  muls : R.mulGates = C.mulGates
  prds : R.prdGates = C.prdGates
  eqs : R.eqs = C.eqs

omit [DecidableEq F] in
theorem MEq.rfl' (C : MCom F) : MEq C C := ⟨⟨rfl, rfl, rfl, rfl⟩, rfl, rfl, rfl, rfl, rfl⟩

omit [DecidableEq F] in
theorem MEq.trans {a b c : MCom F} (h : MEq a b) (k : MEq b c) : MEq a c :=
  ⟨h.b.trans k.b, k.fw.trans h.fw, k.rs.trans h.rs, k.muls.trans h.muls, k.prds.trans h.prds, k.eqs.trans h.eqs⟩

omit [DecidableEq F] in
theorem MEq.plain {C R : MCom F} (h : MEq C R) : R.plain = C.plain := by
  unfold MCom.plain
  rw [h.b.2.2.1, h.fw, h.rs]

/-- What instructions do to a committed state. -/
structure MPost (sz : Nat) (C : MCom F) (os : List MOp) (C' : MCom F) : Prop where
  pre : C.rs <+: C'.rs
  inv : C'.buf.Inv sz
  five : (∀ g ∈ C.prdGates, g.ins.length = 5) → ∀ g ∈ C'.prdGates, g.ins.length = 5
  back : MFaith C' → MFaith C ∧ ∃ os', List.Forall₂ MOp.same os os' ∧ ∀ ch, Begins ch C'.rs → mplainOps ch C.plain os' = some C'.plain

theorem mpost_one {sz : Nat} {C C' : MCom F} {o : MOp} (hs : MOp.same o o) (pre : C.rs <+: C'.rs) (inv : C'.buf.Inv sz)
    (five : (∀ g ∈ C.prdGates, g.ins.length = 5) → ∀ g ∈ C'.prdGates, g.ins.length = 5)
    (back : MFaith C' → MFaith C ∧ ∀ ch, Begins ch C'.rs → mplainStep ch C.plain o = some C'.plain) : MPost sz C [o] C' := by
  refine ⟨pre, inv, five, fun hf => ?_⟩
  obtain ⟨h1, h2⟩ := back hf
  refine ⟨h1, [o], .cons hs .nil, fun ch hb => ?_⟩
  rw [mplainOps_cons, h2 ch hb]
  rfl

theorem mpost_push {C : MCom F} (hi : C.buf.Inv me.sz) {o : MOp} (hs : MOp.same o o) {x m : F}
    (h : ∀ ch, mplainStep ch C.plain o = some { C.plain with fs := C.plain.fs ++ [x] }) :
    MPost me.sz C [o] { C with fw := C.fw ++ [(x, m)] } := by
  refine mpost_one hs (List.prefix_refl _) hi (fun h => h) (fun hf => ⟨⟨hf.b, hf.muls, hf.prds, hf.eqs⟩, fun ch _ => ?_⟩)
  rw [h ch]
  simp [MCom.plain]

omit [DecidableEq F] in
theorem f2kCheck_all {C : MCom F} (hi : C.buf.Inv me.sz) : (f2kCheckC me C).All (fun R => R.buf = ⟨[], [], C.buf.auth, C.buf.cnt⟩ ∧
    (∀ buf : F2kBuf (F × F), buf.left = [] → MEq C { R with buf := buf }) ∧ R.fills = C.fills ∧ R.polys = C.polys) := by
  unfold f2kCheckC
  intro _ _ _ dg
  rw [hi.batch_eq]
  refine (RProg.All.calls _).bind (fun _ _ => ?_)
  intro _ bs _ _
  refine ⟨rfl, fun buf hb => ⟨⟨rfl, rfl, rfl, rfl⟩, rfl, rfl, ?_, rfl, rfl⟩, rfl, rfl⟩
  simp [MCom.mulGates, F2kBuf.pending, hb]

omit [DecidableEq F] in
theorem f2kSpace_all (hroom : ∀ k, me.sz ≤ (me.auth k).length) (hsz : 0 < me.sz) {C : MCom F} (hi : C.buf.Inv me.sz) :
    ((f2kRoomC me C).bind (f2kFillC me)).All (fun R => MEq C R ∧ R.buf.Inv me.sz ∧ R.buf.cnt < me.sz) := by
  have hi' := hi
  obtain ⟨i1, i2, i3, i4⟩ := hi
  unfold f2kRoomC
  by_cases hc : C.buf.left.length = me.sz
  · rw [if_pos hc]
    refine (f2kCheck_all hi').bind (fun R hR => ?_)
    unfold f2kFillC
    rw [if_pos (show R.buf.cnt = me.sz by rw [hR.1]; exact i1.symm.trans hc)]
    refine (RProg.All.calls _).bind (fun _ _ => ?_)
    have := hR.2.1 ⟨[], [], me.auth R.fills, 0⟩ rfl
    obtain ⟨hb, hfw, hrs, hm, hp, he⟩ := this
    refine ⟨⟨hb, hfw, hrs, ?_, hp, he⟩, ?_, hsz⟩
    · rw [← hm]
      simp [MCom.mulGates, F2kBuf.pending]
    · show F2kBuf.Inv me.sz ⟨R.buf.left, R.buf.rght, _, 0⟩
      rw [hR.1]
      exact ⟨rfl, rfl, Nat.zero_le _, hroom _⟩
  · rw [if_neg hc]
    simp only [RProg.bind]
    unfold f2kFillC
    rw [if_neg (by rw [← i1]; exact hc)]
    exact ⟨MEq.rfl' C, hi', by omega⟩

theorem f2kMul_all (hroom : ∀ k, me.sz ≤ (me.auth k).length) (hsz : 0 < me.sz) {C : MCom F} (hi : C.buf.Inv me.sz) {i j : Nat} {a b : F × F}
    (ha : C.fw[i]? = some a) (hb : C.fw[j]? = some b) : (f2kMulC me C a b).All (MPost me.sz C [.mul i j]) := by
  have h : f2kMulC me C a b = ((f2kRoomC me C).bind (f2kFillC me)).bind (fun s2 =>
    .call (.data 16) (fun _ bs =>
      (RProg.ofOpt (if s2.buf.left.length < me.sz then s2.buf.auth[s2.buf.cnt]? else none)).bind (fun au =>
        .done { s2 with fw := s2.fw ++ [(au.1 + me.ne.dec bs, au.2)],
                        buf := ⟨s2.buf.left ++ [a], s2.buf.rght ++ [b], s2.buf.auth.set s2.buf.cnt (au.1 + me.ne.dec bs, au.2),
                                s2.buf.cnt + 1⟩ }))) := by
    rw [RProg.bind_assoc]; rfl
  rw [h]
  refine (f2kSpace_all hroom hsz hi).bind (fun R hR => ?_)
  intro _ bs
  refine RProg.All.optBind (fun au hau => ?_)
  obtain ⟨hE, hI, hc⟩ := hR
  have hmg : MCom.mulGates { R with fw := R.fw ++ [(au.1 + me.ne.dec bs, au.2)], buf := ⟨R.buf.left ++ [a], R.buf.rght ++ [b], R.buf.auth.set R.buf.cnt (au.1 + me.ne.dec bs, au.2), R.buf.cnt + 1⟩ } = C.mulGates ++ [(a, b, (au.1 + me.ne.dec bs, au.2))] := by
    rw [← hE.muls]
    simp only [MCom.mulGates]
    rw [pending_push hI hc, List.append_assoc]
  refine mpost_one rfl (by rw [← hE.rs]) ?_ ?_ (fun hf => ⟨⟨hE.b.faithful hf.b, ?_, ?_, ?_⟩, fun ch _ => ?_⟩)
  · obtain ⟨i1, i2, i3, i4⟩ := hI
    exact ⟨by simp; omega, by simp; omega, hc, by simpa using i4⟩
  · intro h5
    have : ∀ g ∈ R.prdGates, g.ins.length = 5 := by rw [hE.prds]; exact h5
    exact this
  · intro g hg
    exact hf.muls g (by rw [hmg]; exact List.mem_append_left _ hg)
  · intro g hg
    rw [← hE.prds] at hg
    exact hf.prds g hg
  · intro e he
    rw [← hE.eqs] at he
    exact hf.eqs e he
  · have hok : au.1 + me.ne.dec bs = a.1 * b.1 := hf.muls (a, b, (au.1 + me.ne.dec bs, au.2)) (by rw [hmg]; simp)
    simp only [mplainStep, MCom.plain, List.getElem?_map, ha, hb, Option.map_some, Option.bind_eq_bind, Option.bind_some, List.map_append,
      List.map_cons, List.map_nil, hok, hE.fw, hE.rs, hE.b.2.2.1]

omit [DecidableEq F] in
theorem prdtCheck_all (C : MCom F) : (prdtCheckC me C).All (fun R => MEq C R ∧ R.buf = C.buf ∧ R.polys = []) := by
  intro _ _ _ dg _ bs
  refine ⟨⟨⟨rfl, rfl, rfl, rfl⟩, rfl, rfl, rfl, ?_, rfl⟩, rfl, rfl⟩
  simp [MCom.prdGates]

omit [DecidableEq F] in
theorem prdtRoom_all (C : MCom F) : (prdtRoomC me C).All (fun R => MEq C R ∧ R.buf = C.buf) := by
  unfold prdtRoomC
  split
  · exact (prdtCheck_all C).mono (fun _ h => ⟨h.1, h.2.1⟩)
  · exact ⟨MEq.rfl' C, rfl⟩

theorem f2kMulN_all {C : MCom F} (hi : C.buf.Inv me.sz) {is : List Nat} {xs : List (F × F)} (hx : pick C.fw is = some xs) (h5 : is.length = 5) :
    (f2kMulNC me v C xs).All (MPost me.sz C [.mulN is]) := by
  unfold f2kMulNC
  refine (inputs_all _ C.b).bind (fun b1 h1 => RProg.All.optBind (fun m hm => ?_))
  have hE0 : MEq C { C with b := { b1 with wires := C.b.wires } } := by
    refine ⟨⟨h1.1, h1.2.1, ?_, rfl⟩, rfl, rfl, rfl, rfl, rfl⟩
    simp only [ComSt.plain, ComSt.stmts] at h1 ⊢
    rw [h1.2.1, h1.2.2]
  refine (prdtRoom_all _).bind (fun R hR => ?_)
  have hE := hE0.trans hR.1
  generalize hcm : mulCom (b1.wires.drop C.b.wires.length) m = c
  have hpg : MCom.prdGates { R with fw := R.fw ++ [c], polys := R.polys ++ [⟨xs, c⟩] } = C.prdGates ++ [⟨xs, c⟩] := by
    rw [← hE.prds]
    simp only [MCom.prdGates, List.append_assoc]
  have hxl : xs.length = 5 := by rw [pick_length hx, h5]
  show MPost me.sz C [.mulN is] { R with fw := R.fw ++ [c], polys := R.polys ++ [⟨xs, c⟩] }
  refine mpost_one rfl (by rw [← hE.rs]) (by show R.buf.Inv me.sz; rw [hR.2]; exact hi) ?_ (fun hf => ⟨⟨hE.b.faithful hf.b, ?_, ?_, ?_⟩, fun ch _ => ?_⟩)
  · intro h g hg
    rw [hpg] at hg
    rcases List.mem_append.1 hg with hg | hg
    · exact h g hg
    · rw [List.mem_singleton] at hg; subst hg; exact hxl
  · intro g hg
    rw [← hE.muls] at hg
    exact hf.muls g hg
  · intro g hg
    exact hf.prds g (by rw [hpg]; exact List.mem_append_left _ hg)
  · intro e he
    rw [← hE.eqs] at he
    exact hf.eqs e he
  · have hok : c.1 = (xs.map Prod.fst).prod := hf.prds ⟨xs, c⟩ (by rw [hpg]; simp)
    simp only [mplainStep, MCom.plain, pick_map_eq, hx, Option.map_some, Option.bind_eq_bind, Option.bind_some, List.map_append,
      List.map_cons, List.map_nil, hok, hE.fw, hE.rs, hE.b.2.2.1]
    rw [if_pos (by omega)]

theorem mop_all (hroom : ∀ k, me.sz ≤ (me.auth k).length) (hsz : 0 < me.sz) {C : MCom F} (hi : C.buf.Inv me.sz) {o : MOp}
    (h5 : ∀ is, o = .mulN is → is.length = 5) : (mopC me v C o).All (MPost me.sz C [o]) := by
  cases o with
  | bool o =>
    refine (bop_all C.b o).bind (fun b hb => ?_)
    refine ⟨List.prefix_refl _, hi, fun h => h, fun hf => ?_⟩
    obtain ⟨f, os', k1, k2⟩ := hb hf.b
    obtain ⟨o', os'', k3, k4, rfl⟩ := List.forall₂_cons_left_iff.1 k1
    rw [List.forall₂_nil_left_iff] at k4
    subst k4
    refine ⟨⟨f, hf.muls, hf.prds, hf.eqs⟩, [.bool o'], .cons k3 .nil, fun ch _ => ?_⟩
    have k2' : plainStep C.b.plain o' = some b.plain := by simpa [List.foldlM_cons] using k2
    rw [mplainOps_cons]
    simp only [mplainStep, MCom.plain, k2', Option.map_some, Option.bind_some]
    rfl
  | pack ws =>
    refine RProg.All.optBind (fun ls hls => RProg.All.optBind (fun m hm => ?_))
    refine mpost_push hi (o := .pack ws) rfl (fun ch => ?_)
    have hl : ls.length ≤ 128 := by
      unfold innBase at hm
      split at hm
      · omega
      · cases hm
    rw [pick_length hls] at hl
    simp only [mplainStep, MCom.plain, ComSt.plain, pick_map_eq, hls, Option.map_some, Option.bind_eq_bind, Option.bind_some]
    rw [if_pos hl]
  | chal =>
    intro _ dg
    refine mpost_one rfl ⟨_, rfl⟩ hi (fun h => h) (fun hf => ⟨⟨hf.b, hf.muls, hf.prds, hf.eqs⟩, fun ch hb => ?_⟩)
    have := hb C.rs.length (me.blk dg) (by simp)
    simp only [mplainStep, MCom.plain, this]
  | addc i k =>
    refine RProg.All.optBind (fun x hx => RProg.All.optBind (fun r hr => ?_))
    refine mpost_push hi (o := .addc i k) rfl (fun ch => ?_)
    simp only [mplainStep, MCom.plain, List.getElem?_map, hx, hr, Option.map_some, Option.bind_eq_bind, Option.bind_some]
  | mul i j => exact RProg.All.optBind (fun a ha => RProg.All.optBind (fun b hb => f2kMul_all hroom hsz hi ha hb))
  | mulN is => exact RProg.All.optBind (fun xs hx => f2kMulN_all hi hx (h5 is rfl))
  | eq i j =>
    refine RProg.All.optBind (fun a ha => RProg.All.optBind (fun b hb => fun _ bs => ?_))
    refine mpost_one rfl (List.prefix_refl _) hi (fun h => h) (fun hf => ⟨⟨hf.b, hf.muls, hf.prds, ?_⟩, fun ch _ => ?_⟩)
    · intro e he
      exact hf.eqs e (List.mem_append_left _ he)
    · have : a.1 = b.1 := hf.eqs (a, b, me.ne.dec2 bs) (List.mem_append_right _ (by simp))
      simp only [mplainStep, MCom.plain, List.getElem?_map, ha, hb, Option.map_some, Option.bind_eq_bind, Option.bind_some]
      rw [if_pos this]
  | sync =>
    intro _ _
    exact mpost_one rfl (List.prefix_refl _) hi (fun h => h) (fun hf => ⟨hf, fun ch _ => rfl⟩)
  | packAt ps =>
    refine RProg.All.optBind (fun m hm => RProg.All.optBind (fun x hx => mpost_push hi (o := .packAt ps) rfl (fun ch => ?_)))
    simp only [mplainStep, MCom.plain, ComSt.plain, hx, Option.bind_eq_bind, Option.bind_some]
  | chals n =>
    intro _ dg
    refine mpost_one rfl ⟨_, rfl⟩ hi (fun h => h) (fun hf => ⟨⟨hf.b, hf.muls, hf.prds, hf.eqs⟩, fun ch hb => ?_⟩)
    have : (List.range n).map (fun i => ch (C.rs.length + i)) = (List.range n).map (me.prg (me.blk dg)) := by
      refine List.map_congr_left (fun i hin => ?_)
      refine hb _ _ ?_
      rw [List.getElem?_append_right (by omega), Nat.add_sub_cancel_left]
      simp [List.mem_range.1 hin]
    simp only [mplainStep, MCom.plain, this]
  | lin l =>
    refine RProg.All.optBind (fun x hx => RProg.All.optBind (fun m hm => mpost_push hi (o := .lin l) rfl (fun ch => ?_)))
    have : linVal C.plain l = some x := by rw [linVal_eq]; exact hx
    simp only [mplainStep, this, Option.bind_eq_bind, Option.bind_some]

omit [Field F] [BlockField F] [DecidableEq F] in
theorem Begins.prefix {ch : Nat → F} {a b : List F} (h : Begins ch b) (hp : a <+: b) : Begins ch a := by
  intro i r hi
  obtain ⟨t, rfl⟩ := hp
  exact h i r (by rw [List.getElem?_append_left (List.getElem?_eq_some_iff.1 hi).1]; exact hi)

theorem mops_all (hroom : ∀ k, me.sz ≤ (me.auth k).length) (hsz : 0 < me.sz) (os : List MOp) : ∀ {C : MCom F}, C.buf.Inv me.sz →
    (∀ is, .mulN is ∈ os → is.length = 5) → (mopsC me v C os).All (MPost me.sz C os) := by
  induction os with
  | nil => intro C hi _; exact ⟨List.prefix_refl _, hi, fun h => h, fun hf => ⟨hf, [], .nil, fun _ _ => rfl⟩⟩
  | cons o os ih =>
    intro C hi h5
    refine (mop_all hroom hsz hi (fun is he => h5 is (by simp [he]))).bind (fun C1 h1 =>
      (ih h1.inv (fun is hm => h5 is (by simp [hm]))).mono (fun C2 h2 => ⟨h1.pre.trans h2.pre, h2.inv, fun h => h2.five (h1.five h), fun hf => ?_⟩))
    obtain ⟨f1, os', k1, k2⟩ := h2.back hf
    obtain ⟨f0, o', l1, l2⟩ := h1.back f1
    refine ⟨f0, o' ++ os', List.rel_append (R := MOp.same) l1 k1, fun ch hb => ?_⟩
    have e1 := l2 ch (hb.prefix h2.pre)
    have e2 := k2 ch hb
    unfold mplainOps at e1 e2 ⊢
    rw [List.foldlM_append, e1]
    exact e2

omit [DecidableEq F] in
theorem f2kDel_all {C : MCom F} (hi : C.buf.Inv me.sz) : (f2kDelC me C).All (fun R => MEq C R ∧ R.polys = [] ∧ R.buf.left = []) := by
  unfold f2kDelC
  refine RProg.All.bind (Q := fun R => MEq C R ∧ R.buf = C.buf ∧ R.polys = []) ?_ (fun R hR => ?_)
  · split
    · exact prdtCheck_all C
    · rename_i h; exact ⟨MEq.rfl' C, rfl, not_not.1 h⟩
  · split
    · refine (f2kCheck_all (by rw [hR.2.1]; exact hi)).mono (fun R' h => ⟨hR.1.trans ?_, h.2.2.2.trans hR.2.2, by rw [h.1]⟩)
      have := h.2.1 R'.buf (by rw [h.1])
      exact this
    · rename_i h; exact ⟨hR.1, hR.2.2, not_not.1 h⟩

/-- A whole session on committed values. -/
theorem mixC_all (hroom : ∀ k, me.sz ≤ (me.auth k).length) (hsz : 0 < me.sz) (pre : List BOp) (ops : List MOp) (post : List BOp)
    (h5 : ∀ is, MOp.mulN is ∈ ops → is.length = 5) : (mixCommit me v pre ops post).All (fun r =>
      r.1.b.gates = [] ∧ r.1.b.polys = [] ∧ (∀ p ∈ r.1.prds, ∀ g ∈ p.gates, g.ins.length = 5) ∧
      (Faithful r.1.b → (∀ p ∈ r.1.muls, ∀ g ∈ p.gates, MulOk g) → (∀ p ∈ r.1.prds, ∀ g ∈ p.gates, g.Ok) → (∀ e ∈ r.1.eqs, e.1.1 = e.2.1.1) →
        ∃ pre' ops' post', List.Forall₂ BOp.same pre pre' ∧ List.Forall₂ MOp.same ops ops' ∧ List.Forall₂ BOp.same post post' ∧
          ∀ ch, Begins ch r.1.rs → mplainRun ch pre' ops' post' = some r.1.plain)) := by
  unfold mixCommit mixC
  refine RProg.All.bind ?_ (fun r hr => fun _ _ => hr)
  refine (RProg.All.calls _).bind (fun _ _ => (bops_all pre ComSt.init).bind (fun b hb => ?_))
  refine RProg.All.bind (Q := fun C => C.buf.Inv me.sz ∧ C.b = { b with used := b.used + me.svN 0 } ∧ C.fw = [] ∧ C.rs = [] ∧ C.prds = [] ∧
    C.polys = []) ?_ (fun C hC => (mops_all hroom hsz ops hC.1 h5).bind (fun C1 h1 => (f2kDel_all h1.inv).bind (fun C2 h2 =>
      (bops_all post C2.b).bind (fun b3 h3 => (bfin_all b3).bind (fun r h4 => ?_)))))
  · exact (RProg.All.calls _).bind (fun _ _ => ⟨⟨rfl, rfl, Nat.zero_le _, hroom 0⟩, rfl, rfl, rfl, rfl, rfl⟩)
  · obtain ⟨c0, c1, c2, c3, c4, c5⟩ := hC
    refine ⟨h4.2.1, h4.2.2, ?_, ?_⟩
    · intro p hp g hg
      refine h1.five (by simp [MCom.prdGates, c4, c5]) g ?_
      rw [← h2.1.prds]
      exact List.mem_append_left _ (List.mem_flatMap.2 ⟨p, hp, hg⟩)
    · intro f1 f2 f3 f4
      obtain ⟨g1, post', p1, p2⟩ := h3 (h4.1.faithful f1)
      have hf2 : MFaith C2 := by
        refine ⟨g1, ?_, ?_, f4⟩
        · intro g hg
          rcases List.mem_append.1 hg with hg | hg
          · obtain ⟨p, hp, hg⟩ := List.mem_flatMap.1 hg
            exact f2 p hp g hg
          · simp [F2kBuf.pending, h2.2.2] at hg
        · intro g hg
          rcases List.mem_append.1 hg with hg | hg
          · obtain ⟨p, hp, hg⟩ := List.mem_flatMap.1 hg
            exact f3 p hp g hg
          · rw [h2.2.1] at hg; simp at hg
      have hf1 : MFaith C1 := ⟨h2.1.b.faithful hf2.b, by rw [← h2.1.muls]; exact hf2.muls, by rw [← h2.1.prds]; exact hf2.prds,
        by rw [← h2.1.eqs]; exact hf2.eqs⟩
      obtain ⟨g0, ops', o1, o2⟩ := h1.back hf1
      have hfb : Faithful b := by
        have := g0.b
        rw [c1] at this
        exact ⟨this.gates, this.opened⟩
      obtain ⟨_, pre', q1, q2⟩ := hb hfb
      refine ⟨pre', ops', post', q1, o1, p1, fun ch hch => ?_⟩
      have e1 : plainRun pre' = some b.plain := q2
      have e2 : mplainOps ch ⟨b.plain, [], []⟩ ops' = some C1.plain := by
        have := o2 ch (by rw [← h2.1.rs]; exact hch)
        have hp : C.plain = ⟨b.plain, [], []⟩ := by
          simp only [MCom.plain, c1, c2, c3]
          rfl
        rwa [hp] at this
      have e3 : post'.foldlM plainStep C1.plain.bp = some b3.plain := by
        have : C1.plain.bp = C2.b.plain := h2.1.b.2.2.1.symm
        rw [this]; exact p2
      simp only [mplainRun, e1, e2, e3, Option.bind_eq_bind, Option.bind_some, Option.some.injEq]
      simp only [MCom.plain, h4.1.2.2.1, ← h2.1.fw, ← h2.1.rs]

end
end EmpZk
