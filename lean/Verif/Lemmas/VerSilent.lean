/-
Verifiers that make the same calls, whatever their secrets, look the same to the prover until one of them stops.
-/
import Verif.Spec.VerSilent
import Verif.Lemmas.MixTraffic

namespace EmpZk

/-- Two verifiers that make the same calls with the same bytes; one of them may stop earlier if `E`. -/
inductive RAlike {α β : Type} (W E : Prop) (R : α → β → Prop) : RProg α → RProg β → Prop where
  | done {a b} : R a b → RAlike W E R (.done a) (.done b)
  | fail : RAlike W E R .fail .fail
  | stopL {q} : E → RAlike W E R .stop q
  | stopR {q} : E → RAlike W E R q .stop
  | call {o k k'} : (∀ d bs d' bs', (W → d = d' ∧ bs = bs') → RAlike W E R (k d bs) (k' d' bs')) → RAlike W E R (.call o k) (.call o k')

section
variable {α β γ δ : Type} {W E : Prop} {R : α → β → Prop} {Q : γ → δ → Prop}

theorem RAlike.bind {P : RProg α} {P' : RProg β} {f : α → RProg γ} {g : β → RProg δ} (h : RAlike W E R P P')
    (hf : ∀ a b, R a b → RAlike W E Q (f a) (g b)) : RAlike W E Q (P.bind f) (P'.bind g) := by
  induction h with
  | done h => exact hf _ _ h
  | fail => exact .fail
  | stopL h => exact .stopL h
  | stopR h => exact .stopR h
  | call _ ih => exact .call ih

theorem RAlike.opt {a : Option α} {b : Option β} (h : ORel R a b) : RAlike W E R (RProg.ofOpt a) (RProg.ofOpt b) := by
  rcases h with ⟨rfl, rfl⟩ | ⟨x, y, rfl, rfl, h⟩
  · exact .fail
  · exact .done h

theorem RAlike.calls (l : List ROp) : RAlike W E (fun _ _ => True) (RProg.calls l) (RProg.calls l) := by
  induction l with
  | nil => exact .done trivial
  | cons o l ih => exact .call (fun _ _ _ _ _ => ih)

theorem RAlike.done_inv {a : α} {q : RProg β} (h : RAlike W E R (.done a) q) : (q = .stop ∧ E) ∨ ∃ b, q = .done b ∧ R a b := by
  cases h with
  | done h => exact .inr ⟨_, rfl, h⟩
  | stopR h => exact .inl ⟨rfl, h⟩

theorem RAlike.fail_inv {q : RProg β} (h : RAlike W E R .fail q) : q = .fail ∨ (q = .stop ∧ E) := by
  cases h with
  | fail => exact .inl rfl
  | stopR h => exact .inr ⟨rfl, h⟩

/-! ### the network -/

variable {μ : Type} {S : Nat}

theorem stepP_view {c d : PNet μ α} {c' : PNet μ β} (h : SameView c c') (hs : stepP S c = some d) :
    ∃ d', stepP S c' = some d' ∧ SameView d d' ∧ d.q = c.q ∧ d'.q = c'.q := by
  obtain ⟨p, snd, toR, toS, rcv, q⟩ := c
  obtain ⟨p', snd', toR', toS', rcv', q'⟩ := c'
  obtain ⟨h1, h2, h3, h4, h5⟩ := h
  simp only at h1 h2 h3 h4 h5
  subst h1 h2 h3 h4 h5
  cases p with
  | call o k =>
    simp only [stepP] at hs ⊢
    cases hn : stepS S ⟨snd, [o], toR, toS, rcv, []⟩ with
    | none => rw [hn] at hs; simp at hs
    | some n =>
      rw [hn] at hs
      simp only [Option.some.injEq] at hs
      subst hs
      exact ⟨_, rfl, ⟨rfl, rfl, rfl, rfl, rfl⟩, rfl, rfl⟩
  | _ => simp [stepP] at hs

theorem stepQ_view {c d : PNet μ α} {c' : PNet μ β} (h : SameView c c') {o : ROp} {k : Bool → List Byte → RProg α} {k' : Bool → List Byte → RProg β}
    (hq : c.q = .call o k) (hq' : c'.q = .call o k') (hs : stepQ S c = .ok d) :
    ∃ d' x bs, stepQ S c' = .ok d' ∧ SameView d d' ∧ d.q = k x bs ∧ d'.q = k' x bs := by
  obtain ⟨p, snd, toR, toS, rcv, q⟩ := c
  obtain ⟨p', snd', toR', toS', rcv', q'⟩ := c'
  obtain ⟨h1, h2, h3, h4, h5⟩ := h
  simp only at h1 h2 h3 h4 h5 hq hq'
  subst h1 h2 h3 h4 h5 hq hq'
  simp only [stepQ] at hs ⊢
  cases hn : stepR S ⟨snd, [], toR, toS, rcv, [o]⟩ with
  | blocked => rw [hn] at hs; simp at hs
  | ub => rw [hn] at hs; simp at hs
  | ok n =>
    rw [hn] at hs
    simp only [RecvRes.ok.injEq] at hs
    subst hs
    exact ⟨_, _, _, rfl, ⟨rfl, rfl, rfl, rfl, rfl⟩, rfl, rfl⟩

/-- The same prover with verifiers that are alike: each configuration of one network is, up to the verifier's state, one of the other network, or
the other verifier has stopped at an earlier point. -/
theorem ralike_network {p : SProg μ} {q : RProg α} {q' : RProg β} (h : RAlike W E R q q') {junk : List Byte} {c : PNet μ α}
    (hc : PReach S (pnetInit S junk p q) c) : ∃ c', PReach S (pnetInit S junk p q') c' ∧
      ((SameView c c' ∧ RAlike W E R c.q c'.q) ∨
        (E ∧ c'.q = .stop ∧ ∃ c1, PReach S (pnetInit S junk p q) c1 ∧ PReach S c1 c ∧ SameView c1 c')) := by
  induction hc with
  | init => exact ⟨_, .init, .inl ⟨⟨rfl, rfl, rfl, rfl, rfl⟩, h⟩⟩
  | sndStep hc hs ih =>
    obtain ⟨c', r, ⟨hv, hq⟩ | ⟨he, hq, c1, r1, r2, hv⟩⟩ := ih
    · obtain ⟨d', h1, h2, h3, h4⟩ := stepP_view hv hs
      exact ⟨d', .sndStep r h1, .inl ⟨h2, by rw [h3, h4]; exact hq⟩⟩
    · exact ⟨c', r, .inr ⟨he, hq, c1, r1, .sndStep r2 hs, hv⟩⟩
  | @rcvStep c d hc hs ih =>
    obtain ⟨c', r, ⟨hv, hq⟩ | ⟨he, hq, c1, r1, r2, hv⟩⟩ := ih
    · generalize h1 : c.q = x at hq
      generalize h2 : c'.q = y at hq
      cases hq with
      | done _ => simp [stepQ, h1] at hs
      | fail => simp [stepQ, h1] at hs
      | stopL _ => simp [stepQ, h1] at hs
      | stopR he => exact ⟨c', r, .inr ⟨he, h2, c, hc, .rcvStep .init hs, hv⟩⟩
      | call hk =>
        obtain ⟨d', x, bs, h3, h4, h5, h6⟩ := stepQ_view hv h1 h2 hs
        exact ⟨d', .rcvStep r h3, .inl ⟨h4, by rw [h5, h6]; exact hk x bs x bs (fun _ => ⟨rfl, rfl⟩)⟩⟩
    · exact ⟨c', r, .inr ⟨he, hq, c1, r1, .rcvStep r2 hs, hv⟩⟩

end

section
variable {F : Type} [Field F] [BlockField F] [DecidableEq F]

/-- States of the two verifiers: the same numbers and the same opened bits. -/
structure BVSame (W : Prop) (s s' : VerSt F) : Prop where
  wires : s.wires.length = s'.wires.length
  used : s.used = s'.used
  gates : s.gates.length = s'.gates.length
  polys : s.polys.length = s'.polys.length
  pb : s.polyBatches = s'.polyBatches
  outs : W → s.outs = s'.outs

variable {W E : Prop} {ne ne' : NetEnv F} {s s' : VerSt F}

theorem rcotR_alike (hn : ne.SameV ne') (u k : Nat) : RAlike W E (fun _ _ => True) (rcotR ne u k) (rcotR ne' u k) := by
  unfold rcotR
  rw [hn.ext]
  exact RAlike.calls _

theorem verAndCheck_orel (e e' : BEnv F) (ht : e.threads = e'.threads) (h : BVSame W s s') (a a' : F × F) :
    ORel (BVSame W) (verAndCheck e s a) (verAndCheck e' s' a') := by
  unfold verAndCheck andCheckVer
  rw [h.gates, ht]
  cases splitTasks s'.gates.length e'.threads with
  | none => exact .none
  | some t => exact .some ⟨h.wires, by simp [h.used], rfl, h.polys, h.pb, h.outs⟩

theorem andCheckR_alike (hn : ne.SameV ne') (h : BVSame W s s') : RAlike W E (BVSame W) (andCheckR ne s) (andCheckR ne' s') := by
  refine .call (fun _ d _ d' _ => ?_)
  rw [h.used]
  refine (rcotR_alike hn _ _).bind (fun _ _ _ => .call (fun _ bs _ _ _ => ?_))
  exact (RAlike.opt (verAndCheck_orel (ne.env d 0) (ne'.env d' 0) hn.threads h _ _)).bind (fun a b hab => .call (fun _ _ _ _ _ => .done hab))

theorem polyCheckR_alike (hn : ne.SameV ne') (h : BVSame W s s') : RAlike W E (BVSame W) (polyCheckR ne s) (polyCheckR ne' s') := by
  unfold polyCheckR
  rw [h.pb, hn.polySeed]
  refine .call (fun _ _ _ _ _ => ?_)
  rw [h.used]
  exact (rcotR_alike hn _ _).bind (fun _ _ _ => .call (fun _ bs _ _ _ => .done
    ⟨h.wires, by simp [verPolyCheck, h.used], h.gates, rfl, by simp [verPolyCheck, h.pb], h.outs⟩))

theorem andRoomR_alike (hn : ne.SameV ne') (h : BVSame W s s') : RAlike W E (BVSame W) (andRoomR ne s) (andRoomR ne' s') := by
  unfold andRoomR
  rw [h.gates, hn.checkSz]
  split
  · exact andCheckR_alike hn h
  · exact .done h

theorem polyRoomR_alike (hn : ne.SameV ne') (h : BVSame W s s') : RAlike W E (BVSame W) (polyRoomR ne s) (polyRoomR ne' s') := by
  unfold polyRoomR
  simp only [ne_eq, h.polys, hn.polySz, nil_iff_len h.polys]
  split
  · exact polyCheckR_alike hn h
  · exact .done h

omit [BlockField F] [DecidableEq F] [Field F] in
theorem BVSame.push (h : BVSame W s s') (a a' : F) : BVSame W { s with wires := s.wires ++ [a] } { s' with wires := s'.wires ++ [a'] } :=
  ⟨by simp [h.wires], h.used, h.gates, h.polys, h.pb, h.outs⟩

theorem bopR_alike (hn : ne.SameV ne') (h : BVSame W s s') {o o' : BOp} (ho : o.erase = o'.erase) : RAlike W E (BVSame W) (bopR ne s o) (bopR ne' s' o') := by
  cases o with
  | input b =>
    cases o' <;> simp only [BOp.erase, reduceCtorEq] at ho
    simp only [bopR]
    rw [h.used]
    exact (rcotR_alike hn _ _).bind (fun _ _ _ => .call (fun d _ _ _ _ => RAlike.opt (.some
      ⟨by simp [h.wires], by simp [h.used], h.gates, h.polys, h.pb, h.outs⟩)))
  | pub b =>
    cases o' <;> simp only [BOp.erase, reduceCtorEq, BOp.pub.injEq] at ho
    exact .done (h.push _ _)
  | xor i j =>
    cases o' <;> simp only [BOp.erase, reduceCtorEq, BOp.xor.injEq] at ho
    obtain ⟨rfl, rfl⟩ := ho
    exact RAlike.opt ((get_orel h.wires i).bind (fun a a' _ => (get_orel h.wires j).bind (fun b b' _ => .some (h.push _ _))))
  | not i =>
    cases o' <;> simp only [BOp.erase, reduceCtorEq, BOp.not.injEq] at ho
    subst ho
    exact RAlike.opt ((get_orel h.wires i).bind (fun a a' _ => .some (h.push _ _)))
  | and i j =>
    cases o' <;> simp only [BOp.erase, reduceCtorEq, BOp.and.injEq] at ho
    obtain ⟨rfl, rfl⟩ := ho
    refine (RAlike.opt (get_orel h.wires i)).bind (fun a a' _ => (RAlike.opt (get_orel h.wires j)).bind (fun b b' _ =>
      (andRoomR_alike hn h).bind (fun r r' hr => ?_)))
    rw [hr.used]
    refine (rcotR_alike hn _ _).bind (fun _ _ _ => .call (fun d _ _ _ _ => RAlike.opt ?_))
    unfold verAndPush
    rw [hr.gates, hn.checkSz]
    split
    · exact .some ⟨by simp [hr.wires], by simp [hr.used], by simp [hr.gates], hr.polys, hr.pb, hr.outs⟩
    · exact .none
  | reveal i =>
    cases o' <;> simp only [BOp.erase, reduceCtorEq, BOp.reveal.injEq] at ho
    subst ho
    exact .call (fun d _ d' _ hd => RAlike.opt ((get_orel h.wires i).bind (fun a a' _ => .some ⟨h.wires, h.used, h.gates, h.polys, h.pb,
      fun w => by simp [h.outs w, (hd w).1]⟩)))
  | poly st =>
    cases o' <;> simp only [BOp.erase, reduceCtorEq, BOp.poly.injEq] at ho
    subst ho
    refine (RAlike.opt (lookup_orel h.wires st)).bind (fun a a' _ => (polyRoomR_alike hn h).bind (fun r r' hr => RAlike.opt ?_))
    unfold verPolyPush
    rw [hr.polys, hn.polySz]
    split
    · exact .some ⟨hr.wires, hr.used, hr.gates, by simp [hr.polys], hr.pb, hr.outs⟩
    · exact .none

theorem bopsR_alike (hn : ne.SameV ne') : ∀ {ops ops' : List BOp} {s s' : VerSt F}, ops.map BOp.erase = ops'.map BOp.erase → BVSame W s s' →
    RAlike W E (BVSame W) (bopsR ne s ops) (bopsR ne' s' ops') := by
  intro ops
  induction ops with
  | nil =>
    intro ops' s s' ho h
    cases ops' with
    | nil => exact .done h
    | cons => simp at ho
  | cons o ops ih =>
    intro ops' s s' ho h
    cases ops' with
    | nil => simp at ho
    | cons o' ops' =>
      simp only [List.map_cons, List.cons.injEq] at ho
      exact (bopR_alike hn h ho.1).bind (fun a b hab => ih ho.2 hab)

omit [BlockField F] in
theorem verFinHash_outs (e : BEnv F) (s : VerSt F) (d : F) : (verFinHash e s d).wires = s.wires ∧ (verFinHash e s d).used = s.used ∧
    (verFinHash e s d).gates = s.gates ∧ (verFinHash e s d).polys = s.polys ∧ (verFinHash e s d).polyBatches = s.polyBatches ∧
    (verFinHash e s d).outs = s.outs := by
  unfold verFinHash
  split <;> exact ⟨rfl, rfl, rfl, rfl, rfl, rfl⟩

theorem bfinR_alike (hn : ne.SameV ne') (h : BVSame W s s') : RAlike W E (BVSame W) (bfinR ne s) (bfinR ne' s') := by
  unfold bfinR
  refine RAlike.bind (R := BVSame W) ?_ (fun a b hab => RAlike.bind (R := BVSame W) ?_ (fun c d hcd => ?_))
  · simp only [ne_eq, nil_iff_len h.polys]
    split
    · exact polyCheckR_alike hn h
    · exact .done h
  · simp only [ne_eq, nil_iff_len hab.gates]
    split
    · exact andCheckR_alike hn hab
    · exact .done hab
  · refine .call (fun _ bs _ bs' _ => .done ?_)
    obtain ⟨a1, a2, a3, a4, a5, a6⟩ := verFinHash_outs ne.e c (ne.decD bs)
    obtain ⟨b1, b2, b3, b4, b5, b6⟩ := verFinHash_outs ne'.e d (ne'.decD bs')
    exact ⟨by rw [a1, b1, hcd.wires], by rw [a2, b2, hcd.used], by rw [a3, b3, hcd.gates], by rw [a4, b4, hcd.polys], by rw [a5, b5, hcd.pb],
      fun w => by rw [a6, b6, hcd.outs w]⟩

/-! ### products over F_{2^128} -/

/-- States of the two verifiers of a mixed session: the same numbers; entries of product checks only if `E`. -/
structure MVSame (W E : Prop) (s s' : MVer F) : Prop where
  b : BVSame W s.b s'.b
  fw : s.fw.length = s'.fw.length
  left : s.buf.left.length = s'.buf.left.length
  rght : s.buf.rght.length = s'.buf.rght.length
  auth : s.buf.auth.length = s'.buf.auth.length
  cnt : s.buf.cnt = s'.buf.cnt
  fills : s.fills = s'.fills
  polys : s.polys.length = s'.polys.length
  rs : s.rs.length = s'.rs.length
  np : s.polys ≠ [] → E

variable {me me' : MixEnv F} {t t' : MVer F}

omit [DecidableEq F] in
theorem f2kNewR_alike [DecidableEq F] (hm : me.SameV me') (h : BVSame W s s') : RAlike W E (MVSame W E) (f2kNewR me s) (f2kNewR me' s') := by
  unfold f2kNewR
  rw [hm.sv]
  refine (RAlike.calls _).bind (fun _ _ _ => .done ⟨⟨h.wires, ?_, h.gates, h.polys, h.pb, h.outs⟩, rfl, rfl, rfl, hm.keys 0, rfl, rfl, rfl, rfl,
    fun hh => absurd rfl hh⟩)
  show s.used + me.svN 0 = s'.used + me'.svN 0
  rw [h.used, hm.svN]

omit [Field F] [BlockField F] [DecidableEq F] in
theorem batchV_orel {b b' : F2kBuf F} (hl : b.left.length = b'.left.length) (hr : b.rght.length = b'.rght.length)
    (ha : b.auth.length = b'.auth.length) (hc : b.cnt = b'.cnt) : ORel (fun x y => x.length = y.length) b.batch b'.batch := by
  unfold F2kBuf.batch
  rw [hc, hl]
  split
  · exact .none
  · refine Or.imp_right ?_ (mapM_orel (R := fun _ _ => True) (fun i => ?_) (List.range b'.left.length))
    · rintro ⟨x, y, h1, h2, h3⟩
      exact ⟨x, y, h1, h2, h3.length_eq⟩
    · rcases get_orel hl i with ⟨h1, h2⟩ | ⟨a, a', h1, h2, -⟩
      · rw [h1, h2]; exact .none
      rcases get_orel hr i with ⟨h3, h4⟩ | ⟨c, c', h3, h4, -⟩
      · rw [h1, h2, h3, h4]; exact .none
      rcases get_orel ha (b'.cnt - b'.left.length + i) with ⟨h5, h6⟩ | ⟨d, d', h5, h6, -⟩
      · rw [h1, h2, h3, h4, h5, h6]; exact .none
      · rw [h1, h2, h3, h4, h5, h6]; exact .some trivial

theorem f2kCheckVer_orel {b b' : List (F × F × F)} (h : b.length = b'.length) {n n' : Nat} (hn : n = n') (dl dl' : F) (sd sd' o o' : Nat → F)
    (a a' : F × F) : ORel (fun _ _ => True) (f2kCheckVer dl b n sd o a) (f2kCheckVer dl' b' n' sd' o' a') := by
  unfold f2kCheckVer
  rw [h, hn]
  cases splitTasksF2k b'.length n' with
  | none => exact .none
  | some ts =>
    simp only [Option.bind_eq_bind, Option.bind_some]
    exact ORel.bind (taskSums_orel ts 0) (fun _ _ _ => .some trivial)

theorem f2kCheckR_alike (hm : me.SameV me') (h : MVSame W E t t') : RAlike W E (MVSame W E) (f2kCheckR me t) (f2kCheckR me' t') := by
  refine .call (fun _ _ _ _ _ => .call (fun _ d _ _ _ => ?_))
  refine (RAlike.opt (batchV_orel h.left h.rght h.auth h.cnt)).bind (fun bt bt' hb => ?_)
  rw [h.b.used]
  refine (rcotR_alike hm.ne _ _).bind (fun _ _ _ => .call (fun _ bs _ _ _ =>
    (RAlike.opt (f2kCheckVer_orel hb hm.ne.threads _ _ _ _ _ _ _ _)).bind (fun a b _ => .call (fun _ _ _ _ _ => .done ?_))))
  exact ⟨⟨h.b.wires, by simp, h.b.gates, h.b.polys, h.b.pb, h.b.outs⟩, h.fw, rfl, rfl, h.auth, h.cnt, h.fills, h.polys, h.rs, h.np⟩

theorem f2kRoomR_alike (hm : me.SameV me') (h : MVSame W E t t') : RAlike W E (MVSame W E) (f2kRoomR me t) (f2kRoomR me' t') := by
  unfold f2kRoomR
  rw [h.left, hm.sz]
  split
  · exact f2kCheckR_alike hm h
  · exact .done h

omit [DecidableEq F] in
theorem f2kFillR_alike [DecidableEq F] (hm : me.SameV me') (h : MVSame W E t t') : RAlike W E (MVSame W E) (f2kFillR me t) (f2kFillR me' t') := by
  unfold f2kFillR
  rw [h.cnt, hm.sz, h.fills, hm.sv]
  split
  · refine (RAlike.calls _).bind (fun _ _ _ => .done ?_)
    exact ⟨⟨h.b.wires, by simp [h.b.used, hm.svN], h.b.gates, h.b.polys, h.b.pb, h.b.outs⟩, h.fw, h.left, h.rght, hm.keys _, rfl, rfl, h.polys,
      h.rs, h.np⟩
  · exact .done h

theorem f2kMulR_alike (hm : me.SameV me') (h : MVSame W E t t') (a b a' b' : F) : RAlike W E (MVSame W E) (f2kMulR me t a b) (f2kMulR me' t' a' b') := by
  refine (f2kRoomR_alike hm h).bind (fun r r' hr => (f2kFillR_alike hm hr).bind (fun q q' hq => .call (fun _ bs _ _ _ =>
    (RAlike.opt (R := fun _ _ => True) ?_).bind (fun au au' _ => .done ?_))))
  · rw [hq.left, hm.sz, hq.cnt]
    split
    · exact get_orel hq.auth _
    · exact .none
  · exact ⟨hq.b, by simp [hq.fw], by simp [hq.left], by simp [hq.rght], by simp [hq.auth], by simp [hq.cnt], hq.fills, hq.polys, hq.rs, hq.np⟩

theorem prdtCheckR_alike (h : MVSame W E t t') (he : E) : RAlike W E (MVSame W E) (prdtCheckR me t) (prdtCheckR me' t') := by
  refine .call (fun _ _ _ _ _ => .call (fun _ d _ _ _ => .call (fun _ bs _ _ _ => ?_)))
  split
  · split
    · exact .done ⟨h.b, h.fw, h.left, h.rght, h.auth, h.cnt, h.fills, rfl, h.rs, fun hh => absurd rfl hh⟩
    · exact .stopR he
  · exact .stopL he

theorem prdtRoomR_alike (hm : me.SameV me') (h : MVSame W E t t') (he : E) : RAlike W E (MVSame W E) (prdtRoomR me t) (prdtRoomR me' t') := by
  unfold prdtRoomR
  simp only [ne_eq, h.polys, hm.cap, nil_iff_len h.polys]
  split
  · exact prdtCheckR_alike h he
  · exact .done h

omit [BlockField F] [DecidableEq F] in
theorem polyVer_orel {l l' : List F} (h : l.length = l'.length) (d d' m m' : F) : ORel (fun _ _ => True) (polyVer d l m) (polyVer d' l' m') := by
  match l, l', h with
  | [], [], _ => exact .none
  | [_], [_], _ => exact .none
  | [_, _], [_, _], _ => exact .none
  | [_, _, _], [_, _, _], _ => exact .some trivial
  | [_, _, _, _], [_, _, _, _], _ => exact .some trivial
  | [_, _, _, _, _], [_, _, _, _, _], _ => exact .some trivial
  | _ :: _ :: _ :: _ :: _ :: _ :: _, _ :: _ :: _ :: _ :: _ :: _ :: _, _ => exact .none

theorem f2kMulNR_alike (hm : me.SameV me') (h : MVSame W E t t') (he : E) {xs xs' : List F} (hx : xs.length = xs'.length) :
    RAlike W E (MVSame W E) (f2kMulNR me t xs) (f2kMulNR me' t' xs') := by
  unfold f2kMulNR
  refine (bopsR_alike hm.ne rfl h.b).bind (fun b b' hb => ?_)
  refine (RAlike.opt (mulLabel_orel (by simp [hb.wires, h.b.wires]))).bind (fun m m' _ => (RAlike.opt (polyVer_orel hx _ _ m m')).bind (fun e e' _ => ?_))
  refine (prdtRoomR_alike hm (t := { t with b := { b with wires := t.b.wires } }) (t' := { t' with b := { b' with wires := t'.b.wires } })
    ⟨⟨h.b.wires, hb.used, hb.gates, hb.polys, hb.pb, hb.outs⟩, h.fw, h.left, h.rght, h.auth, h.cnt, h.fills, h.polys, h.rs, h.np⟩ he).bind
    (fun r r' hr => ?_)
  rw [hr.polys, hm.cap]
  split
  · exact .done ⟨hr.b, by simp [hr.fw], hr.left, hr.rght, hr.auth, hr.cnt, hr.fills, by simp [hr.polys], hr.rs, fun _ => he⟩
  · exact .fail

omit [Field F] [BlockField F] [DecidableEq F] in
theorem MVSame.push (h : MVSame W E t t') (a a' : F) : MVSame W E { t with fw := t.fw ++ [a] } { t' with fw := t'.fw ++ [a'] } :=
  ⟨h.b, by simp [h.fw], h.left, h.rght, h.auth, h.cnt, h.fills, h.polys, h.rs, h.np⟩

theorem mopR_alike (hm : me.SameV me') (h : MVSame W E t t') {o o' : MOp} (ho : o.erase = o'.erase) (he : o.stops → E) :
    RAlike W E (MVSame W E) (mopR me t o) (mopR me' t' o') := by
  cases o with
  | bool o =>
    cases o' <;> simp only [MOp.erase, reduceCtorEq, MOp.bool.injEq] at ho
    exact (bopR_alike hm.ne h.b ho).bind (fun b b' hb => .done ⟨hb, h.fw, h.left, h.rght, h.auth, h.cnt, h.fills, h.polys, h.rs, h.np⟩)
  | pack ws =>
    cases o' <;> simp only [MOp.erase, reduceCtorEq, MOp.pack.injEq] at ho
    subst ho
    exact (RAlike.opt (pick_orel h.b.wires ws)).bind (fun l l' hl => (RAlike.opt (innBase_orel (hl.1.trans hl.2.symm) 0 (hl.1.trans hl.2.symm))).bind
      (fun _ _ _ => .done (h.push _ _)))
  | chal =>
    cases o' <;> simp only [MOp.erase, reduceCtorEq] at ho
    exact .call (fun _ _ _ _ _ => .done ⟨h.b, h.fw, h.left, h.rght, h.auth, h.cnt, h.fills, h.polys, by simp [h.rs], h.np⟩)
  | addc i k =>
    cases o' <;> simp only [MOp.erase, reduceCtorEq, MOp.addc.injEq] at ho
    obtain ⟨rfl, rfl⟩ := ho
    exact (RAlike.opt (get_orel h.fw i)).bind (fun _ _ _ => (RAlike.opt (get_orel h.rs k)).bind (fun _ _ _ => .done (h.push _ _)))
  | mul i j =>
    cases o' <;> simp only [MOp.erase, reduceCtorEq, MOp.mul.injEq] at ho
    obtain ⟨rfl, rfl⟩ := ho
    exact (RAlike.opt (get_orel h.fw i)).bind (fun _ _ _ => (RAlike.opt (get_orel h.fw j)).bind (fun _ _ _ => f2kMulR_alike hm h _ _ _ _))
  | mulN is =>
    cases o' <;> simp only [MOp.erase, reduceCtorEq, MOp.mulN.injEq] at ho
    subst ho
    exact (RAlike.opt (pick_orel h.fw is)).bind (fun l l' hl => f2kMulNR_alike hm h (he trivial) (hl.1.trans hl.2.symm))
  | eq i j =>
    cases o' <;> simp only [MOp.erase, reduceCtorEq, MOp.eq.injEq] at ho
    obtain ⟨rfl, rfl⟩ := ho
    refine (RAlike.opt (get_orel h.fw i)).bind (fun _ _ _ => (RAlike.opt (get_orel h.fw j)).bind (fun _ _ _ => .call (fun _ bs _ _ _ => ?_)))
    split
    · split
      · exact .done h
      · exact .stopR (he trivial)
    · exact .stopL (he trivial)
  | sync =>
    cases o' <;> simp only [MOp.erase, reduceCtorEq] at ho
    exact .call (fun _ _ _ _ _ => .done h)
  | packAt ps =>
    cases o' <;> simp only [MOp.erase, reduceCtorEq, MOp.packAt.injEq] at ho
    subst ho
    exact (RAlike.opt (packPieces_orel h.b.wires ps)).bind (fun _ _ _ => .done (h.push _ _))
  | chals n =>
    cases o' <;> simp only [MOp.erase, reduceCtorEq, MOp.chals.injEq] at ho
    subst ho
    exact .call (fun _ _ _ _ _ => .done ⟨h.b, h.fw, h.left, h.rght, h.auth, h.cnt, h.fills, h.polys, by simp [h.rs], h.np⟩)
  | lin l =>
    cases o' <;> simp only [MOp.erase, reduceCtorEq, MOp.lin.injEq] at ho
    subst ho
    exact (RAlike.opt (linComb_orel h.rs h.fw l)).bind (fun _ _ _ => .done (h.push _ _))

theorem mopsR_alike (hm : me.SameV me') : ∀ {ops ops' : List MOp} {t t' : MVer F}, ops.map MOp.erase = ops'.map MOp.erase →
    (∀ o ∈ ops, o.stops → E) → MVSame W E t t' → RAlike W E (MVSame W E) (mopsR me t ops) (mopsR me' t' ops') := by
  intro ops
  induction ops with
  | nil =>
    intro ops' t t' ho _ h
    cases ops' with
    | nil => exact .done h
    | cons => simp at ho
  | cons o ops ih =>
    intro ops' t t' ho he h
    cases ops' with
    | nil => simp at ho
    | cons o' ops' =>
      simp only [List.map_cons, List.cons.injEq] at ho
      exact (mopR_alike hm h ho.1 (he o (by simp))).bind (fun a b hab => ih ho.2 (fun x hx => he x (by simp [hx])) hab)

theorem f2kDelR_alike (hm : me.SameV me') (h : MVSame W E t t') : RAlike W E (MVSame W E) (f2kDelR me t) (f2kDelR me' t') := by
  unfold f2kDelR
  refine RAlike.bind (R := MVSame W E) ?_ (fun a b hab => ?_)
  · by_cases hp : t.polys = []
    · rw [if_neg (by simp [hp]), if_neg (by simp [(nil_iff_len h.polys).1 hp])]
      exact .done h
    · rw [if_pos hp, if_pos (fun hh => hp ((nil_iff_len h.polys).2 hh))]
      exact prdtCheckR_alike h (h.np hp)
  · simp only [ne_eq, nil_iff_len hab.left]
    split
    · exact f2kCheckR_alike hm hab
    · exact .done hab

omit [BlockField F] [DecidableEq F] in
theorem vinit_same : BVSame W (VerSt.init : VerSt F) VerSt.init := ⟨rfl, rfl, rfl, rfl, rfl, fun _ => rfl⟩

/-- Whole verifiers. -/
theorem mixVerifier_alike (hm : me.SameV me') {pre pre' post post' : List BOp} {ops ops' : List MOp} (h1 : pre.map BOp.erase = pre'.map BOp.erase)
    (h2 : ops.map MOp.erase = ops'.map MOp.erase) (h3 : post.map BOp.erase = post'.map BOp.erase) (he : ∀ o ∈ ops, o.stops → E) :
    RAlike W E (MVSame W E) (mixVerifier me pre ops post) (mixVerifier me' pre' ops' post') := by
  unfold mixVerifier mixR
  refine RAlike.bind (R := MVSame W E) ?_ (fun a b hab => .call (fun _ _ _ _ _ => .done hab))
  refine (rcotR_alike hm.ne 0 1).bind (fun _ _ _ => (bopsR_alike hm.ne h1 vinit_same).bind (fun b b' hb => (f2kNewR_alike hm hb).bind (fun s s' hs =>
    (mopsR_alike hm h2 he hs).bind (fun r r' hr => (f2kDelR_alike hm hr).bind (fun q q' hq => (bopsR_alike hm.ne h3 hq.b).bind (fun c c' hc =>
      (bfinR_alike hm.ne hc).bind (fun d d' hd => .done ?_)))))))
  exact ⟨hd, hq.fw, hq.left, hq.rght, hq.auth, hq.cnt, hq.fills, hq.polys, hq.rs, hq.np⟩

/-! ### branching programs -/

theorem btreeR_ralike (hn : ne.SameV ne') {α : Type} {Q : α → α → Prop} {u u' : Branch BOp α} (hu : Branch.Same BOp.erase Q u u') :
    ∀ {s s' : VerSt F}, BVSame True s s' → RAlike True E (fun r r' => BVSame True r.1 r'.1 ∧ Q r.2 r'.2) (btreeR ne s u) (btreeR ne' s' u') := by
  induction hu with
  | fin h => intro s s' hs; exact .done ⟨hs, h⟩
  | undef => intro s s' hs; exact .fail
  | ops hl _ ih =>
    intro s s' hs
    refine (bopsR_alike hn hl hs).bind (fun r r' hr => ?_)
    rw [hr.outs trivial]
    exact ih _ hr

theorem mtreeR_ralike (hm : me.SameV me') (he : E) {α : Type} {Q : α → α → Prop} {u u' : Branch MOp α} (hu : Branch.Same MOp.erase Q u u') :
    ∀ {s s' : MVer F}, MVSame True E s s' → RAlike True E (fun r r' => MVSame True E r.1 r'.1 ∧ Q r.2 r'.2) (mtreeR me s u) (mtreeR me' s' u') := by
  induction hu with
  | fin h => intro s s' hs; exact .done ⟨hs, h⟩
  | undef => intro s s' hs; exact .fail
  | ops hl _ ih =>
    intro s s' hs
    refine (mopsR_alike hm hl (fun _ _ _ => he) hs).bind (fun r r' hr => ?_)
    rw [hr.b.outs trivial]
    exact ih _ hr

/-- Whole verifiers of branching programs. -/
theorem branchVerifier_ralike (hm : me.SameV me') (he : E) {u u' : SessTree} (hu : u.Same u') :
    RAlike True E (MVSame True E) (branchVerifier me u) (branchVerifier me' u') := by
  unfold branchVerifier branchR
  refine RAlike.bind (R := MVSame True E) ?_ (fun a b hab => .call (fun _ _ _ _ _ => .done hab))
  refine (rcotR_alike hm.ne 0 1).bind (fun _ _ _ => (btreeR_ralike hm.ne hu vinit_same).bind (fun b b' hb => (f2kNewR_alike hm hb.1).bind (fun s s' hs =>
    (mtreeR_ralike hm he hb.2 hs).bind (fun r r' hr => (f2kDelR_alike hm hr.1).bind (fun q q' hq => (btreeR_ralike hm.ne hr.2 hq.b).bind (fun c c' hc =>
      (bfinR_alike hm.ne hc.1).bind (fun d d' hd => .done ?_)))))))
  exact ⟨hd, hq.fw, hq.left, hq.rght, hq.auth, hq.cnt, hq.fills, hq.polys, hq.rs, hq.np⟩

end
end EmpZk
