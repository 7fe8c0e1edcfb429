/-
The bits a prover computes are those of the plain program whatever it receives, hence provers of branching programs that reveal the same bits
take the same branches.
-/
import Verif.Spec.BranchTraffic
import Verif.Lemmas.MixTraffic
import Verif.Lemmas.BoolAlg

namespace EmpZk

/-- Every result of the program satisfies `Q`, whatever it receives. -/
def SAll {α : Type} (Q : α → Prop) : SProg α → Prop
  | .done a => Q a
  | .fail => True
  | .stop => True
  | .call _ k => ∀ x, SAll Q (k x)

section
variable {α β : Type} {Q : α → Prop} {R : β → Prop}

theorem SAll.bind {P : SProg α} {f : α → SProg β} (h : SAll Q P) (hf : ∀ a, Q a → SAll R (f a)) : SAll R (P.bind f) := by
  induction P with
  | done a => exact hf a h
  | fail => trivial
  | stop => trivial
  | call o k ih => exact fun x => ih x (h x)

theorem SAll.opt {a : Option α} (h : ∀ x, a = some x → Q x) : SAll Q (SProg.ofOpt a) := by
  cases a with
  | none => trivial
  | some x => exact h x rfl

theorem SAll.calls (l : List SOp) : SAll (fun _ => True) (SProg.calls l) := by
  induction l with
  | nil => trivial
  | cons o l ih => exact fun _ => ih

theorem Alike.and {K : α → β → Prop} {P : SProg α} {P' : SProg β} (h : Alike EqMsg K P P') (hq : SAll Q P) (hr : SAll R P') :
    Alike EqMsg (fun a b => K a b ∧ Q a ∧ R b) P P' := by
  induction h with
  | done h => exact .done ⟨h, hq, hr⟩
  | fail => exact .fail
  | stop => exact .stop
  | call hk _ ih => exact .call hk (fun x y hxy => ih x y hxy (hq x) (hr y))

end

section
variable {F : Type} [Field F] [BlockField F]

/-- The prover's labels carry the plain bits, and it has been given the plain results. -/
structure Tracks (p : Plain) (s : PrvSt F) : Prop where
  wires : s.wires.map lsb = p.wires
  outs : s.outs = p.outs

variable {ne : NetEnv F} {me : MixEnv F} {p q : Plain} {s : PrvSt F} {t : MPrv F}

theorem Tracks.get (h : Tracks p s) {i : Nat} {x : Bool} {a : F} (hx : p.wires[i]? = some x) (ha : s.wires[i]? = some a) : lsb a = x := by
  rw [← h.wires, List.getElem?_map, ha] at hx
  simpa using hx

theorem Tracks.push (h : Tracks p s) {a : F} {x : Bool} (hx : lsb a = x) {n : Nat} {g : List (Gate F)} {tr : List Bool} :
    Tracks { p with wires := p.wires ++ [x] } { s with wires := s.wires ++ [a], used := n, gates := g, transcript := tr } :=
  ⟨by simp [h.wires, hx], h.outs⟩

theorem andCheckS_tracks (h : Tracks p s) : SAll (Tracks p) (andCheckS ne s) := by
  refine fun d => (SAll.calls _).bind (fun _ _ => (SAll.opt (Q := fun r => Tracks p r.1) (fun r hr => ?_)).bind (fun r hr => by exact fun _ _ => hr))
  unfold prvAndCheck at hr
  split at hr
  · cases hr
  · cases hr
    exact ⟨h.wires, h.outs⟩

theorem polyCheckS_tracks (h : Tracks p s) : SAll (Tracks p) (polyCheckS ne s) :=
  fun _ => (SAll.calls _).bind (fun _ _ => fun _ => ⟨h.wires, h.outs⟩)

theorem andRoomS_tracks (h : Tracks p s) : SAll (Tracks p) (andRoomS ne s) := by
  unfold andRoomS
  split
  · exact andCheckS_tracks h
  · exact h

theorem polyRoomS_tracks (h : Tracks p s) : SAll (Tracks p) (polyRoomS ne s) := by
  unfold polyRoomS
  split
  · exact polyCheckS_tracks h
  · exact h

theorem bopS_tracks (h : Tracks p s) {o : BOp} (ho : plainStep p o = some q) : SAll (Tracks q) (bopS ne s o) := by
  cases o with
  | input b =>
    refine (SAll.calls _).bind (fun _ _ => (SAll.opt (Q := fun r => Tracks q r.1) (fun r hr => ?_)).bind (fun r hr => by exact fun _ => hr))
    cases hr
    cases ho
    exact h.push (lsb_inputPrv _ _)
  | pub b =>
    refine (SAll.opt (Q := fun r => Tracks q r.1) (fun r hr => ?_)).bind (fun r hr => by exact hr)
    cases hr
    cases ho
    exact h.push (lsb_pubPrv _ _ _)
  | xor i j =>
    simp only [plainStep, Option.bind_eq_bind, Option.bind_eq_some_iff, Option.some.injEq] at ho
    obtain ⟨x, hx, y, hy, hq⟩ := ho
    refine (SAll.opt (Q := fun r => Tracks q r.1) (fun r hr => ?_)).bind (fun r hr => by exact hr)
    simp only [prvStep, Option.bind_eq_bind, Option.bind_eq_some_iff, Option.some.injEq] at hr
    obtain ⟨a, ha, b, hb, rfl⟩ := hr
    subst hq
    exact h.push (by rw [xorGate, lsb_add, h.get hx ha, h.get hy hb])
  | not i =>
    simp only [plainStep, Option.bind_eq_bind, Option.bind_eq_some_iff, Option.some.injEq] at ho
    obtain ⟨x, hx, hq⟩ := ho
    refine (SAll.opt (Q := fun r => Tracks q r.1) (fun r hr => ?_)).bind (fun r hr => by exact hr)
    simp only [prvStep, Option.bind_eq_bind, Option.bind_eq_some_iff, Option.some.injEq] at hr
    obtain ⟨a, ha, rfl⟩ := hr
    subst hq
    exact h.push (by simp [notPrv, lsb_add, h.get hx ha])
  | and i j =>
    simp only [plainStep, Option.bind_eq_bind, Option.bind_eq_some_iff, Option.some.injEq] at ho
    obtain ⟨x, hx, y, hy, hq⟩ := ho
    refine (SAll.opt (Q := fun a => lsb a = x) (fun a ha => h.get hx ha)).bind (fun a ha =>
      (SAll.opt (Q := fun b => lsb b = y) (fun b hb => h.get hy hb)).bind (fun b hb => (andRoomS_tracks h).bind (fun s1 h1 =>
        (SAll.calls _).bind (fun _ _ => (SAll.opt (Q := fun r => Tracks q r.1) (fun r hr => ?_)).bind (fun r hr => by exact fun _ => hr)))))
    unfold prvAndPush at hr
    split at hr
    · cases hr
      subst hq
      exact h1.push (by rw [lsb_andPrv, ha, hb])
    · cases hr
  | reveal i =>
    simp only [plainStep, Option.bind_eq_bind, Option.bind_eq_some_iff, Option.some.injEq] at ho
    obtain ⟨x, hx, hq⟩ := ho
    refine (SAll.opt (Q := fun r => Tracks q r.1) (fun r hr => ?_)).bind (fun r hr => by exact fun _ => hr)
    simp only [prvStep, Option.bind_eq_bind, Option.bind_eq_some_iff, Option.some.injEq] at hr
    obtain ⟨a, ha, rfl⟩ := hr
    subst hq
    exact ⟨h.wires, by simp [h.outs, h.get hx ha]⟩
  | poly st =>
    simp only [plainStep, Option.bind_eq_bind, Option.bind_eq_some_iff, Option.some.injEq] at ho
    obtain ⟨x, hx, hq⟩ := ho
    refine (SAll.opt (Q := fun _ => True) (fun _ _ => trivial)).bind (fun a _ => (polyRoomS_tracks h).bind (fun s1 h1 => SAll.opt (fun r hr => ?_)))
    unfold prvPolyPush at hr
    split at hr
    · cases hr
      subst hq
      exact ⟨h1.wires, h1.outs⟩
    · cases hr

theorem bopsS_tracks : ∀ {l : List BOp} {p q : Plain} {s : PrvSt F}, Tracks p s → l.foldlM plainStep p = some q → SAll (Tracks q) (bopsS ne s l)
  | [], _, _, _, h, hq => by cases hq; exact h
  | o :: l, p, q, s, h, hq => by
    rw [List.foldlM_cons, Option.bind_eq_bind, Option.bind_eq_some_iff] at hq
    obtain ⟨m, hm, hq⟩ := hq
    exact (bopS_tracks h hm).bind (fun s1 h1 => bopsS_tracks h1 hq)

theorem inputs_plain (l : List Bool) : ∀ p : Plain, ∃ q, (l.map BOp.input).foldlM plainStep p = some q ∧ q.outs = p.outs := by
  induction l with
  | nil => exact fun p => ⟨p, rfl, rfl⟩
  | cons b l ih =>
    intro p
    obtain ⟨q, h1, h2⟩ := ih { p with wires := p.wires ++ [b] }
    exact ⟨q, h1, h2⟩

theorem f2kCheckS_tracks (h : Tracks p t.b) : SAll (fun r => Tracks p r.b) (f2kCheckS me t) :=
  fun _ _ => (SAll.opt (Q := fun _ => True) (fun _ _ => trivial)).bind (fun _ _ => (SAll.calls _).bind (fun _ _ =>
    (SAll.opt (Q := fun _ => True) (fun _ _ => trivial)).bind (fun _ _ => fun _ _ => ⟨h.wires, h.outs⟩)))

theorem f2kMulS_tracks (h : Tracks p t.b) (a b : F × F) : SAll (fun r => Tracks p r.b) (f2kMulS me t a b) := by
  refine SAll.bind (Q := fun r => Tracks p r.b) ?_ (fun s1 h1 => SAll.bind (Q := fun r => Tracks p r.b) ?_ (fun s2 h2 =>
    (SAll.opt (Q := fun _ => True) (fun _ _ => trivial)).bind (fun _ _ => by exact fun _ => h2)))
  · unfold f2kRoomS
    split
    · exact f2kCheckS_tracks h
    · exact h
  · unfold f2kFillS
    split
    · exact (SAll.calls _).bind (fun _ _ => ⟨h1.wires, h1.outs⟩)
    · exact h1

theorem prdtCheckS_tracks (h : Tracks p t.b) : SAll (fun r => Tracks p r.b) (prdtCheckS me t) := fun _ _ _ => h

theorem f2kMulNS_tracks (h : Tracks p t.b) (xs : List (F × F)) : SAll (fun r => Tracks p r.b) (f2kMulNS me t xs) := by
  obtain ⟨q, h1, h2⟩ := inputs_plain (me.lo (xs.map Prod.fst).prod ++ me.hi (xs.map Prod.fst).prod) p
  refine (bopsS_tracks h h1).bind (fun b1 hb => (SAll.opt (Q := fun _ => True) (fun _ _ => trivial)).bind (fun _ _ =>
    (SAll.opt (Q := fun _ => True) (fun _ _ => trivial)).bind (fun _ _ => SAll.bind (Q := fun r => Tracks p r.b) ?_ (fun s2 hs => ?_))))
  · have hn : Tracks p { b1 with wires := t.b.wires } := ⟨h.wires, hb.outs.trans h2⟩
    unfold prdtRoomS
    split
    · exact prdtCheckS_tracks hn
    · exact hn
  · split
    · exact hs
    · trivial

theorem mopS_tracks (h : Tracks p t.b) {o : MOp} (ho : MOp.bits p o = some q) : SAll (fun r => Tracks q r.b) (mopS me t o) := by
  have opt {α : Type} {a : Option α} {f : α → SProg (MPrv F)} (hf : ∀ x, SAll (fun r => Tracks q r.b) (f x)) :
      SAll (fun r => Tracks q r.b) ((SProg.ofOpt a).bind f) := (SAll.opt (Q := fun _ => True) (fun _ _ => trivial)).bind (fun x _ => hf x)
  cases o with
  | bool o => exact (bopS_tracks h ho).bind (fun b hb => hb)
  | pack ws => cases ho; exact opt (fun _ => opt (fun _ => h))
  | chal => cases ho; exact fun _ => h
  | addc i k => cases ho; exact opt (fun _ => opt (fun _ => h))
  | mul i j => cases ho; exact opt (fun _ => opt (fun _ => f2kMulS_tracks h _ _))
  | mulN is => cases ho; exact opt (fun _ => f2kMulNS_tracks h _)
  | eq i j => cases ho; exact opt (fun _ => opt (fun _ => fun _ => h))
  | sync => cases ho; exact fun _ => h
  | packAt ps => cases ho; exact opt (fun _ => opt (fun _ => h))
  | chals n => cases ho; exact fun _ => h
  | lin l => cases ho; exact opt (fun _ => opt (fun _ => h))

theorem mopsS_tracks : ∀ {l : List MOp} {p q : Plain} {t : MPrv F}, Tracks p t.b → l.foldlM MOp.bits p = some q →
    SAll (fun r => Tracks q r.b) (mopsS me t l)
  | [], _, _, _, h, hq => by cases hq; exact h
  | o :: l, p, q, t, h, hq => by
    rw [List.foldlM_cons, Option.bind_eq_bind, Option.bind_eq_some_iff] at hq
    obtain ⟨m, hm, hq⟩ := hq
    exact (mopS_tracks h hm).bind (fun s1 h1 => mopsS_tracks h1 hq)

theorem f2kNewS_tracks (h : Tracks p s) : SAll (fun r => Tracks p r.b) (f2kNewS me s) := (SAll.calls _).bind (fun _ _ => ⟨h.wires, h.outs⟩)

theorem f2kDelS_tracks (h : Tracks p t.b) : SAll (fun r => Tracks p r.b) (f2kDelS me t) := by
  refine SAll.bind (Q := fun r => Tracks p r.b) ?_ (fun s1 h1 => ?_)
  · split
    · exact prdtCheckS_tracks h
    · exact h
  · split
    · exact f2kCheckS_tracks h1
    · exact h1

variable {ne' : NetEnv F} {me' : MixEnv F} {α : Type} {Q : Plain → Plain → α → α → Prop}

theorem btreeS_alike (hn : ne.Same ne') {p p' : Plain} {u u' : Branch BOp α} (hu : OpensB Q p p' u u') :
    ∀ {s s' : PrvSt F}, PSame s s' → Tracks p s → Tracks p' s' →
      Alike EqMsg (fun r r' => PSame r.1 r'.1 ∧ ∃ q q', Tracks q r.1 ∧ Tracks q' r'.1 ∧ Q q q' r.2 r'.2) (btreeS ne s u) (btreeS ne' s' u') := by
  induction hu with
  | fin h => intro s s' hs h1 h2; exact .done ⟨hs, _, _, h1, h2, h⟩
  | ops hl hq hq' ho _ ih =>
    intro s s' hs h1 h2
    refine ((bopsS_alike hn hl hs).and (bopsS_tracks h1 hq) (bopsS_tracks h2 hq')).bind (fun r r' hr => ?_)
    rw [hr.2.1.outs, hr.2.2.outs, ← ho]
    exact ih hr.1 hr.2.1 hr.2.2

theorem mtreeS_alike (hm : me.Same me') {p p' : Plain} {u u' : Branch MOp α} (hu : Branch.Opens MOp.erase MOp.bits Plain.outs Q p p' u u') :
    ∀ {s s' : MPrv F}, MSame s s' → Tracks p s.b → Tracks p' s'.b →
      Alike EqMsg (fun r r' => MSame r.1 r'.1 ∧ ∃ q q', Tracks q r.1.b ∧ Tracks q' r'.1.b ∧ Q q q' r.2 r'.2) (mtreeS me s u) (mtreeS me' s' u') := by
  induction hu with
  | fin h => intro s s' hs h1 h2; exact .done ⟨hs, _, _, h1, h2, h⟩
  | ops hl hq hq' ho _ ih =>
    intro s s' hs h1 h2
    refine ((mopsS_alike hm hl hs).and (mopsS_tracks h1 hq) (mopsS_tracks h2 hq')).bind (fun r r' hr => ?_)
    rw [hr.2.1.outs, hr.2.2.outs, ← ho]
    exact ih hr.1 hr.2.1 hr.2.2

/-- Whole provers of branching programs. -/
theorem branchProver_alike (hm : me.Same me') {u u' : SessTree} (hu : u.Opens u') : Alike EqMsg MSame (branchProver me u) (branchProver me' u') := by
  unfold branchProver branchS
  refine Alike.bind (R := MSame) ?_ (fun a b hab => .call rfl (fun _ _ _ => .done hab))
  refine (rcot_alike hm.ne 0 1).bind (fun _ _ _ => (btreeS_alike hm.ne hu init_same ⟨rfl, rfl⟩ ⟨rfl, rfl⟩).bind (fun b b' hb => ?_))
  obtain ⟨hb, p, p', h1, h2, hu⟩ := hb
  refine ((f2kNewS_alike hm hb).and (f2kNewS_tracks h1) (f2kNewS_tracks h2)).bind (fun s s' hs =>
    (mtreeS_alike hm hu hs.1 hs.2.1 hs.2.2).bind (fun r r' hr => ?_))
  obtain ⟨hr, p, p', h1, h2, hu⟩ := hr
  refine ((f2kDelS_alike hm hr).and (f2kDelS_tracks h1) (f2kDelS_tracks h2)).bind (fun q q' hq =>
    (btreeS_alike hm.ne hu hq.1.b hq.2.1 hq.2.2).bind (fun c c' hc => (bfinS_alike hm.ne hc.1).bind (fun d d' hd => .done ?_)))
  have hq := hq.1
  exact ⟨hd, hq.fw, hq.left, hq.rght, hq.auth, hq.cnt, hq.fills, hq.polys, hq.rs⟩

end
end EmpZk
