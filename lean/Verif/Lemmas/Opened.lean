/-
How many bits have been opened after some instructions, in any run.
-/
import Verif.Lemmas.Robust
import Verif.Lemmas.Branch
import Verif.Spec.Route

namespace EmpZk

/-- `Q` holds of every result. -/
def RPost {α : Type} (Q : α → Prop) (q : RProg α) : Prop := ∀ a, RPath q (.done a) → Q a

/-- `Q` holds of every result. -/
def SPost {α : Type} (Q : α → Prop) (q : SProg α) : Prop := ∀ a, SPath q (.done a) → Q a

section
variable {α β : Type} {Q : α → Prop} {R : β → Prop}

theorem RPost.done {a : α} (h : Q a) : RPost Q (.done a) := by intro b hb; cases hb; exact h
theorem RPost.fail : RPost Q .fail := by intro b hb; cases hb
theorem RPost.stop : RPost Q .stop := by intro b hb; cases hb
theorem RPost.call {o : ROp} {k : Bool → List Byte → RProg α} (h : ∀ d bs, RPost Q (k d bs)) : RPost Q (.call o k) := by
  intro b hb; cases hb with | call hb => exact h _ _ b hb
theorem RPost.opt {x : Option α} (h : ∀ a, x = some a → Q a) : RPost Q (RProg.ofOpt x) := by
  cases x with
  | none => exact RPost.fail
  | some a => exact RPost.done (h a rfl)
theorem RPost.top (q : RProg α) : RPost (fun _ => True) q := fun _ _ => trivial

theorem RPost.bind {f : α → RProg β} {q : RProg α} (h : RPost Q q) (hf : ∀ a, Q a → RPost R (f a)) : RPost R (q.bind f) := by
  induction q with
  | done a => exact hf a (h a .refl)
  | stop => exact RPost.stop
  | fail => exact RPost.fail
  | call o k ih => exact RPost.call (fun d bs => ih d bs (fun a ha => h a (.call ha)))

theorem RPost.ite {c : Prop} [Decidable c] {q q' : RProg α} (h : RPost Q q) (h' : RPost Q q') : RPost Q (if c then q else q') := by split <;> assumption

theorem SPost.done {a : α} (h : Q a) : SPost Q (.done a) := by intro b hb; cases hb; exact h
theorem SPost.fail : SPost Q .fail := by intro b hb; cases hb
theorem SPost.stop : SPost Q .stop := by intro b hb; cases hb
theorem SPost.call {o : SOp} {k : List Byte → SProg α} (h : ∀ d, SPost Q (k d)) : SPost Q (.call o k) := by
  intro b hb; cases hb with | call hb => exact h _ b hb
theorem SPost.opt {x : Option α} (h : ∀ a, x = some a → Q a) : SPost Q (SProg.ofOpt x) := by
  cases x with
  | none => exact SPost.fail
  | some a => exact SPost.done (h a rfl)
theorem SPost.top (q : SProg α) : SPost (fun _ => True) q := fun _ _ => trivial

theorem SPost.bind {f : α → SProg β} {q : SProg α} (h : SPost Q q) (hf : ∀ a, Q a → SPost R (f a)) : SPost R (q.bind f) := by
  induction q with
  | done a => exact hf a (h a .refl)
  | stop => exact SPost.stop
  | fail => exact SPost.fail
  | call o k ih => exact SPost.call (fun d => ih d (fun a ha => h a (.call ha)))

theorem SPost.ite {c : Prop} [Decidable c] {q q' : SProg α} (h : SPost Q q) (h' : SPost Q q') : SPost Q (if c then q else q') := by split <;> assumption

end

/-- `n` more bits have been opened. -/
def More (n : Nat) (o o' : List Bool) : Prop := ∃ x, o' = o ++ x ∧ x.length = n

theorem More.refl (o : List Bool) : More 0 o o := ⟨[], by simp⟩
theorem More.of_eq {o o' : List Bool} (h : o' = o) : More 0 o o' := h ▸ .refl o
theorem More.trans {n m : Nat} {o o1 o2 : List Bool} (h : More n o o1) (h' : More m o1 o2) : More (n + m) o o2 := by
  obtain ⟨x, rfl, rfl⟩ := h
  obtain ⟨y, rfl, rfl⟩ := h'
  exact ⟨x ++ y, by simp, by simp⟩

section
variable {F : Type} [Field F] [BlockField F] [DecidableEq F]

theorem andRoomR_outs (ne : NetEnv F) (s : VerSt F) : RPost (fun r => r.outs = s.outs) (andRoomR ne s) := by
  refine RPost.ite (RPost.call (fun _ d => (RPost.top _).bind (fun _ _ => RPost.call (fun _ bs => (RPost.opt (Q := fun r => r.outs = s.outs) ?_).bind
    (fun r hr => RPost.call (fun _ _ => RPost.done hr)))))) (RPost.done rfl)
  intro r hr
  unfold verAndCheck at hr
  split at hr
  · cases hr
  · cases hr; rfl

theorem polyRoomR_outs (ne : NetEnv F) (s : VerSt F) : RPost (fun r => r.outs = s.outs) (polyRoomR ne s) :=
  RPost.ite (RPost.call (fun _ d => (RPost.top _).bind (fun _ _ => RPost.call (fun _ bs => RPost.done rfl)))) (RPost.done rfl)

theorem bopR_more (ne : NetEnv F) (s : VerSt F) (o : BOp) : RPost (fun r => More o.opens s.outs r.outs) (bopR ne s o) := by
  have step : ∀ {d : Bool} {r : VerSt F}, verStep ne.e s ⟨d, 0, 0⟩ o = some r → More o.opens s.outs r.outs := by
    intro d r hr
    refine ⟨_, verStep_outs hr, ?_⟩
    cases o <;> rfl
  cases o with
  | input b => exact (RPost.top _).bind (fun _ _ => RPost.call (fun d _ => RPost.opt (fun r hr => step hr)))
  | reveal i => exact RPost.call (fun d _ => RPost.opt (fun r hr => step hr))
  | pub b => exact RPost.opt (fun r hr => step (d := false) hr)
  | xor i j => exact RPost.opt (fun r hr => step hr)
  | not i => exact RPost.opt (fun r hr => step hr)
  | and i j =>
    refine (RPost.top _).bind (fun a _ => (RPost.top _).bind (fun b _ => (andRoomR_outs ne s).bind (fun s1 h1 => (RPost.top _).bind (fun _ _ =>
      RPost.call (fun d _ => RPost.opt (fun r hr => ?_))))))
    unfold verAndPush at hr
    split at hr
    · cases hr; exact .of_eq h1
    · cases hr
  | poly p =>
    refine (RPost.top _).bind (fun a _ => (polyRoomR_outs ne s).bind (fun s1 h1 => RPost.opt (fun r hr => ?_)))
    unfold verPolyPush at hr
    split at hr
    · cases hr; exact .of_eq h1
    · cases hr

theorem bopsR_more (ne : NetEnv F) : ∀ (l : List BOp) (s : VerSt F), RPost (fun r => More (l.map BOp.opens).sum s.outs r.outs) (bopsR ne s l)
  | [], s => RPost.done (.refl _)
  | o :: l, s => (bopR_more ne s o).bind (fun s1 h1 => fun r hr => by
      rw [List.map_cons, List.sum_cons]; exact h1.trans (bopsR_more ne l s1 r hr))

theorem sum_inputs (l : List Bool) : ((l.map BOp.input).map BOp.opens).sum = 0 := by
  induction l with
  | nil => rfl
  | cons b l ih => simpa [BOp.opens] using ih

theorem f2kCheckR_outs (me : MixEnv F) (s : MVer F) : RPost (fun r => r.b.outs = s.b.outs) (f2kCheckR me s) :=
  RPost.call (fun _ _ => RPost.call (fun _ _ => (RPost.top _).bind (fun _ _ => (RPost.top _).bind (fun _ _ => RPost.call (fun _ _ =>
    (RPost.top _).bind (fun _ _ => RPost.call (fun _ _ => RPost.done rfl)))))))

theorem prdtCheckR_outs (me : MixEnv F) (s : MVer F) : RPost (fun r => r.b.outs = s.b.outs) (prdtCheckR me s) :=
  RPost.call (fun _ _ => RPost.call (fun _ _ => RPost.call (fun _ _ => RPost.ite (RPost.done rfl) RPost.stop)))

theorem mopR_more (me : MixEnv F) (s : MVer F) (o : MOp) : RPost (fun r => More o.opens s.b.outs r.b.outs) (mopR me s o) := by
  cases o with
  | bool o => exact (bopR_more me.ne s.b o).bind (fun b hb => RPost.done hb)
  | pack ws => exact (RPost.top _).bind (fun _ _ => (RPost.top _).bind (fun _ _ => RPost.done (.refl _)))
  | chal => exact RPost.call (fun _ _ => RPost.done (.refl _))
  | addc i k => exact (RPost.top _).bind (fun _ _ => (RPost.top _).bind (fun _ _ => RPost.done (.refl _)))
  | mul i j =>
    refine (RPost.top _).bind (fun a _ => (RPost.top _).bind (fun b _ => ?_))
    refine (RPost.ite (Q := fun r => r.b.outs = s.b.outs) (f2kCheckR_outs me s) (RPost.done rfl)).bind (fun s1 h1 => ?_)
    refine (RPost.ite (Q := fun r => r.b.outs = s.b.outs) ((RPost.top _).bind (fun _ _ => RPost.done h1)) (RPost.done h1)).bind (fun s2 h2 => ?_)
    exact RPost.call (fun _ _ => (RPost.top _).bind (fun _ _ => RPost.done (.of_eq h2)))
  | mulN is =>
    refine (RPost.top _).bind (fun xs _ => (bopsR_more me.ne _ s.b).bind (fun b1 h1 => (RPost.top _).bind (fun m _ => (RPost.top _).bind (fun e _ => ?_))))
    rw [sum_inputs] at h1
    refine (RPost.ite (Q := fun r => r.b.outs = b1.outs) (prdtCheckR_outs me _) (RPost.done rfl)).bind (fun s2 h2 => RPost.ite (RPost.done ?_) RPost.fail)
    show More 0 s.b.outs s2.b.outs
    rw [h2]; exact h1
  | eq i j => exact (RPost.top _).bind (fun _ _ => (RPost.top _).bind (fun _ _ => RPost.call (fun _ _ => RPost.ite (RPost.done (.refl _)) RPost.stop)))
  | sync => exact RPost.call (fun _ _ => RPost.done (.refl _))
  | packAt ps => exact (RPost.top _).bind (fun _ _ => RPost.done (.refl _))
  | chals n => exact RPost.call (fun _ _ => RPost.done (.refl _))
  | lin l => exact (RPost.top _).bind (fun _ _ => RPost.done (.refl _))

theorem mopsR_more (me : MixEnv F) : ∀ (l : List MOp) (s : MVer F), RPost (fun r => More (l.map MOp.opens).sum s.b.outs r.b.outs) (mopsR me s l)
  | [], s => RPost.done (.refl _)
  | o :: l, s => (mopR_more me s o).bind (fun s1 h1 => fun r hr => by
      rw [List.map_cons, List.sum_cons]; exact h1.trans (mopsR_more me l s1 r hr))

theorem f2kNewR_outs (me : MixEnv F) (b : VerSt F) : RPost (fun r => r.b.outs = b.outs) (f2kNewR me b) := (RPost.top _).bind (fun _ _ => RPost.done rfl)

theorem f2kDelR_outs (me : MixEnv F) (s : MVer F) : RPost (fun r => r.b.outs = s.b.outs) (f2kDelR me s) :=
  (RPost.ite (Q := fun r => r.b.outs = s.b.outs) (prdtCheckR_outs me s) (RPost.done rfl)).bind (fun s1 h1 =>
    RPost.ite (fun r hr => (f2kCheckR_outs me s1 r hr).trans h1) (RPost.done h1))

theorem andRoomS_outs (ne : NetEnv F) (s : PrvSt F) : SPost (fun r => r.outs = s.outs) (andRoomS ne s) := by
  refine SPost.ite (SPost.call (fun d => (SPost.top _).bind (fun _ _ => (SPost.opt (Q := fun r => r.1.outs = s.outs) ?_).bind
    (fun r hr => SPost.call (fun _ => SPost.call (fun _ => SPost.done hr)))))) (SPost.done rfl)
  intro r hr
  unfold prvAndCheck at hr
  split at hr
  · cases hr
  · cases hr; rfl

theorem polyRoomS_outs (ne : NetEnv F) (s : PrvSt F) : SPost (fun r => r.outs = s.outs) (polyRoomS ne s) :=
  SPost.ite (SPost.call (fun d => (SPost.top _).bind (fun _ _ => SPost.call (fun _ => SPost.done rfl)))) (SPost.done rfl)

theorem bopS_more (ne : NetEnv F) (s : PrvSt F) (o : BOp) : SPost (fun r => More o.opens s.outs r.outs) (bopS ne s o) := by
  cases o with
  | input b => exact (SPost.top _).bind (fun _ _ => (SPost.opt (Q := fun r : PrvSt F × BMsg F => More 0 s.outs r.1.outs) (fun r hr => by
      cases hr; exact .refl _)).bind (fun r hr => SPost.call (fun _ => SPost.done hr)))
  | reveal i =>
    refine (SPost.opt (Q := fun r : PrvSt F × BMsg F => More 1 s.outs r.1.outs) (fun r hr => ?_)).bind (fun r hr => SPost.call (fun _ => SPost.done hr))
    simp only [prvStep, Option.bind_eq_bind, Option.bind_eq_some_iff] at hr
    obtain ⟨a, _, hr⟩ := hr
    cases hr
    exact ⟨_, rfl, rfl⟩
  | pub b => exact (SPost.opt (Q := fun r : PrvSt F × BMsg F => More 0 s.outs r.1.outs) (fun r hr => by cases hr; exact .refl _)).bind (fun r hr => SPost.done hr)
  | xor i j =>
    refine (SPost.opt (Q := fun r : PrvSt F × BMsg F => More 0 s.outs r.1.outs) (fun r hr => ?_)).bind (fun r hr => SPost.done hr)
    simp only [prvStep, Option.bind_eq_bind, Option.bind_eq_some_iff] at hr
    obtain ⟨a, _, b, _, hr⟩ := hr
    cases hr; exact .refl _
  | not i =>
    refine (SPost.opt (Q := fun r : PrvSt F × BMsg F => More 0 s.outs r.1.outs) (fun r hr => ?_)).bind (fun r hr => SPost.done hr)
    simp only [prvStep, Option.bind_eq_bind, Option.bind_eq_some_iff] at hr
    obtain ⟨a, _, hr⟩ := hr
    cases hr; exact .refl _
  | and i j =>
    refine (SPost.top _).bind (fun a _ => (SPost.top _).bind (fun b _ => (andRoomS_outs ne s).bind (fun s1 h1 => (SPost.top _).bind (fun _ _ =>
      (SPost.opt (Q := fun r : PrvSt F × Bool => More 0 s.outs r.1.outs) (fun r hr => ?_)).bind (fun r hr => SPost.call (fun _ => SPost.done hr))))))
    unfold prvAndPush at hr
    split at hr
    · cases hr; exact .of_eq h1
    · cases hr
  | poly p =>
    refine (SPost.top _).bind (fun a _ => (polyRoomS_outs ne s).bind (fun s1 h1 => SPost.opt (fun r hr => ?_)))
    unfold prvPolyPush at hr
    split at hr
    · cases hr; exact .of_eq h1
    · cases hr

theorem bopsS_more (ne : NetEnv F) : ∀ (l : List BOp) (s : PrvSt F), SPost (fun r => More (l.map BOp.opens).sum s.outs r.outs) (bopsS ne s l)
  | [], s => SPost.done (.refl _)
  | o :: l, s => (bopS_more ne s o).bind (fun s1 h1 => fun r hr => by
      rw [List.map_cons, List.sum_cons]; exact h1.trans (bopsS_more ne l s1 r hr))

theorem f2kCheckS_outs (me : MixEnv F) (s : MPrv F) : SPost (fun r => r.b.outs = s.b.outs) (f2kCheckS me s) :=
  SPost.call (fun _ => SPost.call (fun _ => (SPost.top _).bind (fun _ _ => (SPost.top _).bind (fun _ _ =>
    (SPost.top _).bind (fun _ _ => SPost.call (fun _ => SPost.call (fun _ => SPost.done rfl)))))))

theorem prdtCheckS_outs (me : MixEnv F) (s : MPrv F) : SPost (fun r => r.b.outs = s.b.outs) (prdtCheckS me s) :=
  SPost.call (fun _ => SPost.call (fun _ => SPost.call (fun _ => SPost.done rfl)))

theorem mopS_more (me : MixEnv F) (s : MPrv F) (o : MOp) : SPost (fun r => More o.opens s.b.outs r.b.outs) (mopS me s o) := by
  cases o with
  | bool o => exact (bopS_more me.ne s.b o).bind (fun b hb => SPost.done hb)
  | pack ws => exact (SPost.top _).bind (fun _ _ => (SPost.top _).bind (fun _ _ => SPost.done (.refl _)))
  | chal => exact SPost.call (fun _ => SPost.done (.refl _))
  | addc i k => exact (SPost.top _).bind (fun _ _ => (SPost.top _).bind (fun _ _ => SPost.done (.refl _)))
  | mul i j =>
    refine (SPost.top _).bind (fun a _ => (SPost.top _).bind (fun b _ => ?_))
    refine (SPost.ite (Q := fun r => r.b.outs = s.b.outs) (f2kCheckS_outs me s) (SPost.done rfl)).bind (fun s1 h1 => ?_)
    refine (SPost.ite (Q := fun r => r.b.outs = s.b.outs) ((SPost.top _).bind (fun _ _ => SPost.done h1)) (SPost.done h1)).bind (fun s2 h2 => ?_)
    exact (SPost.top _).bind (fun _ _ => SPost.call (fun _ => SPost.done (.of_eq h2)))
  | mulN is =>
    refine (SPost.top _).bind (fun xs _ => (bopsS_more me.ne _ s.b).bind (fun b1 h1 => (SPost.top _).bind (fun m _ => (SPost.top _).bind (fun e _ => ?_))))
    rw [sum_inputs] at h1
    refine (SPost.ite (Q := fun r => r.b.outs = b1.outs) (prdtCheckS_outs me _) (SPost.done rfl)).bind (fun s2 h2 => SPost.ite (SPost.done ?_) SPost.fail)
    show More 0 s.b.outs s2.b.outs
    rw [h2]; exact h1
  | eq i j => exact (SPost.top _).bind (fun _ _ => (SPost.top _).bind (fun _ _ => SPost.call (fun _ => SPost.done (.refl _))))
  | sync => exact SPost.call (fun _ => SPost.done (.refl _))
  | packAt ps => exact (SPost.top _).bind (fun _ _ => (SPost.top _).bind (fun _ _ => SPost.done (.refl _)))
  | chals n => exact SPost.call (fun _ => SPost.done (.refl _))
  | lin l => exact (SPost.top _).bind (fun _ _ => (SPost.top _).bind (fun _ _ => SPost.done (.refl _)))

theorem mopsS_more (me : MixEnv F) : ∀ (l : List MOp) (s : MPrv F), SPost (fun r => More (l.map MOp.opens).sum s.b.outs r.b.outs) (mopsS me s l)
  | [], s => SPost.done (.refl _)
  | o :: l, s => (mopS_more me s o).bind (fun s1 h1 => fun r hr => by
      rw [List.map_cons, List.sum_cons]; exact h1.trans (mopsS_more me l s1 r hr))

theorem f2kNewS_outs (me : MixEnv F) (b : PrvSt F) : SPost (fun r => r.b.outs = b.outs) (f2kNewS me b) := (SPost.top _).bind (fun _ _ => SPost.done rfl)

theorem f2kDelS_outs (me : MixEnv F) (s : MPrv F) : SPost (fun r => r.b.outs = s.b.outs) (f2kDelS me s) :=
  (SPost.ite (Q := fun r => r.b.outs = s.b.outs) (prdtCheckS_outs me s) (SPost.done rfl)).bind (fun s1 h1 =>
    SPost.ite (fun r hr => (f2kCheckS_outs me s1 r hr).trans h1) (SPost.done h1))

end
end EmpZk
