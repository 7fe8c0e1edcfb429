/-
A branching program that fails in some run has a way through it that fails.
-/
import Verif.Lemmas.Opened

namespace EmpZk

theorem route_of_leads {ι α : Type} {n : ι → Nat} {Q : List Bool → α → Prop} (t : Branch ι α) : ∀ {o : List Bool}, Branch.Leads n Q o t →
    ∃ l o' a, Branch.Route n o t l o' a ∧ Q o' a := by
  induction t with
  | fin a => intro o h; exact ⟨_, _, _, .fin o a, h⟩
  | ops l k ih =>
    intro o h
    obtain ⟨l', o', a, h1, h2⟩ := ih _ (h (List.replicate (l.map n).sum false) (by simp))
    exact ⟨_, _, _, .ops _ (by simp) h1, h2⟩
  | undef => intro o h; exact h.elim

section
variable {α β : Type}

theorem RPath.of_bind {f : α → RProg β} (q : RProg α) : RPath (q.bind f) .fail → RPath q .fail ∨ ∃ a, RPath q (.done a) ∧ RPath (f a) .fail := by
  induction q with
  | done a => intro h; exact .inr ⟨a, .refl, h⟩
  | stop => intro h; cases h
  | fail => intro _; exact .inl .refl
  | call o k ih =>
    intro h
    cases h with
    | @call _ _ d bs _ h =>
      rcases ih d bs h with h | ⟨a, h1, h2⟩
      · exact .inl (.call h)
      · exact .inr ⟨a, .call h1, h2⟩

theorem RPath.bind_fail {f : α → RProg β} {q : RProg α} (h : RPath q .fail) : RPath (q.bind f) .fail := by
  generalize hx : RProg.fail = x at h
  induction h with
  | refl => subst hx; exact .refl
  | call _ ih => exact .call (ih hx)

theorem RPath.bind_done {f : α → RProg β} {q : RProg α} {a : α} {y : RProg β} (h : RPath q (.done a)) (hf : RPath (f a) y) : RPath (q.bind f) y := by
  generalize hx : RProg.done a = x at h
  induction h with
  | refl => subst hx; exact hf
  | call _ ih => exact .call (ih hx)

/-- A prover that has failed or given up. -/
def SProg.Dead (x : SProg α) : Prop := x = .fail ∨ x = .stop

theorem SPath.of_bind {f : α → SProg β} (q : SProg α) : (∃ x, SPath (q.bind f) x ∧ x.Dead) →
    (∃ x, SPath q x ∧ x.Dead) ∨ ∃ a, SPath q (.done a) ∧ ∃ x, SPath (f a) x ∧ x.Dead := by
  induction q with
  | done a => intro h; exact .inr ⟨a, .refl, h⟩
  | stop => intro _; exact .inl ⟨_, .refl, .inr rfl⟩
  | fail => intro _; exact .inl ⟨_, .refl, .inl rfl⟩
  | call o k ih =>
    rintro ⟨x, h, hx⟩
    cases h with
    | refl => rcases hx with hx | hx <;> cases hx
    | @call _ _ d _ h =>
      rcases ih d ⟨x, h, hx⟩ with ⟨y, h, hy⟩ | ⟨a, h1, h2⟩
      · exact .inl ⟨y, .call h, hy⟩
      · exact .inr ⟨a, .call h1, h2⟩

theorem SPath.bind_dead {f : α → SProg β} {q x : SProg α} (h : SPath q x) (hx : x.Dead) : ∃ y, SPath (q.bind f) y ∧ y.Dead := by
  induction h with
  | refl =>
    rcases hx with rfl | rfl
    · exact ⟨_, .refl, .inl rfl⟩
    · exact ⟨_, .refl, .inr rfl⟩
  | call _ ih =>
    obtain ⟨y, h1, h2⟩ := ih hx
    exact ⟨y, .call h1, h2⟩

theorem SPath.bind_done {f : α → SProg β} {q : SProg α} {a : α} {y : SProg β} (h : SPath q (.done a)) (hf : SPath (f a) y) : SPath (q.bind f) y := by
  generalize hx : SProg.done a = x at h
  induction h with
  | refl => subst hx; exact hf
  | call _ ih => exact .call (ih hx)

end

section
variable {F α γ : Type} [Field F] [BlockField F] [DecidableEq F]

theorem bopsR_app (ne : NetEnv F) (l l' : List BOp) : ∀ s : VerSt F, bopsR ne s (l ++ l') = (bopsR ne s l).bind (fun s1 => bopsR ne s1 l') := by
  induction l with
  | nil => intro s; rfl
  | cons o l ih =>
    intro s
    simp only [List.cons_append, bopsR, RProg.bind_assoc]
    congr 1
    funext s1
    exact ih s1

theorem mopsR_app (me : MixEnv F) (l l' : List MOp) : ∀ s : MVer F, mopsR me s (l ++ l') = (mopsR me s l).bind (fun s1 => mopsR me s1 l') := by
  induction l with
  | nil => intro s; rfl
  | cons o l ih =>
    intro s
    simp only [List.cons_append, mopsR, RProg.bind_assoc]
    congr 1
    funext s1
    exact ih s1

omit [DecidableEq F] in
theorem bopsS_app (ne : NetEnv F) (l l' : List BOp) : ∀ s : PrvSt F, bopsS ne s (l ++ l') = (bopsS ne s l).bind (fun s1 => bopsS ne s1 l') := by
  induction l with
  | nil => intro s; rfl
  | cons o l ih =>
    intro s
    simp only [List.cons_append, bopsS, SProg.bind_assoc]
    congr 1
    funext s1
    exact ih s1

omit [DecidableEq F] in
theorem mopsS_app (me : MixEnv F) (l l' : List MOp) : ∀ s : MPrv F, mopsS me s (l ++ l') = (mopsS me s l).bind (fun s1 => mopsS me s1 l') := by
  induction l with
  | nil => intro s; rfl
  | cons o l ih =>
    intro s
    simp only [List.cons_append, mopsS, SProg.bind_assoc]
    congr 1
    funext s1
    exact ih s1

/-- If the verifier of a branching program, continued with `f`, fails, then so does some way through it. -/
theorem btreeR_route (ne : NetEnv F) {Q : List Bool → α → Prop} {f : VerSt F × α → RProg γ} (t : Branch BOp α) : ∀ s, Branch.Leads BOp.opens Q s.outs t →
    RPath ((btreeR ne s t).bind f) .fail →
    (∃ l o a, Branch.Route BOp.opens s.outs t l o a ∧ Q o a ∧ RPath (bopsR ne s l) .fail) ∨
    ∃ l s1 a, Branch.Route BOp.opens s.outs t l s1.outs a ∧ Q s1.outs a ∧ RPath (bopsR ne s l) (.done s1) ∧ RPath (f (s1, a)) .fail := by
  induction t with
  | fin a => intro s hQ h; exact .inr ⟨[], s, a, .fin _ a, hQ, .refl, h⟩
  | undef => intro s hQ; exact hQ.elim
  | ops l k ih =>
    intro s hQ h
    simp only [btreeR, RProg.bind_assoc] at h
    rcases RPath.of_bind _ h with h | ⟨s1, h1, h2⟩
    · obtain ⟨l', o', a, r, q⟩ := route_of_leads _ (hQ (List.replicate (l.map BOp.opens).sum false) (by simp))
      refine .inl ⟨l ++ l', o', a, .ops _ (by simp) r, q, ?_⟩
      rw [bopsR_app]
      exact h.bind_fail
    · obtain ⟨x, hx, hl⟩ := bopsR_more ne l s s1 h1
      have hq := hQ x hl
      rw [← hx] at hq
      rcases ih _ s1 hq h2 with ⟨l', o', a, r, q, h3⟩ | ⟨l', s2, a, r, q, h3, h4⟩
      · refine .inl ⟨l ++ l', o', a, .ops x hl (by rw [← hx]; exact r), q, ?_⟩
        rw [bopsR_app]
        exact h1.bind_done h3
      · refine .inr ⟨l ++ l', s2, a, .ops x hl (by rw [← hx]; exact r), q, ?_, h4⟩
        rw [bopsR_app]
        exact h1.bind_done h3

theorem mtreeR_route (me : MixEnv F) {Q : List Bool → α → Prop} {f : MVer F × α → RProg γ} (t : Branch MOp α) : ∀ s, Branch.Leads MOp.opens Q s.b.outs t →
    RPath ((mtreeR me s t).bind f) .fail →
    (∃ l o a, Branch.Route MOp.opens s.b.outs t l o a ∧ Q o a ∧ RPath (mopsR me s l) .fail) ∨
    ∃ l s1 a, Branch.Route MOp.opens s.b.outs t l s1.b.outs a ∧ Q s1.b.outs a ∧ RPath (mopsR me s l) (.done s1) ∧ RPath (f (s1, a)) .fail := by
  induction t with
  | fin a => intro s hQ h; exact .inr ⟨[], s, a, .fin _ a, hQ, .refl, h⟩
  | undef => intro s hQ; exact hQ.elim
  | ops l k ih =>
    intro s hQ h
    simp only [mtreeR, RProg.bind_assoc] at h
    rcases RPath.of_bind _ h with h | ⟨s1, h1, h2⟩
    · obtain ⟨l', o', a, r, q⟩ := route_of_leads _ (hQ (List.replicate (l.map MOp.opens).sum false) (by simp))
      refine .inl ⟨l ++ l', o', a, .ops _ (by simp) r, q, ?_⟩
      rw [mopsR_app]
      exact h.bind_fail
    · obtain ⟨x, hx, hl⟩ := mopsR_more me l s s1 h1
      have hq := hQ x hl
      rw [← hx] at hq
      rcases ih _ s1 hq h2 with ⟨l', o', a, r, q, h3⟩ | ⟨l', s2, a, r, q, h3, h4⟩
      · refine .inl ⟨l ++ l', o', a, .ops x hl (by rw [← hx]; exact r), q, ?_⟩
        rw [mopsR_app]
        exact h1.bind_done h3
      · refine .inr ⟨l ++ l', s2, a, .ops x hl (by rw [← hx]; exact r), q, ?_, h4⟩
        rw [mopsR_app]
        exact h1.bind_done h3

theorem btreeS_route (ne : NetEnv F) {Q : List Bool → α → Prop} {f : PrvSt F × α → SProg γ} (t : Branch BOp α) : ∀ s, Branch.Leads BOp.opens Q s.outs t →
    (∃ x, SPath ((btreeS ne s t).bind f) x ∧ x.Dead) →
    (∃ l o a, Branch.Route BOp.opens s.outs t l o a ∧ Q o a ∧ ∃ x, SPath (bopsS ne s l) x ∧ x.Dead) ∨
    ∃ l s1 a, Branch.Route BOp.opens s.outs t l s1.outs a ∧ Q s1.outs a ∧ SPath (bopsS ne s l) (.done s1) ∧ ∃ x, SPath (f (s1, a)) x ∧ x.Dead := by
  induction t with
  | fin a => intro s hQ h; exact .inr ⟨[], s, a, .fin _ a, hQ, .refl, h⟩
  | undef => intro s hQ; exact hQ.elim
  | ops l k ih =>
    intro s hQ h
    simp only [btreeS, SProg.bind_assoc] at h
    rcases SPath.of_bind _ h with ⟨y, h, hy⟩ | ⟨s1, h1, h2⟩
    · obtain ⟨l', o', a, r, q⟩ := route_of_leads _ (hQ (List.replicate (l.map BOp.opens).sum false) (by simp))
      refine .inl ⟨l ++ l', o', a, .ops _ (by simp) r, q, ?_⟩
      rw [bopsS_app]
      exact h.bind_dead hy
    · obtain ⟨x, hx, hl⟩ := bopsS_more ne l s s1 h1
      have hq := hQ x hl
      rw [← hx] at hq
      rcases ih _ s1 hq h2 with ⟨l', o', a, r, q, y, h3, hy⟩ | ⟨l', s2, a, r, q, h3, h4⟩
      · refine .inl ⟨l ++ l', o', a, .ops x hl (by rw [← hx]; exact r), q, y, ?_, hy⟩
        rw [bopsS_app]
        exact h1.bind_done h3
      · refine .inr ⟨l ++ l', s2, a, .ops x hl (by rw [← hx]; exact r), q, ?_, h4⟩
        rw [bopsS_app]
        exact h1.bind_done h3

theorem mtreeS_route (me : MixEnv F) {Q : List Bool → α → Prop} {f : MPrv F × α → SProg γ} (t : Branch MOp α) : ∀ s, Branch.Leads MOp.opens Q s.b.outs t →
    (∃ x, SPath ((mtreeS me s t).bind f) x ∧ x.Dead) →
    (∃ l o a, Branch.Route MOp.opens s.b.outs t l o a ∧ Q o a ∧ ∃ x, SPath (mopsS me s l) x ∧ x.Dead) ∨
    ∃ l s1 a, Branch.Route MOp.opens s.b.outs t l s1.b.outs a ∧ Q s1.b.outs a ∧ SPath (mopsS me s l) (.done s1) ∧ ∃ x, SPath (f (s1, a)) x ∧ x.Dead := by
  induction t with
  | fin a => intro s hQ h; exact .inr ⟨[], s, a, .fin _ a, hQ, .refl, h⟩
  | undef => intro s hQ; exact hQ.elim
  | ops l k ih =>
    intro s hQ h
    simp only [mtreeS, SProg.bind_assoc] at h
    rcases SPath.of_bind _ h with ⟨y, h, hy⟩ | ⟨s1, h1, h2⟩
    · obtain ⟨l', o', a, r, q⟩ := route_of_leads _ (hQ (List.replicate (l.map MOp.opens).sum false) (by simp))
      refine .inl ⟨l ++ l', o', a, .ops _ (by simp) r, q, ?_⟩
      rw [mopsS_app]
      exact h.bind_dead hy
    · obtain ⟨x, hx, hl⟩ := mopsS_more me l s s1 h1
      have hq := hQ x hl
      rw [← hx] at hq
      rcases ih _ s1 hq h2 with ⟨l', o', a, r, q, y, h3, hy⟩ | ⟨l', s2, a, r, q, h3, h4⟩
      · refine .inl ⟨l ++ l', o', a, .ops x hl (by rw [← hx]; exact r), q, y, ?_, hy⟩
        rw [mopsS_app]
        exact h1.bind_done h3
      · refine .inr ⟨l ++ l', s2, a, .ops x hl (by rw [← hx]; exact r), q, ?_, h4⟩
        rw [mopsS_app]
        exact h1.bind_done h3

/-- One part of a session after the other. -/
theorem branchR_route (me : MixEnv F) {t : SessTree} (ht : t.Defined) (h : RPath (branchVerifier me t) .fail) :
    ∃ pre ops post, t.Way pre ops post ∧ RPath (mixVerifier me pre ops post) .fail := by
  unfold branchVerifier branchR at h
  simp only [RProg.bind_assoc] at h
  unfold mixVerifier mixR
  simp only [RProg.bind_assoc]
  have last : ∀ {o : List Bool} {t2 : Branch BOp Unit}, Branch.Leads BOp.opens (fun _ _ => True) o t2 → ∃ post o3, Branch.Route BOp.opens o t2 post o3 () := by
    intro o t2 h
    obtain ⟨l, o3, _, h1, _⟩ := route_of_leads _ h
    exact ⟨l, o3, h1⟩
  have mid : ∀ {o : List Bool} {t1 : Branch MOp (Branch BOp Unit)}, Branch.Leads MOp.opens (fun o t2 => Branch.Leads BOp.opens (fun _ _ => True) o t2) o t1 →
      ∃ ops o2 t2 post o3, Branch.Route MOp.opens o t1 ops o2 t2 ∧ Branch.Route BOp.opens o2 t2 post o3 () := by
    intro o t1 h
    obtain ⟨l, o2, t2, h1, h2⟩ := route_of_leads _ h
    obtain ⟨post, o3, h3⟩ := last h2
    exact ⟨l, o2, t2, post, o3, h1, h3⟩
  rcases RPath.of_bind _ h with h | ⟨_, h0, h⟩
  · obtain ⟨pre, o1, t1, r1, q1⟩ := route_of_leads _ ht
    obtain ⟨ops, o2, t2, post, o3, r2, r3⟩ := mid q1
    exact ⟨pre, ops, post, ⟨o1, t1, o2, t2, o3, r1, r2, r3⟩, h.bind_fail⟩
  rcases btreeR_route me.ne t VerSt.init ht h with ⟨pre, o1, t1, r1, q1, h⟩ | ⟨pre, b, t1, r1, q1, h1, h⟩
  · obtain ⟨ops, o2, t2, post, o3, r2, r3⟩ := mid q1
    exact ⟨pre, ops, post, ⟨o1, t1, o2, t2, o3, r1, r2, r3⟩, h0.bind_done h.bind_fail⟩
  rcases RPath.of_bind _ h with h | ⟨s, h2, h⟩
  · obtain ⟨ops, o2, t2, post, o3, r2, r3⟩ := mid q1
    exact ⟨pre, ops, post, ⟨_, t1, o2, t2, o3, r1, r2, r3⟩, h0.bind_done (h1.bind_done h.bind_fail)⟩
  have e1 := f2kNewR_outs me b s h2
  simp only at e1
  rw [← e1] at q1 r1
  rcases mtreeR_route me t1 s q1 h with ⟨ops, o2, t2, r2, q2, h⟩ | ⟨ops, s1, t2, r2, q2, h3, h⟩
  · obtain ⟨post, o3, r3⟩ := last q2
    exact ⟨pre, ops, post, ⟨_, t1, o2, t2, o3, r1, r2, r3⟩, h0.bind_done (h1.bind_done (h2.bind_done h.bind_fail))⟩
  rcases RPath.of_bind _ h with h | ⟨s2, h4, h⟩
  · obtain ⟨post, o3, r3⟩ := last q2
    exact ⟨pre, ops, post, ⟨_, t1, _, t2, o3, r1, r2, r3⟩, h0.bind_done (h1.bind_done (h2.bind_done (h3.bind_done h.bind_fail)))⟩
  have e2 := f2kDelR_outs me s1 s2 h4
  simp only at e2
  rw [← e2] at q2 r2
  rcases btreeR_route me.ne t2 s2.b q2 h with ⟨post, o3, u, r3, -, h⟩ | ⟨post, b2, u, r3, -, h5, h⟩
  · exact ⟨pre, ops, post, ⟨_, t1, _, t2, _, r1, r2, r3⟩, h0.bind_done (h1.bind_done (h2.bind_done (h3.bind_done (h4.bind_done h.bind_fail))))⟩
  · exact ⟨pre, ops, post, ⟨_, t1, _, t2, _, r1, r2, r3⟩, h0.bind_done (h1.bind_done (h2.bind_done (h3.bind_done (h4.bind_done (h5.bind_done h)))))⟩

theorem branchS_route (me : MixEnv F) {t : SessTree} (ht : t.Defined) {x : SProg (MPrv F)} (hx : x.Dead) (h : SPath (branchProver me t) x) :
    ∃ pre ops post, t.Way pre ops post ∧ ∃ y, SPath (mixProver me pre ops post) y ∧ y.Dead := by
  replace h : ∃ x, SPath (branchProver me t) x ∧ x.Dead := ⟨x, h, hx⟩
  unfold branchProver branchS at h
  simp only [SProg.bind_assoc] at h
  unfold mixProver mixS
  simp only [SProg.bind_assoc]
  have last : ∀ {o : List Bool} {t2 : Branch BOp Unit}, Branch.Leads BOp.opens (fun _ _ => True) o t2 → ∃ post o3, Branch.Route BOp.opens o t2 post o3 () := by
    intro o t2 h
    obtain ⟨l, o3, _, h1, _⟩ := route_of_leads _ h
    exact ⟨l, o3, h1⟩
  have mid : ∀ {o : List Bool} {t1 : Branch MOp (Branch BOp Unit)}, Branch.Leads MOp.opens (fun o t2 => Branch.Leads BOp.opens (fun _ _ => True) o t2) o t1 →
      ∃ ops o2 t2 post o3, Branch.Route MOp.opens o t1 ops o2 t2 ∧ Branch.Route BOp.opens o2 t2 post o3 () := by
    intro o t1 h
    obtain ⟨l, o2, t2, h1, h2⟩ := route_of_leads _ h
    obtain ⟨post, o3, h3⟩ := last h2
    exact ⟨l, o2, t2, post, o3, h1, h3⟩
  have go : ∀ {α β : Type} {q : SProg α} {a : α} {f : α → SProg β}, SPath q (.done a) → (∃ y, SPath (f a) y ∧ y.Dead) → ∃ y, SPath (q.bind f) y ∧ y.Dead :=
    fun h ⟨y, h1, h2⟩ => ⟨y, h.bind_done h1, h2⟩
  have dead : ∀ {α β : Type} {q : SProg α} {f : α → SProg β}, (∃ x, SPath q x ∧ x.Dead) → ∃ y, SPath (q.bind f) y ∧ y.Dead :=
    fun ⟨_, h1, h2⟩ => h1.bind_dead h2
  rcases SPath.of_bind _ h with h | ⟨_, h0, h⟩
  · obtain ⟨pre, o1, t1, r1, q1⟩ := route_of_leads _ ht
    obtain ⟨ops, o2, t2, post, o3, r2, r3⟩ := mid q1
    exact ⟨pre, ops, post, ⟨o1, t1, o2, t2, o3, r1, r2, r3⟩, dead h⟩
  rcases btreeS_route me.ne t PrvSt.init ht h with ⟨pre, o1, t1, r1, q1, h⟩ | ⟨pre, b, t1, r1, q1, h1, h⟩
  · obtain ⟨ops, o2, t2, post, o3, r2, r3⟩ := mid q1
    exact ⟨pre, ops, post, ⟨o1, t1, o2, t2, o3, r1, r2, r3⟩, go h0 (dead h)⟩
  rcases SPath.of_bind _ h with h | ⟨s, h2, h⟩
  · obtain ⟨ops, o2, t2, post, o3, r2, r3⟩ := mid q1
    exact ⟨pre, ops, post, ⟨_, t1, o2, t2, o3, r1, r2, r3⟩, go h0 (go h1 (dead h))⟩
  have e1 := f2kNewS_outs me b s h2
  simp only at e1
  rw [← e1] at q1 r1
  rcases mtreeS_route me t1 s q1 h with ⟨ops, o2, t2, r2, q2, h⟩ | ⟨ops, s1, t2, r2, q2, h3, h⟩
  · obtain ⟨post, o3, r3⟩ := last q2
    exact ⟨pre, ops, post, ⟨_, t1, o2, t2, o3, r1, r2, r3⟩, go h0 (go h1 (go h2 (dead h)))⟩
  rcases SPath.of_bind _ h with h | ⟨s2, h4, h⟩
  · obtain ⟨post, o3, r3⟩ := last q2
    exact ⟨pre, ops, post, ⟨_, t1, _, t2, o3, r1, r2, r3⟩, go h0 (go h1 (go h2 (go h3 (dead h))))⟩
  have e2 := f2kDelS_outs me s1 s2 h4
  simp only at e2
  rw [← e2] at q2 r2
  rcases btreeS_route me.ne t2 s2.b q2 h with ⟨post, o3, u, r3, -, h⟩ | ⟨post, b2, u, r3, -, h5, h⟩
  · exact ⟨pre, ops, post, ⟨_, t1, _, t2, _, r1, r2, r3⟩, go h0 (go h1 (go h2 (go h3 (go h4 (dead h)))))⟩
  · exact ⟨pre, ops, post, ⟨_, t1, _, t2, _, r1, r2, r3⟩, go h0 (go h1 (go h2 (go h3 (go h4 (go h5 h)))))⟩

end
end EmpZk
