/-
Helper lemmas about programs that return what they have received, and about runs of composed programs.
-/
import Verif.Spec.ArithProcGame
import Verif.Lemmas.ProcSame

namespace EmpZk

theorem log_bind {α β : Type} (P : Proc α) (f : α → Proc β) : ∀ l, (P >>= f).log l = P.log l >>= fun x => (f x.1).log x.2 := by
  induction P with
  | done a => intro l; rfl
  | fail => intro l; rfl
  | send bs k ih => intro l; exact congrArg (Proc.send bs) (ih l)
  | recv n k ih => intro l; exact congrArg (Proc.recv n) (funext fun bs => ih bs (l ++ bs))

/-- On arriving bytes, the program with a log ends when the program ends, and the log is what it has taken. -/
theorem on_log {α : Type} (P : Proc α) : ∀ {l bs r : List Byte} {x : α × List Byte}, (P.log l).on bs = .ends x r →
    P.on bs = .ends x.1 r ∧ x.2 ++ r = l ++ bs := by
  induction P with
  | done a =>
    intro l bs r x h
    simp only [Proc.log, Proc.on, Proc.Out.ends.injEq] at h
    obtain ⟨rfl, rfl⟩ := h
    exact ⟨rfl, rfl⟩
  | fail => intro l bs r x h; cases h
  | send b k ih => intro l bs r x h; exact ih h
  | recv n k ih =>
    intro l bs r x h
    simp only [Proc.log, Proc.on] at h ⊢
    split at h
    · rename_i hn
      rw [if_pos hn]
      obtain ⟨h1, h2⟩ := ih _ h
      exact ⟨h1, by rw [h2, List.append_assoc, List.take_append_drop]⟩
    · cases h

theorem on_log_mk {α : Type} (P : Proc α) : ∀ {l bs r : List Byte} {a : α}, P.on bs = .ends a r →
    ∃ t, bs = t ++ r ∧ (P.log l).on bs = .ends (a, l ++ t) r := by
  induction P with
  | done a =>
    intro l bs r x h
    simp only [Proc.on, Proc.Out.ends.injEq] at h
    obtain ⟨rfl, rfl⟩ := h
    exact ⟨[], rfl, by simp [Proc.log, Proc.on]⟩
  | fail => intro l bs r x h; cases h
  | send b k ih => intro l bs r x h; exact ih h
  | recv n k ih =>
    intro l bs r x h
    simp only [Proc.log, Proc.on] at h ⊢
    split at h
    · rename_i hn
      rw [if_pos hn]
      obtain ⟨t, h1, h2⟩ := ih _ (l := l ++ bs.take n) h
      refine ⟨bs.take n ++ t, ?_, ?_⟩
      · rw [List.append_assoc, ← h1, List.take_append_drop]
      · rw [h2, List.append_assoc]
    · cases h

theorem like_log {β γ : Type} {R : β → γ → Prop} {P : Proc β} {Q : Proc γ} (h : Proc.Like R P Q) :
    ∀ l, Proc.Like (fun x y => R x.1 y.1) (P.log l) (Q.log l) := by
  induction h with
  | failL Q => intro l; exact .failL _
  | failR P => intro l; exact .failR _
  | done h => intro l; exact .done h
  | send bs _ ih => intro l; exact .send bs (ih l)
  | recv n _ ih => intro l; exact .recv n fun bs => ih bs (l ++ bs)

/-- The log does not influence the run. -/
theorem reach_log {α β : Type} {n : Nat} {c f : Duo α β} (h : Duo.Reach n c f) : ∀ {b : β}, f.q = .done b → ∀ l,
    ∃ bs, Duo.Reach n ⟨c.p, c.q.log l, c.pq, c.qp⟩ ⟨f.p, .done (b, bs), f.pq, f.qp⟩ := by
  induction h with
  | refl c =>
    intro b hb l
    obtain ⟨p, q, pq, qp⟩ := c
    simp only at hb
    subst hb
    exact ⟨l, .refl _⟩
  | @step n c c' f hs t ih =>
    intro b hb l
    obtain ⟨p, q, pq, qp⟩ := c
    rcases hs with hs | hs
    · obtain ⟨bs, h⟩ := ih hb l
      refine ⟨bs, .step (.inl ?_) h⟩
      cases p with
      | done a => cases hs
      | fail => cases hs
      | send x k =>
        simp only [Duo.stepP, Option.some.injEq] at hs ⊢
        subst hs
        rfl
      | recv m k =>
        simp only [Duo.stepP] at hs ⊢
        split at hs
        · rename_i hm
          rw [if_pos hm]
          simp only [Option.some.injEq] at hs
          subst hs
          rfl
        · cases hs
    · cases q with
      | done a => cases hs
      | fail => cases hs
      | send x k =>
        simp only [Duo.stepQ, Option.some.injEq] at hs
        subst hs
        obtain ⟨bs, h⟩ := ih hb l
        exact ⟨bs, .step (.inr rfl) h⟩
      | recv m k =>
        simp only [Duo.stepQ] at hs
        split at hs
        · rename_i hm
          simp only [Option.some.injEq] at hs
          subst hs
          obtain ⟨bs, h⟩ := ih hb (l ++ pq.take m)
          refine ⟨bs, .step (.inr ?_) h⟩
          simp only [Proc.log, Duo.stepQ, if_pos hm]
        · cases hs

theorem reach_unlog {α β : Type} {n : Nat} {c : Duo α (β × List Byte)} {f : Duo α (β × List Byte)} (h : Duo.Reach n c f) :
    ∀ {x : β × List Byte}, f.q = .done x → ∀ {Q : Proc β} {l : List Byte}, c.q = Q.log l →
    Duo.Reach n ⟨c.p, Q, c.pq, c.qp⟩ ⟨f.p, .done x.1, f.pq, f.qp⟩ := by
  induction h with
  | refl c =>
    intro x hx Q l hq
    rw [hx] at hq
    cases Q with
    | done a =>
      simp only [Proc.log, Proc.done.injEq] at hq
      subst hq
      exact .refl _
    | fail => cases hq
    | send bs k => cases hq
    | recv n k => cases hq
  | @step n c c' f hs t ih =>
    intro x hx Q l hq
    obtain ⟨p, q, pq, qp⟩ := c
    simp only at hq
    subst hq
    rcases hs with hs | hs
    · cases p with
      | done a => cases hs
      | fail => cases hs
      | send y k =>
        simp only [Duo.stepP, Option.some.injEq] at hs
        subst hs
        exact .step (.inl rfl) (ih hx rfl)
      | recv m k =>
        simp only [Duo.stepP] at hs
        split at hs
        · rename_i hm
          simp only [Option.some.injEq] at hs
          subst hs
          exact .step (.inl (by simp only [Duo.stepP, if_pos hm])) (ih hx rfl)
        · cases hs
    · cases Q with
      | done a => cases hs
      | fail => cases hs
      | send y k =>
        simp only [Proc.log, Duo.stepQ, Option.some.injEq] at hs
        subst hs
        exact .step (.inr rfl) (ih hx rfl)
      | recv m k =>
        simp only [Proc.log, Duo.stepQ] at hs
        split at hs
        · rename_i hm
          simp only [Option.some.injEq] at hs
          subst hs
          exact .step (.inr (by simp only [Duo.stepQ, if_pos hm])) (ih hx rfl)
        · cases hs

/-- A run of a composed program that returns contains a run of its first part that returns. -/
theorem reach_split {α β γ : Type} {n : Nat} {c f : Duo α γ} (h : Duo.Reach n c f) : ∀ {b : γ}, f.q = .done b →
    ∀ {P : Proc β} {g : β → Proc γ}, c.q = (P >>= g) →
    ∃ n1 a p' pq' qp', Duo.Reach n1 ⟨c.p, P, c.pq, c.qp⟩ ⟨p', .done a, pq', qp'⟩ ∧ ∃ n2, Duo.Reach n2 ⟨p', g a, pq', qp'⟩ f := by
  induction h with
  | refl c =>
    intro b hb P g hq
    obtain ⟨p, q, pq, qp⟩ := c
    simp only at hb hq
    subst hb
    cases P with
    | done a =>
      have hq : Proc.done b = g a := hq
      exact ⟨0, a, p, pq, qp, .refl _, 0, by rw [← hq]; exact .refl _⟩
    | fail => cases hq
    | send bs k => cases hq
    | recv n k => cases hq
  | @step n c c' f hs t ih =>
    intro b hb P g hq
    obtain ⟨p, q, pq, qp⟩ := c
    simp only at hq
    subst hq
    cases P with
    | done a => exact ⟨0, a, p, pq, qp, .refl _, n + 1, .step hs t⟩
    | fail =>
      rcases hs with hs | hs
      · cases p with
        | done a => cases hs
        | fail => cases hs
        | send y k =>
          simp only [Duo.stepP, Option.some.injEq] at hs
          subst hs
          obtain ⟨n1, a, p', pq', qp', k1, k2⟩ := ih hb (P := .fail) (g := g) rfl
          exact ⟨n1 + 1, a, p', pq', qp', .step (.inl rfl) k1, k2⟩
        | recv m k =>
          simp only [Duo.stepP] at hs
          split at hs
          · rename_i hm
            simp only [Option.some.injEq] at hs
            subst hs
            obtain ⟨n1, a, p', pq', qp', k1, k2⟩ := ih hb (P := .fail) (g := g) rfl
            exact ⟨n1 + 1, a, p', pq', qp', .step (.inl (by simp only [Duo.stepP, if_pos hm])) k1, k2⟩
          · cases hs
      · cases hs
    | send x k =>
      rcases hs with hs | hs
      · cases p with
        | done a => cases hs
        | fail => cases hs
        | send y k' =>
          simp only [Duo.stepP, Option.some.injEq] at hs
          subst hs
          obtain ⟨n1, a, p', pq', qp', k1, k2⟩ := ih hb (P := .send x k) (g := g) rfl
          exact ⟨n1 + 1, a, p', pq', qp', .step (.inl rfl) k1, k2⟩
        | recv m k' =>
          simp only [Duo.stepP] at hs
          split at hs
          · rename_i hm
            simp only [Option.some.injEq] at hs
            subst hs
            obtain ⟨n1, a, p', pq', qp', k1, k2⟩ := ih hb (P := .send x k) (g := g) rfl
            exact ⟨n1 + 1, a, p', pq', qp', .step (.inl (by simp only [Duo.stepP, if_pos hm])) k1, k2⟩
          · cases hs
      · have hs : some (⟨p, k >>= g, pq, qp ++ x⟩ : Duo α γ) = some c' := hs
        simp only [Option.some.injEq] at hs
        subst hs
        obtain ⟨n1, a, p', pq', qp', k1, k2⟩ := ih hb (P := k) (g := g) rfl
        exact ⟨n1 + 1, a, p', pq', qp', .step (.inr rfl) k1, k2⟩
    | recv m k =>
      rcases hs with hs | hs
      · cases p with
        | done a => cases hs
        | fail => cases hs
        | send y k' =>
          simp only [Duo.stepP, Option.some.injEq] at hs
          subst hs
          obtain ⟨n1, a, p', pq', qp', k1, k2⟩ := ih hb (P := .recv m k) (g := g) rfl
          exact ⟨n1 + 1, a, p', pq', qp', .step (.inl rfl) k1, k2⟩
        | recv m' k' =>
          simp only [Duo.stepP] at hs
          split at hs
          · rename_i hm
            simp only [Option.some.injEq] at hs
            subst hs
            obtain ⟨n1, a, p', pq', qp', k1, k2⟩ := ih hb (P := .recv m k) (g := g) rfl
            exact ⟨n1 + 1, a, p', pq', qp', .step (.inl (by simp only [Duo.stepP, if_pos hm])) k1, k2⟩
          · cases hs
      · have hs : (if m ≤ pq.length then some (⟨p, k (pq.take m) >>= g, pq.drop m, qp⟩ : Duo α γ) else none) = some c' := hs
        split at hs
        · rename_i hm
          simp only [Option.some.injEq] at hs
          subst hs
          obtain ⟨n1, a, p', pq', qp', k1, k2⟩ := ih hb (P := k (pq.take m)) (g := g) rfl
          exact ⟨n1 + 1, a, p', pq', qp', .step (.inr (by simp only [Duo.stepQ, if_pos hm])) k1, k2⟩
        · cases hs

/-! ### what a program can return -/

/-- `P` can return `a`, whatever it receives. -/
inductive Proc.Yields {α : Type} : Proc α → α → Prop where
  | done (a) : Yields (.done a) a
  | send (bs) {k a} (h : Yields k a) : Yields (.send bs k) a
  | recv (n) {k : List Byte → Proc α} {a} (bs : List Byte) (h : Yields (k bs) a) : Yields (.recv n k) a

theorem bind_congr_yields {α β : Type} (P : Proc α) (f g : α → Proc β) (h : ∀ a, P.Yields a → f a = g a) :
    (P >>= f) = (P >>= g) := by
  induction P with
  | done a => exact h a (.done a)
  | fail => rfl
  | send bs k ih => exact congrArg (Proc.send bs) (ih fun a ha => h a (.send bs ha))
  | recv n k ih => exact congrArg (Proc.recv n) (funext fun bs => ih bs fun a ha => h a (.recv n bs ha))

theorem yields_bind {α β : Type} {P : Proc α} {f : α → Proc β} {b : β} (h : (P >>= f).Yields b) : ∃ a, P.Yields a ∧ (f a).Yields b := by
  induction P with
  | done a => exact ⟨a, .done a, h⟩
  | fail => cases h
  | send bs k ih =>
    cases h with
    | send _ h => obtain ⟨a, h1, h2⟩ := ih h; exact ⟨a, .send _ h1, h2⟩
  | recv n k ih =>
    cases h with
    | recv _ bs h => obtain ⟨a, h1, h2⟩ := ih bs h; exact ⟨a, .recv _ bs h1, h2⟩

theorem yields_ofOpt {α : Type} {o : Option α} {a : α} (h : (Proc.ofOpt o).Yields a) : o = some a := by
  cases o with
  | none => cases h
  | some x => cases h; rfl

theorem yields_pure {α : Type} {x a : α} (h : (pure x : Proc α).Yields a) : a = x := by
  cases h; rfl

end EmpZk
