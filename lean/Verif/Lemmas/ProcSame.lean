/-
What a party returns does not depend on the schedule; parties that send the same bytes are sent the same bytes.
-/
import Verif.Lemmas.Proc

namespace EmpZk

namespace Duo
variable {α β : Type}

theorem strip {n : Nat} : ∀ {c a b : Duo α β}, Reach n c a → Step c b → ∃ m d, Reach m b d ∧ (a = d ∨ Step a d) := by
  induction n with
  | zero => intro c a b h hs; cases h; exact ⟨0, b, .refl _, .inr hs⟩
  | succ n ih =>
    intro c a b h hs
    cases h with
    | @step _ _ c1 _ h1 t =>
      rcases confluent h1 hs with rfl | ⟨d, h2, h3⟩
      · exact ⟨n, a, t, .inl rfl⟩
      · obtain ⟨m, e, h4, h5⟩ := ih t h2
        exact ⟨m + 1, e, .step h3 h4, h5⟩

/-- Two schedules can be brought together. -/
theorem church_rosser {m : Nat} : ∀ {n : Nat} {c a b : Duo α β}, Reach n c a → Reach m c b →
    ∃ k l d, Reach k a d ∧ Reach l b d := by
  induction m with
  | zero => intro n c a b h h'; cases h'; exact ⟨0, n, a, .refl _, h⟩
  | succ m ih =>
    intro n c a b h h'
    cases h' with
    | step h1 t =>
      obtain ⟨m', d, h2, h3⟩ := strip h h1
      obtain ⟨k, l, f, h4, h5⟩ := ih h2 t
      rcases h3 with rfl | h3
      · exact ⟨k, l, f, h4, h5⟩
      · exact ⟨k + 1, l, f, .step h3 h4, h5⟩

theorem step_done {c d : Duo α β} {b : β} (h : Step c d) (hc : c.q = .done b) : d.q = .done b := by
  obtain ⟨p, q, pq, qp⟩ := c
  simp only at hc
  subst hc
  rcases h with h | h
  · cases p with
    | done a => cases h
    | fail => cases h
    | send bs k => simp only [stepP, Option.some.injEq] at h; subst h; rfl
    | recv n k =>
      simp only [stepP] at h
      split at h
      · simp only [Option.some.injEq] at h; subst h; rfl
      · cases h
  · cases h

theorem step_fail {c d : Duo α β} (h : Step c d) (hc : c.q = .fail) : d.q = .fail := by
  obtain ⟨p, q, pq, qp⟩ := c
  simp only at hc
  subst hc
  rcases h with h | h
  · cases p with
    | done a => cases h
    | fail => cases h
    | send bs k => simp only [stepP, Option.some.injEq] at h; subst h; rfl
    | recv n k =>
      simp only [stepP] at h
      split at h
      · simp only [Option.some.injEq] at h; subst h; rfl
      · cases h
  · cases h

theorem reach_done {n : Nat} {c d : Duo α β} {b : β} (h : Reach n c d) (hc : c.q = .done b) : d.q = .done b := by
  induction h with
  | refl c => exact hc
  | step h _ ih => exact ih (step_done h hc)

theorem reach_fail {n : Nat} {c d : Duo α β} (h : Reach n c d) (hc : c.q = .fail) : d.q = .fail := by
  induction h with
  | refl c => exact hc
  | step h _ ih => exact ih (step_fail h hc)

/-- The second party returns the same in all schedules. -/
theorem done_unique {n m : Nat} {c a b : Duo α β} {x y : β} (h : Reach n c a) (h' : Reach m c b) (ha : a.q = .done x)
    (hb : b.q = .done y) : x = y := by
  obtain ⟨k, l, d, h1, h2⟩ := church_rosser h h'
  have h3 := reach_done h1 ha
  have h4 := reach_done h2 hb
  rw [h3] at h4
  exact Proc.done.inj h4

theorem done_not_fail {n m : Nat} {c a b : Duo α β} {x : β} (h : Reach n c a) (h' : Reach m c b) (ha : a.q = .done x)
    (hb : b.q = .fail) : False := by
  obtain ⟨k, l, d, h1, h2⟩ := church_rosser h h'
  have h3 := reach_done h1 ha
  rw [reach_fail h2 hb] at h3
  cases h3

end Duo

/-- Two programs that send the same bytes and wait for the same numbers of bytes, until one of them fails or both return; their results
are related by `R`. -/
inductive Proc.Like {β γ : Type} (R : β → γ → Prop) : Proc β → Proc γ → Prop where
  | failL (Q) : Like R .fail Q
  | failR (P) : Like R P .fail
  | done {a b} (h : R a b) : Like R (.done a) (.done b)
  | send (bs) {k k'} (h : Like R k k') : Like R (.send bs k) (.send bs k')
  | recv (n) {k k'} (h : ∀ bs, Like R (k bs) (k' bs)) : Like R (.recv n k) (.recv n k')

theorem Proc.Like.bindM {α β γ δ : Type} {R : α → β → Prop} {S : γ → δ → Prop} {P : Proc α} {Q : Proc β} (h : Proc.Like R P Q)
    {f : α → Proc γ} {g : β → Proc δ} (k : ∀ a b, R a b → Proc.Like S (f a) (g b)) : Proc.Like S (P >>= f) (Q >>= g) := by
  induction h with
  | failL Q => exact .failL _
  | failR P => exact .failR _
  | done h => exact k _ _ h
  | send bs _ ih => exact .send bs ih
  | recv n _ ih => exact .recv n ih

theorem Proc.Like.refl {α : Type} (P : Proc α) : Proc.Like (fun a b => a = b) P P := by
  induction P with
  | done a => exact .done rfl
  | fail => exact .failL _
  | send bs k ih => exact .send bs ih
  | recv n k ih => exact .recv n ih

theorem Proc.Like.opt {α β : Type} {R : α → β → Prop} {o : Option α} {o' : Option β} (h : ∀ a b, o = some a → o' = some b → R a b) :
    Proc.Like R (Proc.ofOpt o) (Proc.ofOpt o') := by
  cases o with
  | none => exact .failL _
  | some a =>
    cases o' with
    | none => exact .failR _
    | some b => exact .done (h a b rfl rfl)

/-- What a party returns is determined by the bytes sent to it. A party `Q'` like it is sent the same bytes, unless it fails. -/
theorem reach_like {α β γ : Type} (R : β → γ → Prop) {n : Nat} {c f : Duo α β} (h : Duo.Reach n c f) :
    ∀ {b : β}, f.q = .done b → ∃ bs, c.q.on (c.pq ++ bs) = .ends b f.pq ∧ ∀ Q' : Proc γ, Proc.Like R c.q Q' →
    (∃ m a, Duo.Reach m ⟨c.p, Q', c.pq, c.qp⟩ a ∧ a.q = .fail) ∨
    ∃ b' m a, Duo.Reach m ⟨c.p, Q', c.pq, c.qp⟩ a ∧ a.q = .done b' ∧ Q'.on (c.pq ++ bs) = .ends b' f.pq := by
  induction h with
  | refl c =>
    intro b hb
    obtain ⟨p, q, pq, qp⟩ := c
    simp only at hb
    subst hb
    refine ⟨[], by simp [Proc.on], ?_⟩
    intro Q' hl
    cases hl with
    | failR => exact .inl ⟨0, _, .refl _, rfl⟩
    | @done _ b' h => exact .inr ⟨b', 0, _, .refl _, rfl, by simp [Proc.on]⟩
  | @step n c c' f hs t ih =>
    intro b hb
    obtain ⟨p, q, pq, qp⟩ := c
    obtain ⟨bs', h3, ih⟩ := ih hb
    rcases hs with hs | hs
    · cases p with
      | done a => cases hs
      | fail => cases hs
      | send bs k =>
        simp only [Duo.stepP, Option.some.injEq] at hs
        subst hs
        refine ⟨bs ++ bs', ?_, ?_⟩
        · simpa only [List.append_assoc] using h3
        intro Q' hl
        rcases ih Q' hl with ⟨m, a, h1, h2⟩ | ⟨b', m, a, h1, h2, h4⟩
        · exact .inl ⟨m + 1, a, .step (.inl rfl) h1, h2⟩
        · refine .inr ⟨b', m + 1, a, .step (.inl rfl) h1, h2, ?_⟩
          simpa only [List.append_assoc] using h4
      | recv N k =>
        simp only [Duo.stepP] at hs
        split at hs
        · next hn =>
          simp only [Option.some.injEq] at hs
          subst hs
          refine ⟨bs', h3, ?_⟩
          intro Q' hl
          have hst : Duo.Step ⟨.recv N k, Q', pq, qp⟩ ⟨k (qp.take N), Q', pq, qp.drop N⟩ := .inl (if_pos hn)
          rcases ih Q' hl with ⟨m, a, h1, h2⟩ | ⟨b', m, a, h1, h2, h4⟩
          · exact .inl ⟨m + 1, a, .step hst h1, h2⟩
          · exact .inr ⟨b', m + 1, a, .step hst h1, h2, h4⟩
        · cases hs
    · cases q with
      | done a => cases hs
      | fail => cases hs
      | send bs k =>
        simp only [Duo.stepQ, Option.some.injEq] at hs
        subst hs
        refine ⟨bs', h3, ?_⟩
        intro Q' hl
        cases hl with
        | failR => exact .inl ⟨0, _, .refl _, rfl⟩
        | @send _ _ k' hl =>
          rcases ih k' hl with ⟨m, a, h1, h2⟩ | ⟨b', m, a, h1, h2, h4⟩
          · exact .inl ⟨m + 1, a, .step (.inr rfl) h1, h2⟩
          · exact .inr ⟨b', m + 1, a, .step (.inr rfl) h1, h2, h4⟩
      | recv N k =>
        simp only [Duo.stepQ] at hs
        split at hs
        · next hn =>
          simp only [Option.some.injEq] at hs
          subst hs
          refine ⟨bs', ?_, ?_⟩
          · simp only [Proc.on]
            rw [if_pos (by simp; omega), List.take_append_of_le_length hn, List.drop_append_of_le_length hn]
            exact h3
          intro Q' hl
          cases hl with
          | failR => exact .inl ⟨0, _, .refl _, rfl⟩
          | @recv _ _ k' hl =>
            have hst : Duo.Step ⟨p, .recv N k', pq, qp⟩ ⟨p, k' (pq.take N), pq.drop N, qp⟩ := .inr (if_pos hn)
            rcases ih _ (hl _) with ⟨m, a, h1, h2⟩ | ⟨b', m, a, h1, h2, h4⟩
            · exact .inl ⟨m + 1, a, .step hst h1, h2⟩
            · refine .inr ⟨b', m + 1, a, .step hst h1, h2, ?_⟩
              simp only [Proc.on]
              rw [if_pos (by simp; omega), List.take_append_of_le_length hn, List.drop_append_of_le_length hn]
              exact h4
        · cases hs

end EmpZk
