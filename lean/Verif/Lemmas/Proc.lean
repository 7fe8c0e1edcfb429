/-
Two parties on two byte streams: the result does not depend on the schedule.
-/
import Verif.Model.Proc

namespace EmpZk

namespace Duo
variable {α β : Type}

/-- The two parties do not disturb each other. -/
theorem diamond {c a b : Duo α β} (ha : c.stepP = some a) (hb : c.stepQ = some b) : ∃ d, a.stepQ = some d ∧ b.stepP = some d := by
  obtain ⟨p, q, pq, qp⟩ := c
  cases p with
  | done a => simp [stepP] at ha
  | fail => simp [stepP] at ha
  | send bs k =>
    simp only [stepP, Option.some.injEq] at ha
    subst ha
    cases q with
    | done a => simp [stepQ] at hb
    | fail => simp [stepQ] at hb
    | send bs' k' =>
      simp only [stepQ, Option.some.injEq] at hb
      subst hb
      exact ⟨_, rfl, rfl⟩
    | recv n k' =>
      simp only [stepQ] at hb
      split at hb
      · next hn =>
        simp only [Option.some.injEq] at hb
        subst hb
        refine ⟨⟨k, k' (pq.take n), pq.drop n ++ bs, qp⟩, ?_, rfl⟩
        simp only [stepQ]
        rw [if_pos (by simp; omega), List.take_append_of_le_length hn, List.drop_append_of_le_length hn]
      · cases hb
  | recv n k =>
    simp only [stepP] at ha
    split at ha
    · next hn =>
      simp only [Option.some.injEq] at ha
      subst ha
      cases q with
      | done a => simp [stepQ] at hb
      | fail => simp [stepQ] at hb
      | send bs' k' =>
        simp only [stepQ, Option.some.injEq] at hb
        subst hb
        refine ⟨⟨k (qp.take n), k', pq, qp.drop n ++ bs'⟩, rfl, ?_⟩
        simp only [stepP]
        rw [if_pos (by simp; omega), List.take_append_of_le_length hn, List.drop_append_of_le_length hn]
      | recv n' k' =>
        simp only [stepQ] at hb
        split at hb
        · next hn' =>
          simp only [Option.some.injEq] at hb
          subst hb
          refine ⟨⟨k (qp.take n), k' (pq.take n'), pq.drop n', qp.drop n⟩, ?_, ?_⟩
          · simp only [stepQ]; rw [if_pos hn']
          · simp only [stepP]; rw [if_pos hn]
        · cases hb
    · cases ha

theorem confluent {c a b : Duo α β} (ha : Step c a) (hb : Step c b) : a = b ∨ ∃ d, Step a d ∧ Step b d := by
  rcases ha with ha | ha <;> rcases hb with hb | hb
  · exact .inl (Option.some.inj (ha.symm.trans hb))
  · obtain ⟨d, h1, h2⟩ := diamond ha hb
    exact .inr ⟨d, .inr h1, .inl h2⟩
  · obtain ⟨d, h1, h2⟩ := diamond hb ha
    exact .inr ⟨d, .inl h2, .inr h1⟩
  · exact .inl (Option.some.inj (ha.symm.trans hb))

/-- Nothing can happen any more. -/
def Stuck (c : Duo α β) : Prop := ∀ c', ¬ Step c c'

/-- If some schedule leads to a configuration where nothing can happen any more, every step is a step towards it. -/
theorem reach_step {n : Nat} : ∀ {c f c' : Duo α β}, Reach n c f → Stuck f → Step c c' → ∃ m, n = m + 1 ∧ Reach m c' f := by
  induction n with
  | zero =>
    intro c f c' h hf hs
    cases h
    exact absurd hs (hf c')
  | succ n ih =>
    intro c f c' h hf hs
    cases h with
    | @step _ _ c1 _ h1 t =>
      refine ⟨n, rfl, ?_⟩
      rcases confluent h1 hs with rfl | ⟨d, h2, h3⟩
      · exact t
      · obtain ⟨m, rfl, hm⟩ := ih t hf h2
        exact .step h3 hm

/-- The same for any number of steps. -/
theorem reach_reach {m : Nat} : ∀ {n : Nat} {c f c' : Duo α β}, Reach n c f → Stuck f → Reach m c c' → ∃ k, n = m + k ∧ Reach k c' f := by
  induction m with
  | zero =>
    intro n c f c' h _ hc
    cases hc
    exact ⟨n, (Nat.zero_add n).symm, h⟩
  | succ m ih =>
    intro n c f c' h hf hc
    cases hc with
    | @step _ _ c1 _ h1 t =>
      obtain ⟨k, rfl, hk⟩ := reach_step h hf h1
      obtain ⟨k', rfl, hk'⟩ := ih hk hf t
      exact ⟨k', by omega, hk'⟩

theorem Reach.trans {n : Nat} : ∀ {m : Nat} {a b c : Duo α β}, Reach n a b → Reach m b c → Reach (n + m) a c := by
  induction n with
  | zero => intro m a b c h1 h2; cases h1; rw [Nat.zero_add]; exact h2
  | succ n ih =>
    intro m a b c h1 h2
    cases h1 with
    | step h t =>
      rw [Nat.succ_add]
      exact .step h (ih t h2)

/-- Two parties in the middle of longer programs. -/
def bind {γ δ : Type} (c : Duo α β) (f : α → Proc γ) (g : β → Proc δ) : Duo γ δ := ⟨c.p.bind f, c.q.bind g, c.pq, c.qp⟩

theorem Step.bind {γ δ : Type} {c c' : Duo α β} (h : Step c c') (f : α → Proc γ) (g : β → Proc δ) : Step (c.bind f g) (c'.bind f g) := by
  obtain ⟨p, q, pq, qp⟩ := c
  rcases h with h | h
  · left
    cases p with
    | done a => simp [stepP] at h
    | fail => simp [stepP] at h
    | send bs k => simp only [stepP, Option.some.injEq] at h; subst h; rfl
    | recv n k =>
      simp only [stepP] at h
      split at h
      · next hn =>
        simp only [Option.some.injEq] at h; subst h
        exact if_pos hn
      · cases h
  · right
    cases q with
    | done a => simp [stepQ] at h
    | fail => simp [stepQ] at h
    | send bs k => simp only [stepQ, Option.some.injEq] at h; subst h; rfl
    | recv n k =>
      simp only [stepQ] at h
      split at h
      · next hn =>
        simp only [Option.some.injEq] at h; subst h
        exact if_pos hn
      · cases h

theorem Reach.bind {γ δ : Type} {n : Nat} {c c' : Duo α β} (h : Reach n c c') (f : α → Proc γ) (g : β → Proc δ) :
    Reach n (c.bind f g) (c'.bind f g) := by
  induction h with
  | refl c => exact .refl _
  | step h _ ih => exact .step (h.bind f g) ih

end Duo

/-- There is a schedule under which the two parties end with `a` and `b` and nothing is left on the streams. -/
def Co {α β : Type} (P : Proc α) (Q : Proc β) (a : α) (b : β) : Prop :=
  ∃ n, Duo.Reach n ⟨P, Q, [], []⟩ ⟨.done a, .done b, [], []⟩

theorem Co.done {α β : Type} (a : α) (b : β) : Co (.done a) (.done b) a b := ⟨0, .refl _⟩

theorem Co.bind {α β γ δ : Type} {P : Proc α} {Q : Proc β} {a : α} {b : β} {f : α → Proc γ} {g : β → Proc δ} {x : γ} {y : δ}
    (h : Co P Q a b) (h' : Co (f a) (g b) x y) : Co (P.bind f) (Q.bind g) x y := by
  obtain ⟨n, hn⟩ := h
  obtain ⟨m, hm⟩ := h'
  exact ⟨n + m, (hn.bind f g).trans hm⟩

/-- A message from the first party to the second. -/
theorem Co.pq (bs : List Byte) {n : Nat} (h : bs.length = n) : Co (Proc.put bs) (Proc.get n) () bs := by
  subst h
  refine ⟨2, .step (.inl rfl) (.step (.inr ?_) (.refl _))⟩
  simp [Duo.stepQ, Proc.get]

/-- A message back. -/
theorem Co.qp (bs : List Byte) {n : Nat} (h : bs.length = n) : Co (Proc.get n) (Proc.put bs) bs () := by
  subst h
  refine ⟨2, .step (.inr rfl) (.step (.inl ?_) (.refl _))⟩
  simp [Duo.stepP, Proc.get]

theorem Co.script (l : List (Bool × List Byte)) : Co (Proc.script true l) (Proc.script false l) () () := by
  induction l with
  | nil => exact Co.done _ _
  | cons x l ih =>
    obtain ⟨b, bs⟩ := x
    cases b with
    | true =>
      have h := Co.bind (Co.pq bs rfl) (f := fun _ => Proc.script true l) (g := fun _ => Proc.script false l) ih
      exact h
    | false =>
      have h := Co.bind (Co.qp bs rfl) (f := fun _ => Proc.script true l) (g := fun _ => Proc.script false l) ih
      exact h

/-- Both parties finished, nothing left: nothing can happen. -/
theorem stuck_done {α β : Type} (a : α) (b : β) (pq qp : List Byte) : Duo.Stuck (⟨.done a, .done b, pq, qp⟩ : Duo α β) := by
  rintro c' (h | h) <;> cases h

theorem Proc.on_bind {α β : Type} (P : Proc α) (f : α → Proc β) : ∀ bs, (P.bind f).on bs =
    (match P.on bs with | .waits => .waits | .fails => .fails | .ends a r => (f a).on r) := by
  induction P with
  | done a => intro bs; rfl
  | fail => intro bs; rfl
  | send b k ih => intro bs; exact ih bs
  | recv n k ih =>
    intro bs
    simp only [Proc.bind, Proc.on]
    split
    · exact ih _ _
    · rfl

end EmpZk
