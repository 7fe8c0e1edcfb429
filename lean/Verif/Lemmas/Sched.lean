/-
Runs of two programs: all schedules come to the same end.
-/
import Verif.Spec.Sched
import Verif.Lemmas.Follow

namespace EmpZk

variable {α β : Type} {S : Nat}

theorem PRuns.head {n : Nat} {c c1 c' : PNet α β} (h : PStep S c c1) (h' : PRuns S n c1 c') : PRuns S (n + 1) c c' := by
  rcases h with h | h
  · exact .snd h h'
  · exact .rcv h h'

theorem PRuns.cases_head {n : Nat} {c c' : PNet α β} (h : PRuns S n c c') :
    (n = 0 ∧ c = c') ∨ ∃ m c1, n = m + 1 ∧ PStep S c c1 ∧ PRuns S m c1 c' := by
  cases h with
  | zero => exact .inl ⟨rfl, rfl⟩
  | snd h h' => exact .inr ⟨_, _, rfl, .inl h, h'⟩
  | rcv h h' => exact .inr ⟨_, _, rfl, .inr h, h'⟩

/-- Two different first steps can be completed to the same configuration by one step each. -/
theorem pstep_diamond {c a b : PNet α β} (ha : PStep S c a) (hb : PStep S c b) : a = b ∨ ∃ d, PStep S a d ∧ PStep S b d := by
  rcases ha with ha | ha <;> rcases hb with hb | hb
  · rw [ha, Option.some.injEq] at hb; exact .inl hb
  · obtain ⟨d, h1, h2⟩ := step_diamond ha hb
    exact .inr ⟨d, .inr h1, .inl h2⟩
  · obtain ⟨d, h1, h2⟩ := step_diamond hb ha
    exact .inr ⟨d, .inl h2, .inr h1⟩
  · rw [ha, RecvRes.ok.injEq] at hb; exact .inl hb

theorem stuck_no_step {c c1 : PNet α β} (h : c.Stuck S) : ¬ PStep S c c1 := by
  rintro (h1 | h1)
  · rw [h.1] at h1; simp at h1
  · exact h.2 _ h1

/-- A first step of any kind is a step towards the end. -/
theorem runs_step {n : Nat} : ∀ {c f a : PNet α β}, PRuns S n c f → f.Stuck S → PStep S c a → ∃ m, n = m + 1 ∧ PRuns S m a f := by
  induction n with
  | zero =>
    intro c f a h hf ha
    rcases h.cases_head with ⟨-, rfl⟩ | ⟨m, _, h, -⟩
    · exact (stuck_no_step hf ha).elim
    · omega
  | succ n ih =>
    intro c f a h hf ha
    rcases h.cases_head with ⟨h, -⟩ | ⟨m, c1, h, h1, h2⟩
    · omega
    · obtain rfl : n = m := by omega
      refine ⟨n, rfl, ?_⟩
      rcases pstep_diamond h1 ha with rfl | ⟨d, k1, k2⟩
      · exact h2
      · obtain ⟨m', rfl, k3⟩ := ih h2 hf k1
        exact .head k2 k3

theorem runs_all {m : Nat} : ∀ {n : Nat} {c f a : PNet α β}, PRuns S n c f → f.Stuck S → PRuns S m c a → m ≤ n ∧ PRuns S (n - m) a f := by
  induction m with
  | zero =>
    intro n c f a h hf ha
    rcases ha.cases_head with ⟨-, rfl⟩ | ⟨m, _, h, -⟩
    · exact ⟨Nat.zero_le _, h⟩
    · omega
  | succ m ih =>
    intro n c f a h hf ha
    rcases ha.cases_head with ⟨h, -⟩ | ⟨m', c1, e, h1, h2⟩
    · omega
    · obtain rfl : m = m' := by omega
      obtain ⟨k, rfl, k1⟩ := runs_step h hf h1
      obtain ⟨k2, k3⟩ := ih k1 hf h2
      exact ⟨by omega, by rw [Nat.add_sub_add_right]; exact k3⟩

theorem PRuns.reach {n : Nat} {c c' : PNet α β} (h : PRuns S n c c') : PReach S c c' := by
  induction h with
  | zero c => exact .init
  | snd h _ ih => exact .head (.inl h) ih
  | rcv h _ ih => exact .head (.inr h) ih

theorem PRuns.trans {n : Nat} {a b : PNet α β} (h : PRuns S n a b) : ∀ {m : Nat} {c : PNet α β}, PRuns S m b c → PRuns S (n + m) a c := by
  induction h with
  | zero c => intro m d h; rw [Nat.zero_add]; exact h
  | snd h _ ih => intro m d h'; rw [Nat.add_right_comm]; exact .snd h (ih h')
  | rcv h _ ih => intro m d h'; rw [Nat.add_right_comm]; exact .rcv h (ih h')

theorem reach_runs {c c' : PNet α β} (h : PReach S c c') : ∃ n, PRuns S n c c' := by
  induction h with
  | init => exact ⟨0, .zero _⟩
  | sndStep _ hs ih => obtain ⟨n, ih⟩ := ih; exact ⟨n + 1, ih.trans (.snd hs (.zero _))⟩
  | rcvStep _ hs ih => obtain ⟨n, ih⟩ := ih; exact ⟨n + 1, ih.trans (.rcv hs (.zero _))⟩

/-- A program that has ended stays as it is. -/
theorem ended_stays {c c' : PNet α β} (h : PReach S c c') : (c.p.Ended → c'.p = c.p) ∧ (c.q.Ended → c'.q = c.q) := by
  induction h with
  | init => exact ⟨fun _ => rfl, fun _ => rfl⟩
  | @sndStep a b _ hs ih =>
    refine ⟨fun he => ?_, fun he => ?_⟩
    · have e := ih.1 he
      unfold stepP at hs
      split at hs
      · next o k hp => exact (he o k (by rw [← e, hp])).elim
      · simp at hs
    · rw [← ih.2 he]
      unfold stepP at hs
      split at hs
      · split at hs
        · simp at hs
        · simp only [Option.some.injEq] at hs; subst hs; rfl
      · simp at hs
  | @rcvStep a b _ hs ih =>
    refine ⟨fun he => ?_, fun he => ?_⟩
    · rw [← ih.1 he]
      unfold stepQ at hs
      split at hs
      · split at hs
        · simp at hs
        · simp at hs
        · simp only [RecvRes.ok.injEq] at hs; subst hs; rfl
      · simp at hs
    · have e := ih.2 he
      unfold stepQ at hs
      split at hs
      · next o k hq => exact (he o k (by rw [← e, hq])).elim
      · simp at hs

/-! ### the contents of the uninitialised receive buffer -/

/-- The same configuration but for the receive buffer, which may differ while it is exhausted. -/
def SameBut (S : Nat) (a b : PNet α β) : Prop :=
  ∃ y, b = { a with rcv := { a.rcv with arr := y } } ∧ (a.rcv.ptr = S ∨ y = a.rcv.arr)

theorem stepP_sameBut {a b a' : PNet α β} (h : SameBut S a b) (hs : stepP S a = some a') : ∃ b', stepP S b = some b' ∧ SameBut S a' b' := by
  obtain ⟨y, rfl, hy⟩ := h
  obtain ⟨p, snd, toR, toS, rcv, q⟩ := a
  cases p with
  | done a => simp [stepP] at hs
  | fail => simp [stepP] at hs
  | stop => simp [stepP] at hs
  | call o k =>
    simp only [stepP] at hs ⊢
    cases hn : stepS S ⟨snd, [o], toR, toS, rcv, []⟩ with
    | none => rw [hn] at hs; simp at hs
    | some n =>
      rw [hn] at hs
      simp only [Option.some.injEq] at hs
      subst hs
      obtain ⟨w, hw, hw'⟩ := stepS_local hn
      have := hw' toR [] { rcv with arr := y }
      rw [List.append_nil] at this
      rw [this]
      refine ⟨_, rfl, y, ?_, hy⟩
      simp [hw]

theorem stepQ_sameBut {a b a' : PNet α β} (h : SameBut S a b) (hs : stepQ S a = .ok a') : ∃ b', stepQ S b = .ok b' ∧ SameBut S a' b' := by
  obtain ⟨y, rfl, hy⟩ := h
  obtain ⟨p, snd, toR, toS, rcv, q⟩ := a
  simp only at hy
  cases q with
  | done a => simp [stepQ] at hs
  | fail => simp [stepQ] at hs
  | stop => simp [stepQ] at hs
  | call o k =>
    by_cases hp : rcv.ptr = S
    · cases o with
      | bit =>
        refine ⟨a', ?_, a'.rcv.arr, rfl, .inr rfl⟩
        rw [← hs]
        simp only [stepQ, stepR, rcvFill, hp, if_true]
      | flush =>
        simp only [stepQ, stepR, RecvRes.ok.injEq] at hs ⊢
        subst hs
        exact ⟨_, rfl, y, rfl, .inl rfl⟩
      | data n =>
        simp only [stepQ, stepR] at hs ⊢
        by_cases hlt : toR.length < n
        · rw [if_pos hlt] at hs; simp at hs
        · rw [if_neg hlt] at hs ⊢
          simp only [RecvRes.ok.injEq] at hs
          subst hs
          exact ⟨_, rfl, y, rfl, .inl rfl⟩
      | hash =>
        simp only [stepQ, stepR, RecvRes.ok.injEq] at hs ⊢
        subst hs
        exact ⟨_, rfl, y, rfl, .inl rfl⟩
      | back bs =>
        simp only [stepQ, stepR, RecvRes.ok.injEq] at hs ⊢
        subst hs
        exact ⟨_, rfl, y, rfl, .inl rfl⟩
    · rcases hy with hy | rfl
      · exact (hp hy).elim
      · exact ⟨a', hs, a'.rcv.arr, rfl, .inr rfl⟩

theorem runs_sameBut {n : Nat} {a a' : PNet α β} (h : PRuns S n a a') : ∀ {b}, SameBut S a b → ∃ b', PRuns S n b b' ∧ SameBut S a' b' := by
  induction h with
  | zero c => intro b hb; exact ⟨b, .zero b, hb⟩
  | snd hs _ ih =>
    intro b hb
    obtain ⟨b1, h1, h2⟩ := stepP_sameBut hb hs
    obtain ⟨b', h3, h4⟩ := ih h2
    exact ⟨b', .snd h1 h3, h4⟩
  | rcv hs _ ih =>
    intro b hb
    obtain ⟨b1, h1, h2⟩ := stepQ_sameBut hb hs
    obtain ⟨b', h3, h4⟩ := ih h2
    exact ⟨b', .rcv h1 h3, h4⟩

end EmpZk
