/-
Two parties with several threads and channels: the result does not depend on the schedule.
-/
import Verif.Model.Par
import Verif.Lemmas.Proc
import Mathlib.Tactic.Convert

namespace EmpZk

theorem stepP_frame {α β γ : Type} {p : Proc α} {q : Proc β} (q' : Proc γ) {a b : List Byte} {d : Duo α β}
    (h : (⟨p, q, a, b⟩ : Duo α β).stepP = some d) : (⟨p, q', a, b⟩ : Duo α γ).stepP = some ⟨d.p, q', d.pq, d.qp⟩ ∧ d.q = q := by
  cases p with
  | done a => simp [Duo.stepP] at h
  | fail => simp [Duo.stepP] at h
  | send bs k => simp only [Duo.stepP, Option.some.injEq] at h; subst h; exact ⟨rfl, rfl⟩
  | recv n k =>
    simp only [Duo.stepP] at h
    split at h
    · next hn =>
      simp only [Option.some.injEq] at h; subst h
      exact ⟨if_pos hn, rfl⟩
    · cases h

theorem stepQ_frame {α β γ : Type} {p : Proc α} {q : Proc β} (p' : Proc γ) {a b : List Byte} {d : Duo α β}
    (h : (⟨p, q, a, b⟩ : Duo α β).stepQ = some d) : (⟨p', q, a, b⟩ : Duo γ β).stepQ = some ⟨p', d.q, d.pq, d.qp⟩ ∧ d.p = p := by
  cases q with
  | done a => simp [Duo.stepQ] at h
  | fail => simp [Duo.stepQ] at h
  | send bs k => simp only [Duo.stepQ, Option.some.injEq] at h; subst h; exact ⟨rfl, rfl⟩
  | recv n k =>
    simp only [Duo.stepQ] at h
    split at h
    · next hn =>
      simp only [Option.some.injEq] at h; subst h
      exact ⟨if_pos hn, rfl⟩
    · cases h

namespace ParDuo
variable {T : Nat} {α β : Type}

open Function

/-- A thread of the first party and a thread of the second do not disturb each other. -/
private theorem diamond {γ δ : Type} {ps : Fin T → Proc γ} {k : (Fin T → γ) → Par T α} {qs : Fin T → Proc δ}
    {k' : (Fin T → δ) → Par T β} {pq qp : Fin T → List Byte} {i j : Fin T} {d : Duo γ Unit} {e : Duo Unit δ}
    (hd : (⟨ps i, .done (), pq i, qp i⟩ : Duo γ Unit).stepP = some d)
    (he : (⟨.done (), qs j, pq j, qp j⟩ : Duo Unit δ).stepQ = some e) :
    ∃ f, Step (⟨.run (update ps i d.p) k, .run qs k', update pq i d.pq, update qp i d.qp⟩ : ParDuo T α β) f ∧
      Step (⟨.run ps k, .run (update qs j e.q) k', update pq j e.pq, update qp j e.qp⟩ : ParDuo T α β) f := by
  by_cases hij : i = j
  · subst hij
    obtain ⟨f, h1, h2⟩ := Duo.diamond (stepP_frame (qs i) hd).1 (stepQ_frame (ps i) he).1
    obtain ⟨s1, e1⟩ := stepQ_frame (.done () : Proc Unit) h1
    obtain ⟨s2, e2⟩ := stepP_frame (.done () : Proc Unit) h2
    refine ⟨⟨.run (update ps i f.p) k, .run (update qs i f.q) k', update pq i f.pq, update qp i f.qp⟩, ?_, ?_⟩
    · have := Step.thQ (α := α) (qs := qs) (k := k') (p := .run (update ps i d.p) k) (pq := update pq i d.pq) (qp := update qp i d.qp) i
        (d := ⟨.done (), f.q, f.pq, f.qp⟩) (by rw [update_self, update_self]; exact s1)
      simpa only [update_idem, e1] using this
    · have := Step.thP (β := β) (ps := ps) (k := k) (q := .run (update qs i e.q) k') (pq := update pq i e.pq) (qp := update qp i e.qp) i
        (d := ⟨f.p, .done (), f.pq, f.qp⟩) (by rw [update_self, update_self]; exact s2)
      simpa only [update_idem, e2] using this
  · refine ⟨⟨.run (update ps i d.p) k, .run (update qs j e.q) k', update (update pq i d.pq) j e.pq, update (update qp i d.qp) j e.qp⟩,
      ?_, ?_⟩
    · exact Step.thQ j (by rw [update_of_ne (Ne.symm hij), update_of_ne (Ne.symm hij)]; exact he)
    · rw [update_comm hij, update_comm hij]
      exact Step.thP i (by rw [update_of_ne hij, update_of_ne hij]; exact hd)

theorem confluent {c a b : ParDuo T α β} (ha : Step c a) (hb : Step c b) : a = b ∨ ∃ d, Step a d ∧ Step b d := by
  cases ha with
  | @thP γ ps k q pq qp i d hd =>
    cases hb with
    | @thP _ _ _ _ _ _ j e he =>
      by_cases hij : i = j
      · subst hij
        cases Option.some.inj (hd.symm.trans he)
        exact .inl rfl
      · refine .inr ⟨⟨.run (update (update ps i d.p) j e.p) k, q, update (update pq i d.pq) j e.pq, update (update qp i d.qp) j e.qp⟩, ?_, ?_⟩
        · exact Step.thP j (by rw [update_of_ne (Ne.symm hij), update_of_ne (Ne.symm hij), update_of_ne (Ne.symm hij)]; exact he)
        · rw [update_comm hij, update_comm hij, update_comm hij]
          exact Step.thP i (by rw [update_of_ne hij, update_of_ne hij, update_of_ne hij]; exact hd)
    | @thQ _ _ _ _ _ _ j e he => exact .inr (diamond hd he)
    | @joinP _ _ _ _ _ _ r hr => rw [hr i] at hd; simp [Duo.stepP] at hd
    | @joinQ _ _ _ _ _ _ r hr => exact .inr ⟨_, .joinQ r hr, .thP i hd⟩
  | @thQ γ qs k p pq qp i d hd =>
    cases hb with
    | @thP _ _ _ _ _ _ j e he =>
      obtain ⟨f, h1, h2⟩ := diamond he hd
      exact .inr ⟨f, h2, h1⟩
    | @thQ _ _ _ _ _ _ j e he =>
      by_cases hij : i = j
      · subst hij
        cases Option.some.inj (hd.symm.trans he)
        exact .inl rfl
      · refine .inr ⟨⟨p, .run (update (update qs i d.q) j e.q) k, update (update pq i d.pq) j e.pq, update (update qp i d.qp) j e.qp⟩, ?_, ?_⟩
        · exact Step.thQ j (by rw [update_of_ne (Ne.symm hij), update_of_ne (Ne.symm hij), update_of_ne (Ne.symm hij)]; exact he)
        · rw [update_comm hij, update_comm hij, update_comm hij]
          exact Step.thQ i (by rw [update_of_ne hij, update_of_ne hij, update_of_ne hij]; exact hd)
    | @joinP _ _ _ _ _ _ r hr => exact .inr ⟨_, .joinP r hr, .thQ i hd⟩
    | @joinQ _ _ _ _ _ _ r hr => rw [hr i] at hd; simp [Duo.stepQ] at hd
  | @joinP γ ps k q pq qp r hr =>
    cases hb with
    | @thP _ _ _ _ _ _ j e he => rw [hr j] at he; simp [Duo.stepP] at he
    | @thQ _ _ _ _ _ _ j e he => exact .inr ⟨_, .thQ j he, .joinP r hr⟩
    | @joinP _ _ _ _ _ _ r' hr' =>
      have : r = r' := funext fun i => Proc.done.inj ((hr i).symm.trans (hr' i))
      subst this
      exact .inl rfl
    | @joinQ _ _ _ _ _ _ r' hr' => exact .inr ⟨_, .joinQ r' hr', .joinP r hr⟩
  | @joinQ γ qs k p pq qp r hr =>
    cases hb with
    | @thP _ _ _ _ _ _ j e he => exact .inr ⟨_, .thP j he, .joinQ r hr⟩
    | @thQ _ _ _ _ _ _ j e he => rw [hr j] at he; simp [Duo.stepQ] at he
    | @joinP _ _ _ _ _ _ r' hr' => exact .inr ⟨_, .joinP r' hr', .joinQ r hr⟩
    | @joinQ _ _ _ _ _ _ r' hr' =>
      have : r = r' := funext fun i => Proc.done.inj ((hr i).symm.trans (hr' i))
      subst this
      exact .inl rfl

/-- Nothing can happen any more. -/
def Stuck (c : ParDuo T α β) : Prop := ∀ c', ¬ Step c c'

theorem reach_step {n : Nat} : ∀ {c f c' : ParDuo T α β}, Reach n c f → Stuck f → Step c c' → ∃ m, n = m + 1 ∧ Reach m c' f := by
  induction n with
  | zero =>
    intro c f c' h hf hs
    cases h
    exact absurd hs (hf c')
  | succ n ih =>
    intro c f c' h hf hs
    cases h with
    | @step _ _ c1 _ h1 t =>
      refine ⟨n, rfl, ?_⟩
      rcases confluent h1 hs with rfl | ⟨d, h2, h3⟩
      · exact t
      · obtain ⟨m, rfl, hm⟩ := ih t hf h2
        exact .step h3 hm

theorem reach_reach {m : Nat} : ∀ {n : Nat} {c f c' : ParDuo T α β}, Reach n c f → Stuck f → Reach m c c' → ∃ k, n = m + k ∧ Reach k c' f := by
  induction m with
  | zero =>
    intro n c f c' h _ hc
    cases hc
    exact ⟨n, (Nat.zero_add n).symm, h⟩
  | succ m ih =>
    intro n c f c' h hf hc
    cases hc with
    | @step _ _ c1 _ h1 t =>
      obtain ⟨k, rfl, hk⟩ := reach_step h hf h1
      obtain ⟨k', rfl, hk'⟩ := ih hk hf t
      exact ⟨k', by omega, hk'⟩

theorem Reach.trans {n : Nat} : ∀ {m : Nat} {a b c : ParDuo T α β}, Reach n a b → Reach m b c → Reach (n + m) a c := by
  induction n with
  | zero => intro m a b c h1 h2; cases h1; rw [Nat.zero_add]; exact h2
  | succ n ih =>
    intro m a b c h1 h2
    cases h1 with
    | step h t =>
      rw [Nat.succ_add]
      exact .step h (ih t h2)

/-- One pair of threads runs while the others wait. -/
theorem thread_reach {γ δ : Type} {k : (Fin T → γ) → Par T α} {k' : (Fin T → δ) → Par T β} (i : Fin T) {n : Nat} {d e : Duo γ δ}
    (h : Duo.Reach n d e) : ∀ (ps : Fin T → Proc γ) (qs : Fin T → Proc δ) (pq qp : Fin T → List Byte),
    ps i = d.p → qs i = d.q → pq i = d.pq → qp i = d.qp →
    Reach n (⟨.run ps k, .run qs k', pq, qp⟩ : ParDuo T α β)
      ⟨.run (update ps i e.p) k, .run (update qs i e.q) k', update pq i e.pq, update qp i e.qp⟩ := by
  induction h with
  | refl c =>
    intro ps qs pq qp h1 h2 h3 h4
    rw [← h1, ← h2, ← h3, ← h4, update_eq_self, update_eq_self, update_eq_self, update_eq_self]
    exact .refl _
  | @step n c c' f h t ih =>
    intro ps qs pq qp h1 h2 h3 h4
    obtain ⟨cp, cq, cpq, cqp⟩ := c
    dsimp only at h1 h2 h3 h4
    rcases h with h | h
    · have hq := (stepP_frame cq h).2
      have hs := (stepP_frame (.done () : Proc Unit) h).1
      rw [← h1, ← h3, ← h4] at hs
      have := ih (update ps i c'.p) qs (update pq i c'.pq) (update qp i c'.qp) (update_self ..) (h2.trans hq.symm) (update_self ..)
        (update_self ..)
      simp only [update_idem] at this
      exact .step (.thP i hs) this
    · have hp := (stepQ_frame cp h).2
      have hs := (stepQ_frame (.done () : Proc Unit) h).1
      rw [← h2, ← h3, ← h4] at hs
      have := ih ps (update qs i c'.q) (update pq i c'.pq) (update qp i c'.qp) (h1.trans hp.symm) (update_self ..) (update_self ..)
        (update_self ..)
      simp only [update_idem] at this
      exact .step (.thQ i hs) this

end ParDuo

/-- There is a schedule under which the two parties end with `a` and `b` and nothing is left on the channels. -/
def CoPar {T : Nat} {α β : Type} (P : Par T α) (Q : Par T β) (a : α) (b : β) : Prop :=
  ∃ n, ParDuo.Reach n (ParDuo.start P Q) (ParDuo.start (.done a) (.done b))

theorem CoPar.done {T : Nat} {α β : Type} (a : α) (b : β) : CoPar (T := T) (.done a) (.done b) a b := ⟨0, .refl _⟩

open Function in
/-- A phase: the threads work in pairs. -/
theorem CoPar.run {T : Nat} {α β γ δ : Type} {ps : Fin T → Proc γ} {qs : Fin T → Proc δ} {k : (Fin T → γ) → Par T α}
    {k' : (Fin T → δ) → Par T β} {r : Fin T → γ} {s : Fin T → δ} {x : α} {y : β} (h : ∀ i, Co (ps i) (qs i) (r i) (s i))
    (h' : CoPar (k r) (k' s) x y) : CoPar (.run ps k) (.run qs k') x y := by
  have key : ∀ m, m ≤ T → ∃ n, ParDuo.Reach n (⟨.run ps k, .run qs k', fun _ => [], fun _ => []⟩ : ParDuo T α β)
      ⟨.run (fun i => if i.1 < m then .done (r i) else ps i) k, .run (fun i => if i.1 < m then .done (s i) else qs i) k',
        fun _ => [], fun _ => []⟩ := by
    intro m
    induction m with
    | zero => intro _; exact ⟨0, by simpa using ParDuo.Reach.refl _⟩
    | succ m ih =>
      intro hm
      obtain ⟨n, hn⟩ := ih (by omega)
      obtain ⟨l, hl⟩ := h ⟨m, by omega⟩
      have := ParDuo.thread_reach (k := k) (k' := k') ⟨m, by omega⟩ hl (fun i : Fin T => if i.1 < m then Proc.done (r i) else ps i)
        (fun i : Fin T => if i.1 < m then Proc.done (s i) else qs i) (fun _ => []) (fun _ => [])
        (if_neg (Nat.lt_irrefl _)) (if_neg (Nat.lt_irrefl _)) rfl rfl
      refine ⟨n + l, hn.trans ?_⟩
      convert this using 2
      · congr 1
        funext i
        by_cases hi : i = ⟨m, by omega⟩
        · subst hi; simp
        · rw [update_of_ne hi]
          have : i.1 ≠ m := fun e => hi (Fin.ext e)
          by_cases h1 : i.1 < m
          · rw [if_pos h1, if_pos (by omega)]
          · rw [if_neg h1, if_neg (by omega)]
      · congr 1
        funext i
        by_cases hi : i = ⟨m, by omega⟩
        · subst hi; simp
        · rw [update_of_ne hi]
          have : i.1 ≠ m := fun e => hi (Fin.ext e)
          by_cases h1 : i.1 < m
          · rw [if_pos h1, if_pos (by omega)]
          · rw [if_neg h1, if_neg (by omega)]
      · exact (update_eq_self (⟨m, by omega⟩ : Fin T) (fun _ => ([] : List Byte))).symm
      · exact (update_eq_self (⟨m, by omega⟩ : Fin T) (fun _ => ([] : List Byte))).symm
  obtain ⟨n, hn⟩ := key T (Nat.le_refl _)
  obtain ⟨m, hm⟩ := h'
  have e1 : (fun i : Fin T => if i.1 < T then Proc.done (r i) else ps i) = fun i => .done (r i) := funext fun i => if_pos i.2
  have e2 : (fun i : Fin T => if i.1 < T then Proc.done (s i) else qs i) = fun i => .done (s i) := funext fun i => if_pos i.2
  rw [e1, e2] at hn
  exact ⟨n + (m + 1 + 1), hn.trans (.step (.joinP r fun _ => rfl) (.step (.joinQ s fun _ => rfl) hm))⟩

/-- Both parties alone. -/
theorem CoPar.one {T : Nat} {α β : Type} {P : Proc α} {Q : Proc β} {a : α} {b : β} (h : Co P Q a b) :
    CoPar (Par.one P : Par (T + 1) α) (Par.one Q) a b := by
  refine CoPar.run (r := fun i => if i = 0 then some a else none) (s := fun i => if i = 0 then some b else none) ?_ ?_
  · intro i
    by_cases hi : i = 0
    · simp only [if_pos hi]
      exact Co.bind h (Co.done _ _)
    · simp only [if_neg hi]
      exact Co.done _ _
  · simp only [if_pos]
    exact CoPar.done _ _

theorem CoPar.bind {T : Nat} {α β γ δ : Type} {f : α → Par T γ} {g : β → Par T δ} {P : Par T α} {Q : Par T β} {a : α} {b : β} {x : γ} {y : δ}
    (h : CoPar P Q a b) (h' : CoPar (f a) (g b) x y) : CoPar (P.bind f) (Q.bind g) x y := by
  obtain ⟨n, hn⟩ := h
  obtain ⟨m, hm⟩ := h'
  refine ⟨n + m, ParDuo.Reach.trans ?_ hm⟩
  have step : ∀ {c c' : ParDuo T α β}, ParDuo.Step c c' →
      ParDuo.Step (⟨c.p.bind f, c.q.bind g, c.pq, c.qp⟩ : ParDuo T γ δ) ⟨c'.p.bind f, c'.q.bind g, c'.pq, c'.qp⟩ := by
    intro c c' h
    cases h with
    | thP i h => exact .thP i h
    | thQ i h => exact .thQ i h
    | joinP r hr => exact .joinP r hr
    | joinQ r hr => exact .joinQ r hr
  have all : ∀ {n} {c c' : ParDuo T α β}, ParDuo.Reach n c c' →
      ParDuo.Reach n (⟨c.p.bind f, c.q.bind g, c.pq, c.qp⟩ : ParDuo T γ δ) ⟨c'.p.bind f, c'.q.bind g, c'.pq, c'.qp⟩ := by
    intro n c c' h
    induction h with
    | refl c => exact .refl _
    | step h _ ih => exact .step (step h) ih
  exact all hn

theorem stuckPar_done {T : Nat} {α β : Type} (a : α) (b : β) (pq qp : Fin T → List Byte) :
    ParDuo.Stuck (⟨.done a, .done b, pq, qp⟩ : ParDuo T α β) := by
  intro c' h
  cases h

end EmpZk
