/-
Programs on the receiving endpoint that ask the same questions; what the second one returns does not depend on the schedule.
-/
import Verif.Lemmas.Calls

namespace EmpZk

section
variable {α β γ δ : Type}

/-- `q'` makes the same calls as `q` as long as `q` goes on, and returns when `q` returns, with related results. -/
inductive Follows (R : α → β → Prop) : RProg α → RProg β → Prop where
  | done {a b} : R a b → Follows R (.done a) (.done b)
  | fail {q} : Follows R .fail q
  | stop {q} : Follows R .stop q
  | call {o k k'} : (∀ x y, Follows R (k x y) (k' x y)) → Follows R (.call o k) (.call o k')

theorem Follows.bind {R : α → β → Prop} {R' : γ → δ → Prop} {q : RProg α} {q' : RProg β} {f : α → RProg γ} {f' : β → RProg δ}
    (h : Follows R q q') (hf : ∀ a b, R a b → Follows R' (f a) (f' b)) : Follows R' (q.bind f) (q'.bind f') := by
  induction h with
  | done h => exact hf _ _ h
  | fail => exact .fail
  | stop => exact .stop
  | call _ ih => exact .call ih

theorem Follows.mono {R R' : α → β → Prop} {q : RProg α} {q' : RProg β} (h : Follows R q q') (hR : ∀ a b, R a b → R' a b) :
    Follows R' q q' := by
  induction h with
  | done h => exact .done (hR _ _ h)
  | fail => exact .fail
  | stop => exact .stop
  | call _ ih => exact .call ih

theorem Follows.ofOpt {R : α → β → Prop} {x : Option α} {y : Option β} (h : ∀ a, x = some a → ∃ b, y = some b ∧ R a b) :
    Follows R (RProg.ofOpt x) (RProg.ofOpt y) := by
  cases x with
  | none => exact .fail
  | some a =>
    obtain ⟨b, rfl, hb⟩ := h a rfl
    exact .done hb

theorem Follows.calls (l : List ROp) : Follows (fun (_ _ : Unit) => True) (RProg.calls l) (RProg.calls l) := by
  induction l with
  | nil => exact .done trivial
  | cons o l ih => exact .call (fun _ _ => ih)

/-- What every result of a program satisfies. -/
def RProg.All (Q : α → Prop) : RProg α → Prop
  | .done a => Q a
  | .fail => True
  | .stop => True
  | .call _ k => ∀ x y, (k x y).All Q

theorem RProg.All.bind {Q : α → Prop} {Q' : β → Prop} {q : RProg α} {f : α → RProg β} (h : q.All Q) (hf : ∀ a, Q a → (f a).All Q') :
    (q.bind f).All Q' := by
  induction q with
  | done a => exact hf a h
  | fail => trivial
  | stop => trivial
  | call o k ih => exact fun x y => ih x y (h x y)

theorem RProg.All.mono {Q Q' : α → Prop} {q : RProg α} (h : q.All Q) (hq : ∀ a, Q a → Q' a) : q.All Q' := by
  induction q with
  | done a => exact hq a h
  | fail => trivial
  | stop => trivial
  | call o k ih => exact fun x y => ih x y (h x y)

theorem RProg.All.ofOpt {Q : α → Prop} {x : Option α} (h : ∀ a, x = some a → Q a) : (RProg.ofOpt x).All Q := by
  cases x with
  | none => trivial
  | some a => exact h a rfl

theorem RProg.All.calls (l : List ROp) : (RProg.calls l).All (fun _ => True) := by
  induction l with
  | nil => trivial
  | cons o l ih => exact fun _ _ => ih

/-! ### over the network -/

theorem rcvFill_more {S : Nat} {r : RcvSt} {w : List Byte} {r' : RcvSt} {w' : List Byte} (h : rcvFill S r w = .ok (r', w')) (y : List Byte) :
    rcvFill S r (w ++ y) = .ok (r', w' ++ y) := by
  unfold rcvFill at h ⊢
  split at h
  · rename_i hp
    rw [if_pos hp]
    split at h
    · simp at h
    · rename_i hl
      simp only [RecvRes.ok.injEq, Prod.mk.injEq] at h
      obtain ⟨rfl, rfl⟩ := h
      rw [if_neg (by simp; omega), List.take_append_of_le_length (by omega), List.drop_append_of_le_length (by omega)]
  · rename_i hp
    rw [if_neg hp]
    simp only [RecvRes.ok.injEq, Prod.mk.injEq] at h
    obtain ⟨rfl, rfl⟩ := h
    rfl

/-- A step of the sending endpoint with more bytes coming in and other bytes going out. -/
theorem stepS_local {S : Nat} {s : SndSt} {o : SOp} {toR toS : List Byte} {rcv : RcvSt} {n : Net}
    (h : stepS S ⟨s, [o], toR, toS, rcv, []⟩ = some n) : ∃ w, n.toR = toR ++ w ∧ ∀ toR2 x rcv2,
      stepS S ⟨s, [o], toR2, toS ++ x, rcv2, []⟩ = some ⟨n.snd, n.sops, toR2 ++ w, n.toS ++ x, rcv2, []⟩ := by
  cases o with
  | bit b =>
    simp only [stepS, Option.some.injEq] at h
    subst h
    exact ⟨_, rfl, fun _ _ _ => rfl⟩
  | flush =>
    simp only [stepS, Option.some.injEq] at h
    subst h
    exact ⟨_, rfl, fun _ _ _ => rfl⟩
  | data bs =>
    simp only [stepS, Option.some.injEq] at h
    subst h
    refine ⟨(sndFlush S s).2 ++ bs, by simp, fun _ _ _ => by simp [stepS]⟩
  | hash =>
    simp only [stepS, Option.some.injEq] at h
    subst h
    exact ⟨_, rfl, fun _ _ _ => rfl⟩
  | back m =>
    simp only [stepS] at h ⊢
    by_cases hb : s.buf ≠ []
    · rw [if_pos hb, Option.some.injEq] at h
      subst h
      exact ⟨_, rfl, fun _ _ _ => by rw [if_pos hb]⟩
    · rw [if_neg hb] at h
      by_cases hl : toS.length < m
      · rw [if_pos hl] at h; simp at h
      · rw [if_neg hl, Option.some.injEq] at h
        subst h
        refine ⟨[], by simp, fun toR2 x rcv2 => ?_⟩
        rw [if_neg hb, if_neg (by simp; omega), List.take_append_of_le_length (by omega), List.drop_append_of_le_length (by omega),
          List.append_nil]

/-- A step of the receiving endpoint with more bytes coming in and other bytes going out. -/
theorem stepR_local {S : Nat} {s : SndSt} {o : ROp} {toR toS : List Byte} {rcv : RcvSt} {n : Net}
    (h : stepR S ⟨s, [], toR, toS, rcv, [o]⟩ = .ok n) : ∃ w, n.toS = toS ++ w ∧ ∀ s2 y toS2,
      stepR S ⟨s2, [], toR ++ y, toS2, rcv, [o]⟩ = .ok ⟨s2, [], n.toR ++ y, toS2 ++ w, n.rcv, n.rops⟩ := by
  cases o with
  | bit =>
    simp only [stepR] at h ⊢
    cases hf : rcvFill S rcv toR with
    | blocked => rw [hf] at h; simp at h
    | ub => rw [hf] at h; simp at h
    | ok rw' =>
      obtain ⟨r, w'⟩ := rw'
      rw [hf] at h
      simp only at h
      cases ht : rcvTake r with
      | blocked => rw [ht] at h; simp at h
      | ub => rw [ht] at h; simp at h
      | ok r' =>
        rw [ht] at h
        simp only [RecvRes.ok.injEq] at h
        subst h
        refine ⟨[], by simp, fun s2 y toS2 => ?_⟩
        rw [rcvFill_more hf y]
        simp only [ht, List.append_nil]
  | flush =>
    simp only [stepR, RecvRes.ok.injEq] at h ⊢
    subst h
    exact ⟨[], by simp, fun _ _ _ => by simp⟩
  | data m =>
    simp only [stepR] at h ⊢
    by_cases hl : toR.length < m
    · rw [if_pos hl] at h; simp at h
    · rw [if_neg hl, RecvRes.ok.injEq] at h
      subst h
      refine ⟨[], by simp, fun s2 y toS2 => ?_⟩
      rw [if_neg (by simp; omega), List.take_append_of_le_length (by omega), List.drop_append_of_le_length (by omega), List.append_nil]
  | hash =>
    simp only [stepR, RecvRes.ok.injEq] at h ⊢
    subst h
    exact ⟨[], by simp, fun _ _ _ => by simp⟩
  | back bs =>
    simp only [stepR, RecvRes.ok.injEq] at h ⊢
    subst h
    exact ⟨bs, rfl, fun _ _ _ => rfl⟩

variable {S : Nat}

/-- The two programs do not disturb each other. -/
theorem step_diamond {c c1 c2 : PNet α β} (h1 : stepP S c = some c1) (h2 : stepQ S c = .ok c2) :
    ∃ c', stepQ S c1 = .ok c' ∧ stepP S c2 = some c' := by
  obtain ⟨p, snd, toR, toS, rcv, q⟩ := c
  cases p with
  | done a => simp [stepP] at h1
  | fail => simp [stepP] at h1
  | stop => simp [stepP] at h1
  | call o k =>
    cases q with
    | done a => simp [stepQ] at h2
    | fail => simp [stepQ] at h2
    | stop => simp [stepQ] at h2
    | call o' k' =>
      simp only [stepP] at h1
      simp only [stepQ] at h2
      cases hs : stepS S ⟨snd, [o], toR, toS, rcv, []⟩ with
      | none => rw [hs] at h1; simp at h1
      | some n =>
        rw [hs] at h1
        simp only [Option.some.injEq] at h1
        subst h1
        cases hr : stepR S ⟨snd, [], toR, toS, rcv, [o']⟩ with
        | blocked => rw [hr] at h2; simp at h2
        | ub => rw [hr] at h2; simp at h2
        | ok m =>
          rw [hr] at h2
          simp only [RecvRes.ok.injEq] at h2
          subst h2
          obtain ⟨w, hw, hw'⟩ := stepS_local hs
          obtain ⟨u, hu, hu'⟩ := stepR_local hr
          refine ⟨⟨if n.sops = [] then k (sndRet n.snd o) else .call o k, n.snd, m.toR ++ w, n.toS ++ u, m.rcv,
            k' (rcvRetB m.rcv o') (rcvRetD m.rcv o')⟩, ?_, ?_⟩
          · simp only [stepQ, hw, hu' n.snd w n.toS]
          · simp only [stepP, hu, hw' m.toR u m.rcv]

/-- A step of either program. -/
def PStep (S : Nat) (c c' : PNet α β) : Prop := stepP S c = some c' ∨ stepQ S c = .ok c'

theorem PReach.head {c c1 c' : PNet α β} (h : PStep S c c1) (h' : PReach S c1 c') : PReach S c c' := by
  refine PReach.trans ?_ h'
  rcases h with h | h
  · exact .sndStep .init h
  · exact .rcvStep .init h

theorem pstep_strip {c c1 : PNet α β} (h : PStep S c c1) {c2 : PNet α β} (h2 : PReach S c c2) :
    ∃ c', PReach S c1 c' ∧ (c' = c2 ∨ PStep S c2 c') := by
  induction h2 with
  | init => exact ⟨c1, .init, Or.inr h⟩
  | sndStep _ hs ih =>
    obtain ⟨d, hd, rfl | hp⟩ := ih
    · exact ⟨_, .sndStep hd hs, Or.inl rfl⟩
    · rcases hp with hp | hp
      · rw [hs, Option.some.injEq] at hp
        subst hp
        exact ⟨_, hd, Or.inl rfl⟩
      · obtain ⟨d', h1, h2⟩ := step_diamond hs hp
        exact ⟨d', .sndStep hd h2, Or.inr (Or.inr h1)⟩
  | rcvStep _ hs ih =>
    obtain ⟨d, hd, rfl | hp⟩ := ih
    · exact ⟨_, .rcvStep hd hs, Or.inl rfl⟩
    · rcases hp with hp | hp
      · obtain ⟨d', h1, h2⟩ := step_diamond hp hs
        exact ⟨d', .rcvStep hd h1, Or.inr (Or.inl h2)⟩
      · rw [hs, RecvRes.ok.injEq] at hp
        subst hp
        exact ⟨_, hd, Or.inl rfl⟩

/-- Two schedules can be continued to the same configuration. -/
theorem preach_confluent {c c1 c2 : PNet α β} (h1 : PReach S c c1) (h2 : PReach S c c2) : ∃ c', PReach S c1 c' ∧ PReach S c2 c' := by
  induction h1 with
  | init => exact ⟨c2, h2, .init⟩
  | sndStep _ hs ih =>
    obtain ⟨d, k1, k2⟩ := ih
    obtain ⟨d', j1, j2⟩ := pstep_strip (Or.inl hs) k1
    refine ⟨d', j1, ?_⟩
    rcases j2 with rfl | j2
    · exact k2
    · exact k2.trans (.head j2 .init)
  | rcvStep _ hs ih =>
    obtain ⟨d, k1, k2⟩ := ih
    obtain ⟨d', j1, j2⟩ := pstep_strip (Or.inr hs) k1
    refine ⟨d', j1, ?_⟩
    rcases j2 with rfl | j2
    · exact k2
    · exact k2.trans (.head j2 .init)

theorem preach_done {c c' : PNet α β} {b : β} (h : PReach S c c') (hq : c.q = .done b) : c'.q = .done b := by
  induction h with
  | init => exact hq
  | @sndStep d d' _ hs ih =>
    unfold stepP at hs
    split at hs
    · split at hs
      · simp at hs
      · simp only [Option.some.injEq] at hs
        subst hs
        exact ih
    · simp at hs
  | rcvStep _ hs ih => rw [stepQ, ih] at hs; simp at hs

/-- What the receiving program returns does not depend on the schedule. -/
theorem preach_result {c c1 c2 : PNet α β} {b1 b2 : β} (h1 : PReach S c c1) (q1 : c1.q = .done b1) (h2 : PReach S c c2) (q2 : c2.q = .done b2) :
    b1 = b2 := by
  obtain ⟨c', k1, k2⟩ := preach_confluent h1 h2
  have := (preach_done k1 q1).symm.trans (preach_done k2 q2)
  simpa using this

/-- A program that follows another one goes through the same states of the network. -/
theorem follows_reach {R : β → γ → Prop} {q : RProg β} {q' : RProg γ} (hf : Follows R q q') {junk : List Byte} {p : SProg α}
    {c : PNet α β} (h : PReach S (pnetInit S junk p q) c) :
    ∃ q1, PReach S (pnetInit S junk p q') ⟨c.p, c.snd, c.toR, c.toS, c.rcv, q1⟩ ∧ Follows R c.q q1 := by
  induction h with
  | init => exact ⟨q', .init, hf⟩
  | @sndStep d d' _ hs ih =>
    obtain ⟨q1, k1, k2⟩ := ih
    obtain ⟨p, snd, toR, toS, rcv, q⟩ := d
    cases p with
    | done a => simp [stepP] at hs
    | fail => simp [stepP] at hs
    | stop => simp [stepP] at hs
    | call o k =>
      simp only [stepP] at hs
      cases hn : stepS S ⟨snd, [o], toR, toS, rcv, []⟩ with
      | none => rw [hn] at hs; simp at hs
      | some n =>
        rw [hn] at hs
        simp only [Option.some.injEq] at hs
        subst hs
        refine ⟨q1, .sndStep k1 ?_, k2⟩
        simp only [stepP, hn]
  | @rcvStep d d' _ hs ih =>
    obtain ⟨q1, k1, k2⟩ := ih
    obtain ⟨p, snd, toR, toS, rcv, q⟩ := d
    cases k2 with
    | done _ => simp [stepQ] at hs
    | fail => simp [stepQ] at hs
    | stop => simp [stepQ] at hs
    | @call o k k' hk =>
      simp only [stepQ] at hs
      cases hn : stepR S ⟨snd, [], toR, toS, rcv, [o]⟩ with
      | blocked => rw [hn] at hs; simp at hs
      | ub => rw [hn] at hs; simp at hs
      | ok n =>
        rw [hn] at hs
        simp only [RecvRes.ok.injEq] at hs
        subst hs
        refine ⟨_, .rcvStep k1 ?_, hk (rcvRetB n.rcv o) (rcvRetD n.rcv o)⟩
        simp only [stepQ, hn]

/-- Results of a program over the network. -/
theorem all_reach {Q : β → Prop} {q : RProg β} (ha : q.All Q) {junk : List Byte} {p : SProg α} {c : PNet α β}
    (h : PReach S (pnetInit S junk p q) c) : c.q.All Q := by
  induction h with
  | init => exact ha
  | @sndStep d d' _ hs ih =>
    unfold stepP at hs
    split at hs
    · split at hs
      · simp at hs
      · simp only [Option.some.injEq] at hs
        subst hs
        exact ih
    · simp at hs
  | @rcvStep d d' _ hs ih =>
    unfold stepQ at hs
    split at hs
    · rename_i o k hq
      rw [hq] at ih
      split at hs
      · simp at hs
      · simp at hs
      · simp only [RecvRes.ok.injEq] at hs
        subst hs
        exact ih _ _
    · simp at hs

end
end EmpZk
