/-
What a program does depends on the bytes it receives only.
-/
import Verif.Spec.Stream
import Verif.Lemmas.Sched

namespace EmpZk

variable {α β : Type} {S : Nat}

/-- The receiving program alone, with all bytes there from the start. -/
def fedNet (S : Nat) (junk w : List Byte) (q : RProg β) : PNet Unit β :=
  ⟨.done (), ⟨[], [], [], []⟩, w, [], ⟨junk, S, [], [], [], []⟩, q⟩

theorem stepP_frame_q {c c' : PNet α β} (h : stepP S c = some c') : c'.q = c.q ∧ c'.rcv = c.rcv ∧ ∃ x, c'.toR = c.toR ++ x := by
  obtain ⟨p, snd, toR, toS, rcv, q⟩ := c
  cases p with
  | done a => simp [stepP] at h
  | fail => simp [stepP] at h
  | stop => simp [stepP] at h
  | call o k =>
    simp only [stepP] at h
    cases hn : stepS S ⟨snd, [o], toR, toS, rcv, []⟩ with
    | none => rw [hn] at h; simp at h
    | some n =>
      rw [hn] at h
      simp only [Option.some.injEq] at h
      subst h
      obtain ⟨w, hw, _⟩ := stepS_local hn
      exact ⟨rfl, rfl, w, hw⟩

theorem stepQ_fed {c c' : PNet α β} (h : stepQ S c = .ok c') (z : List Byte) {d : PNet Unit β} (hq : d.q = c.q) (hr : d.rcv = c.rcv)
    (ht : d.toR = c.toR ++ z) : ∃ d', stepQ S d = .ok d' ∧ d'.q = c'.q ∧ d'.rcv = c'.rcv ∧ d'.toR = c'.toR ++ z := by
  obtain ⟨p, snd, toR, toS, rcv, q⟩ := c
  obtain ⟨p2, snd2, toR2, toS2, rcv2, q2⟩ := d
  simp only at hq hr ht
  subst hq hr ht
  cases q2 with
  | done a => simp [stepQ] at h
  | fail => simp [stepQ] at h
  | stop => simp [stepQ] at h
  | call o k =>
    simp only [stepQ] at h ⊢
    cases hn : stepR S ⟨snd, [], toR, toS, rcv2, [o]⟩ with
    | blocked => rw [hn] at h; simp at h
    | ub => rw [hn] at h; simp at h
    | ok n =>
      rw [hn] at h
      simp only [RecvRes.ok.injEq] at h
      subst h
      obtain ⟨u, _, hu⟩ := stepR_local hn
      rw [hu snd2 z toS2]
      exact ⟨_, rfl, rfl, rfl, rfl⟩

/-- A run with some sender is a run with the bytes of that sender. -/
theorem stream_fed {junk : List Byte} {p : SProg α} {q : RProg β} {w : List Byte} {c : PNet α β} (h : PStream S (pnetInit S junk p q) w c) :
    ∀ z, ∃ d, PReach S (fedNet S junk (w ++ z) q) d ∧ d.q = c.q ∧ d.rcv = c.rcv ∧ d.toR = c.toR ++ z := by
  induction h with
  | init => intro z; exact ⟨_, .init, rfl, rfl, rfl⟩
  | @snd w x c c' _ hs hx ih =>
    intro z
    obtain ⟨d, h1, h2, h3, h4⟩ := ih (x ++ z)
    obtain ⟨e1, e2, _⟩ := stepP_frame_q hs
    refine ⟨d, by rw [List.append_assoc]; exact h1, by rw [h2, e1], by rw [h3, e2], by rw [h4, hx, List.append_assoc]⟩
  | rcv _ hs ih =>
    intro z
    obtain ⟨d, h1, h2, h3, h4⟩ := ih z
    obtain ⟨d', k1, k2, k3, k4⟩ := stepQ_fed hs z h2 h3 h4
    exact ⟨d', .rcvStep h1 k1, k2, k3, k4⟩

theorem reach_stream {c0 c : PNet α β} (h : PReach S c0 c) : ∃ w, PStream S c0 w c := by
  induction h with
  | init => exact ⟨[], .init⟩
  | sndStep _ hs ih =>
    obtain ⟨w, ih⟩ := ih
    obtain ⟨_, _, x, hx⟩ := stepP_frame_q hs
    exact ⟨w ++ x, .snd ih hs hx⟩
  | rcvStep _ hs ih =>
    obtain ⟨w, ih⟩ := ih
    exact ⟨w, .rcv ih hs⟩

/-- Nothing changes once both programs have ended. -/
theorem ended_rcv {c c' : PNet α β} (h : PReach S c c') (hp : c.p.Ended) (hq : c.q.Ended) : c' = c := by
  induction h with
  | init => rfl
  | @sndStep a b _ hs ih =>
    subst ih
    unfold stepP at hs
    split at hs
    · next o k e => exact (hp o k e).elim
    · simp at hs
  | @rcvStep a b _ hs ih =>
    subst ih
    unfold stepQ at hs
    split at hs
    · next o k e => exact (hq o k e).elim
    · simp at hs

/-! ### the other direction -/

/-- The sending program alone, with all bytes sent back there from the start. -/
def fedBack (S : Nat) (junk w : List Byte) (p : SProg α) : PNet α Unit :=
  ⟨p, ⟨[], [], [], []⟩, [], w, ⟨junk, S, [], [], [], []⟩, .done ()⟩

theorem stepQ_frame_p {c c' : PNet α β} (h : stepQ S c = .ok c') : c'.p = c.p ∧ c'.snd = c.snd ∧ ∃ x, c'.toS = c.toS ++ x := by
  obtain ⟨p, snd, toR, toS, rcv, q⟩ := c
  cases q with
  | done a => simp [stepQ] at h
  | fail => simp [stepQ] at h
  | stop => simp [stepQ] at h
  | call o k =>
    simp only [stepQ] at h
    cases hn : stepR S ⟨snd, [], toR, toS, rcv, [o]⟩ with
    | blocked => rw [hn] at h; simp at h
    | ub => rw [hn] at h; simp at h
    | ok n =>
      rw [hn] at h
      simp only [RecvRes.ok.injEq] at h
      subst h
      obtain ⟨u, hu, _⟩ := stepR_local hn
      exact ⟨rfl, rfl, u, hu⟩

theorem stepP_fed {c c' : PNet α β} (h : stepP S c = some c') (z : List Byte) {d : PNet α Unit} (hp : d.p = c.p) (hr : d.snd = c.snd)
    (ht : d.toS = c.toS ++ z) : ∃ d', stepP S d = some d' ∧ d'.p = c'.p ∧ d'.snd = c'.snd ∧ d'.toS = c'.toS ++ z := by
  obtain ⟨p, snd, toR, toS, rcv, q⟩ := c
  obtain ⟨p2, snd2, toR2, toS2, rcv2, q2⟩ := d
  simp only at hp hr ht
  subst hp hr ht
  cases p2 with
  | done a => simp [stepP] at h
  | fail => simp [stepP] at h
  | stop => simp [stepP] at h
  | call o k =>
    simp only [stepP] at h ⊢
    cases hn : stepS S ⟨snd2, [o], toR, toS, rcv, []⟩ with
    | none => rw [hn] at h; simp at h
    | some n =>
      rw [hn] at h
      simp only [Option.some.injEq] at h
      subst h
      obtain ⟨w, _, hw⟩ := stepS_local hn
      rw [hw toR2 z rcv2]
      exact ⟨_, rfl, rfl, rfl, rfl⟩

theorem back_fed {junk : List Byte} {p : SProg α} {q : RProg β} {w : List Byte} {c : PNet α β} (h : PBack S (pnetInit S junk p q) w c) :
    ∀ z, ∃ d, PReach S (fedBack S junk (w ++ z) p) d ∧ d.p = c.p ∧ d.snd = c.snd ∧ d.toS = c.toS ++ z := by
  induction h with
  | init => intro z; exact ⟨_, .init, rfl, rfl, rfl⟩
  | @rcv w x c c' _ hs hx ih =>
    intro z
    obtain ⟨d, h1, h2, h3, h4⟩ := ih (x ++ z)
    obtain ⟨e1, e2, _⟩ := stepQ_frame_p hs
    refine ⟨d, by rw [List.append_assoc]; exact h1, by rw [h2, e1], by rw [h3, e2], by rw [h4, hx, List.append_assoc]⟩
  | snd _ hs ih =>
    intro z
    obtain ⟨d, h1, h2, h3, h4⟩ := ih z
    obtain ⟨d', k1, k2, k3, k4⟩ := stepP_fed hs z h2 h3 h4
    exact ⟨d', .sndStep h1 k1, k2, k3, k4⟩

theorem reach_back {c0 c : PNet α β} (h : PReach S c0 c) : ∃ w, PBack S c0 w c := by
  induction h with
  | init => exact ⟨[], .init⟩
  | rcvStep _ hs ih =>
    obtain ⟨w, ih⟩ := ih
    obtain ⟨_, _, x, hx⟩ := stepQ_frame_p hs
    exact ⟨w ++ x, .rcv ih hs hx⟩
  | sndStep _ hs ih =>
    obtain ⟨w, ih⟩ := ih
    exact ⟨w, .snd ih hs⟩

end EmpZk
