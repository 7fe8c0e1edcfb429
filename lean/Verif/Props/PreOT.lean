/-
C28: precomputed oblivious transfer delivers exactly the chosen message.
-/
import Verif.Model.PreOT
import Mathlib.Tactic.Ring
import Mathlib.Tactic.Linarith

namespace EmpZk

private theorem slot_lt {length T t i : Nat} (ht : t < T) (hi : i < length) : t * length + i < T * length := by
  have : (t + 1) * length ≤ T * length := Nat.mul_le_mul_right _ ht
  rw [Nat.add_mul, Nat.one_mul] at this
  omega

theorem choicesRecver_ok (r : PreRecv) (b : Nat → Bool) (h : r.count + r.length ≤ r.n) :
    ∃ r' msg, choicesRecver r b = some (r', msg) ∧ r'.n = r.n ∧ r'.length = r.length ∧ r'.count = r.count + r.length ∧
      r'.h = r.h ∧ (∀ k, r.count + r.length ≤ k → r'.bits k = r.bits k) ∧
      ∀ i, i < r.length → msg i = (b i != r.bits (r.count + i)) := by
  refine ⟨_, _, if_pos h, rfl, rfl, rfl, rfl, ?_, ?_⟩
  · intro k hk
    exact if_neg (by omega)
  · intro i hi
    have hin : r.count ≤ r.count + i ∧ r.count + i < r.count + r.length := by omega
    simp only [if_pos hin, Nat.add_sub_cancel_left]

theorem choicesSender_ok (s : PreSend) (msg : Nat → Bool) (h : s.count + s.length ≤ s.n) :
    ∃ s', choicesSender s msg = some s' ∧ s'.n = s.n ∧ s'.length = s.length ∧ s'.count = s.count + s.length ∧
      s'.h0 = s.h0 ∧ s'.h1 = s.h1 ∧ (∀ k, k < s.count → s'.bits k = s.bits k) ∧
      ∀ i, i < s.length → s'.bits (s.count + i) = msg i := by
  refine ⟨_, if_pos h, rfl, rfl, rfl, rfl, rfl, ?_, ?_⟩
  · intro k hk
    exact if_neg (by omega)
  · intro i hi
    have hin : s.count ≤ s.count + i ∧ s.count + i < s.count + s.length := by omega
    simp only [if_pos hin, Nat.add_sub_cancel_left]

/-- state after the choice rounds of `T` sessions -/
theorem choiceRounds_spec (length times : Nat) (b : Nat → Nat → Bool) (s0 : PreSend) (r0 : PreRecv)
    (hs : s0.n = length * times ∧ s0.length = length ∧ s0.count = 0)
    (hr : r0.n = length * times ∧ r0.length = length ∧ r0.count = 0) (T : Nat) (hT : T ≤ times) :
    ∃ s r, choiceRounds b T (s0, r0) = some (s, r) ∧
      s.n = length * times ∧ s.length = length ∧ s.count = T * length ∧ s.h0 = s0.h0 ∧ s.h1 = s0.h1 ∧
      r.n = length * times ∧ r.length = length ∧ r.count = T * length ∧ r.h = r0.h ∧
      (∀ k, T * length ≤ k → r.bits k = r0.bits k) ∧
      ∀ t i, t < T → i < length → s.bits (t * length + i) = (b t i != r0.bits (t * length + i)) := by
  induction T with
  | zero =>
    exact ⟨s0, r0, rfl, hs.1, hs.2.1, by simpa using hs.2.2, rfl, rfl, hr.1, hr.2.1, by simpa using hr.2.2, rfl,
      fun _ _ => rfl, fun t i h => absurd h (by omega)⟩
  | succ T ih =>
    obtain ⟨s, r, h, a1, a2, a3, a4, a5, a6, a7, a8, a9, a10, a11⟩ := ih (by omega)
    have hle : T * length + length ≤ length * times := by
      have : (T + 1) * length ≤ times * length := Nat.mul_le_mul_right _ hT
      rw [Nat.add_mul, Nat.one_mul] at this
      rw [Nat.mul_comm length times]
      exact this
    have hT1 : (T + 1) * length = T * length + length := by rw [Nat.add_mul, Nat.one_mul]
    obtain ⟨r', msg, hr1, hr2, hr3, hr4, hr5, hr6, hr7⟩ := choicesRecver_ok r (b T) (by rw [a8, a7, a6]; exact hle)
    obtain ⟨s', hs1, hs2, hs3, hs4, hs5, hs6, hs7, hs8⟩ := choicesSender_ok s msg (by rw [a3, a2, a1]; exact hle)
    refine ⟨s', r', ?_, hs2.trans a1, hs3.trans a2, by rw [hs4, a3, a2, hT1], hs5.trans a4, hs6.trans a5, hr2.trans a6,
      hr3.trans a7, by rw [hr4, a8, a7, hT1], hr5.trans a9, ?_, ?_⟩
    · rw [choiceRounds, h]
      simp only [Option.bind_eq_bind, Option.bind_some, hr1, hs1]
    · intro k hk
      rw [hT1] at hk
      rw [hr6 k (by rw [a8, a7]; omega)]
      exact a10 k (by omega)
    · intro t i ht hi
      by_cases e : t = T
      · subst e
        have h1 := hs8 i (by rw [a2]; exact hi)
        rw [a3] at h1
        have h2 := hr7 i (by rw [a7]; exact hi)
        rw [a8] at h2
        rw [h1, h2, a10 _ (by omega)]
      · have hlt : t < T := by omega
        have := slot_lt hlt hi
        rw [hs7 _ (by rw [a3]; omega)]
        exact a11 t i hlt hi

/-- C28. Let the two parties hold `length * times` correlated blocks (the receiver's block is the sender's, shifted by
`Delta` iff its low bit is set), for any hash `H`. After the choice rounds of any number `T ≤ times` of sessions, each
session `t < T`, with any messages, gives the receiver at each position exactly the message of its choice bit; no access is
outside the arrays. -/
theorem C28_chosen_message (H : U128 → U128) (length times : Nat) (dataS dataR : Nat → U128) (Delta : U128)
    (hcot : ∀ k, k < length * times → dataR k = dataS k ^^^ (if (dataR k).getLsbD 0 then Delta else 0))
    (bits0 : Nat → Bool) (b : Nat → Nat → Bool) (T : Nat) (hT : T ≤ times) :
    ∃ s r, choiceRounds b T (sendPre H length times dataS Delta bits0, recvPre H length times dataR) = some (s, r) ∧
      ∀ (m0 m1 : Nat → U128) (t : Nat), t < T →
        ∃ pads out, otSend s.reset m0 m1 length t = some pads ∧ otRecv r.reset (b t) length t pads = some out ∧
          ∀ i, i < length → out i = if b t i then m1 i else m0 i := by
  obtain ⟨s, r, h, a1, a2, a3, a4, a5, a6, a7, a8, a9, a10, a11⟩ := choiceRounds_spec length times b
    (sendPre H length times dataS Delta bits0) (recvPre H length times dataR) ⟨rfl, rfl, rfl⟩ ⟨rfl, rfl, rfl⟩ T hT
  refine ⟨s, r, h, ?_⟩
  intro m0 m1 t ht
  have hle : t * length + length ≤ length * times := by
    have : (t + 1) * length ≤ times * length := Nat.mul_le_mul_right _ (by omega)
    rw [Nat.add_mul, Nat.one_mul] at this
    rw [Nat.mul_comm length times]
    exact this
  refine ⟨_, _, by simp only [otSend, PreSend.reset, a1, if_pos hle]; rfl,
    by simp only [otRecv, PreRecv.reset, a6, if_pos hle]; rfl, ?_⟩
  intro i hi
  have hb := a11 t i ht hi
  have hc := hcot (t * length + i) (by omega)
  simp only [a4, a5, a9, sendPre, recvPre, recvPreB] at hb ⊢
  rw [hb]
  cases hd : (dataR (t * length + i)).getLsbD 0
  · rw [hd] at hc
    simp only [Bool.false_eq_true, if_false, BitVec.xor_zero] at hc
    rw [hc]
    cases hbi : b t i
    · simp [BitVec.xor_comm (m0 i), ← BitVec.xor_assoc]
    · simp [BitVec.xor_comm (m1 i), ← BitVec.xor_assoc]
  · rw [hd] at hc
    simp only [if_true] at hc
    rw [hc]
    cases hbi : b t i
    · simp [BitVec.xor_comm (m0 i), ← BitVec.xor_assoc]
    · simp [BitVec.xor_comm (m1 i), ← BitVec.xor_assoc]

/-- Two sessions of two transfers with `Delta = 7`. -/
example : ∃ s r, choiceRounds (fun t i => t == i) 2 (sendPre (fun x => x + 1) 2 2 (fun k => BitVec.ofNat 128 (2 * k)) 7
      (fun _ => true), recvPre (fun x => x + 1) 2 2 (fun k => BitVec.ofNat 128 (2 * k) ^^^ if k % 2 = 0 then 7 else 0)) = some (s, r) ∧
      ∀ (m0 m1 : Nat → U128) (t : Nat), t < 2 →
        ∃ pads out, otSend s.reset m0 m1 2 t = some pads ∧ otRecv r.reset (fun i => t == i) 2 t pads = some out ∧
          ∀ i, i < 2 → out i = if t == i then m1 i else m0 i :=
  C28_chosen_message _ 2 2 _ _ 7 (by decide) _ _ 2 (by omega)

/-- C28. The bits the receiver sends are its choices masked by the low bits of its blocks: for every two choice vectors, the
second one gives the same message with correspondingly changed low bits (a bijection of the low bits for fixed choices). -/
theorem C28_choice_hidden (st : PreRecv) (b b' : Nat → Bool) (r : PreRecv) (msg : Nat → Bool)
    (h : choicesRecver st b = some (r, msg)) :
    ∃ r' msg', choicesRecver { st with bits := fun k => (st.bits k != (b (k - st.count) != b' (k - st.count))) } b' =
        some (r', msg') ∧ ∀ i, i < st.length → msg' i = msg i := by
  unfold choicesRecver at h ⊢
  by_cases hle : st.count + st.length ≤ st.n
  · rw [if_pos hle, Option.some.injEq, Prod.mk.injEq] at h
    refine ⟨_, _, if_pos hle, ?_⟩
    intro i hi
    rw [← h.2]
    have hin : st.count ≤ st.count + i ∧ st.count + i < st.count + st.length := by omega
    simp only [if_pos hin]
    cases b (st.count + i - st.count) <;> cases b' (st.count + i - st.count) <;> cases st.bits (st.count + i) <;> rfl
  · rw [if_neg hle] at h
    cases h

example : ∃ r msg, choicesRecver (recvPre id 2 3 (fun k => BitVec.ofNat 128 k)) (fun _ => true) = some (r, msg) :=
  ⟨_, _, rfl⟩

end EmpZk
