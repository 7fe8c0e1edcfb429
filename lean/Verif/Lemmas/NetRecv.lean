/-
Helper lemmas about the receiving endpoint against arbitrary bytes.
-/
import Verif.Model.BoolNetAdv
import Verif.Lemmas.BoolNet

namespace EmpZk

/-! ### one call -/

theorem rcvOne_bit (S : Nat) (r : RcvSt) (w : List Byte) : rcvOne S r w .bit =
    match rcvFill S r w with
    | .blocked => .blocked
    | .ub => .ub
    | .ok (r1, w1) => match rcvTake r1 with
      | .ok r2 => .ok (r2, w1)
      | .blocked => .blocked
      | .ub => .ub := by
  unfold rcvOne stepR
  simp only
  cases rcvFill S r w with
  | blocked => rfl
  | ub => rfl
  | ok q =>
    obtain ⟨r1, w1⟩ := q
    simp only
    cases rcvTake r1 <;> rfl

theorem rcvOne_flush (S : Nat) (r : RcvSt) (w : List Byte) : rcvOne S r w .flush = .ok (rcvFlush S r, w) := rfl
theorem rcvOne_back (S : Nat) (r : RcvSt) (w bs : List Byte) : rcvOne S r w (.back bs) = .ok (rcvFlush S r, w) := rfl
theorem rcvOne_hash (S : Nat) (r : RcvSt) (w : List Byte) : rcvOne S r w .hash =
    .ok ({ rcvFlush S r with hashed := [], digests := r.digests ++ [r.hashed] }, w) := rfl
theorem rcvOne_data (S : Nat) (r : RcvSt) (w : List Byte) (n : Nat) : rcvOne S r w (.data n) =
    if w.length < n then .blocked else .ok ({ rcvFlush S r with datas := r.datas ++ [w.take n] }, w.drop n) := by
  unfold rcvOne stepR
  simp only
  by_cases h : w.length < n
  · simp only [if_pos h]
  · simp only [if_neg h]; rfl

/-- `stepR` is `rcvOne` on the first call. -/
theorem stepR_one (S : Nat) (c : Net) {o : ROp} {rest : List ROp} (h : c.rops = o :: rest) :
    (∀ c', stepR S c = .ok c' → c'.rops = rest ∧ rcvOne S c.rcv c.toR o = .ok (c'.rcv, c'.toR)) ∧
    (stepR S c = .ub → rcvOne S c.rcv c.toR o = .ub) := by
  obtain ⟨snd, sops, toR, toS, rcv, rops⟩ := c
  simp only at h
  subst h
  cases o with
  | bit =>
    rw [rcvOne_bit]
    simp only [stepR]
    cases rcvFill S rcv toR with
    | blocked => exact ⟨(by intro c' h; cases h), by intro h; cases h⟩
    | ub => exact ⟨(by intro c' h; cases h), fun _ => rfl⟩
    | ok q =>
      obtain ⟨r1, w1⟩ := q
      simp only
      cases rcvTake r1 with
      | blocked => exact ⟨(by intro c' h; cases h), by intro h; cases h⟩
      | ub => exact ⟨(by intro c' h; cases h), fun _ => rfl⟩
      | ok r2 =>
        refine ⟨?_, by intro h; cases h⟩
        intro c' h; injection h with h; subst h; exact ⟨rfl, rfl⟩
  | flush =>
    refine ⟨?_, by intro h; cases h⟩
    intro c' h; injection h with h; subst h; exact ⟨rfl, rfl⟩
  | hash =>
    refine ⟨?_, by intro h; cases h⟩
    intro c' h; injection h with h; subst h; exact ⟨rfl, rfl⟩
  | back bs =>
    refine ⟨?_, by intro h; cases h⟩
    intro c' h; injection h with h; subst h; exact ⟨rfl, rfl⟩
  | data n =>
    rw [rcvOne_data]
    simp only [stepR]
    by_cases hl : toR.length < n
    · simp only [if_pos hl]
      exact ⟨(by intro c' h; cases h), by intro h; cases h⟩
    · simp only [if_neg hl]
      refine ⟨?_, by intro h; cases h⟩
      intro c' h; injection h with h; subst h; exact ⟨rfl, rfl⟩

/-- Waiting does not depend on the rest of the configuration. -/
theorem stepR_blocked (S : Nat) (c : Net) {o : ROp} {rest : List ROp} (h : c.rops = o :: rest)
    (hb : stepR S c = .blocked) : rcvOne S c.rcv c.toR o = .blocked := by
  obtain ⟨snd, sops, toR, toS, rcv, rops⟩ := c
  simp only at h
  subst h
  cases o with
  | bit =>
    rw [rcvOne_bit]
    simp only [stepR] at hb
    cases hq : rcvFill S rcv toR with
    | blocked => rfl
    | ub => rw [hq] at hb; cases hb
    | ok q =>
      rw [hq] at hb
      obtain ⟨r1, w1⟩ := q
      simp only at hb ⊢
      cases hq2 : rcvTake r1 with
      | blocked => rfl
      | ub => rw [hq2] at hb; cases hb
      | ok r2 => rw [hq2] at hb; cases hb
  | flush => cases hb
  | hash => cases hb
  | back bs => cases hb
  | data n =>
    rw [rcvOne_data]
    simp only [stepR] at hb
    by_cases hl : toR.length < n
    · rw [if_pos hl]
    · rw [if_neg hl] at hb; cases hb

/-- Bytes that arrive later do not matter. -/
theorem rcvOne_more {S : Nat} {r r' : RcvSt} {w w' : List Byte} {o : ROp} (h : rcvOne S r w o = .ok (r', w'))
    (x : List Byte) : rcvOne S r (w ++ x) o = .ok (r', w' ++ x) := by
  cases o with
  | flush => rw [rcvOne_flush] at h ⊢; injection h with h; injection h with h1 h2; subst h1; subst h2; rfl
  | back bs => rw [rcvOne_back] at h ⊢; injection h with h; injection h with h1 h2; subst h1; subst h2; rfl
  | hash => rw [rcvOne_hash] at h ⊢; injection h with h; injection h with h1 h2; subst h1; subst h2; rfl
  | data n =>
    rw [rcvOne_data] at h ⊢
    by_cases hl : w.length < n
    · rw [if_pos hl] at h; cases h
    · rw [if_neg hl] at h
      rw [if_neg (by rw [List.length_append]; omega)]
      injection h with h; injection h with h1 h2; subst h1; subst h2
      rw [List.take_append_of_le_length (by omega), List.drop_append_of_le_length (by omega)]
  | bit =>
    rw [rcvOne_bit] at h ⊢
    unfold rcvFill at h ⊢
    by_cases hp : r.ptr = S
    · rw [if_pos hp] at h ⊢
      by_cases hl : w.length < encLen S
      · rw [if_pos hl] at h; cases h
      · rw [if_neg hl] at h
        rw [if_neg (by rw [List.length_append]; omega), List.take_append_of_le_length (by omega),
          List.drop_append_of_le_length (by omega)]
        simp only at h ⊢
        split at h
        · rename_i r2 e
          injection h with h; injection h with h1 h2; subst h1; subst h2; rfl
        · cases h
        · cases h
    · rw [if_neg hp] at h ⊢
      simp only at h ⊢
      split at h
      · rename_i r2 e
        injection h with h; injection h with h1 h2; subst h1; subst h2; rfl
      · cases h
      · cases h

theorem rcvRun_cons_ok {S : Nat} {r : RcvSt} {w : List Byte} {o : ROp} {l : List ROp} {q} :
    rcvRun S r w (o :: l) = .ok q ↔ ∃ r' w', rcvOne S r w o = .ok (r', w') ∧ rcvRun S r' w' l = .ok q := by
  simp only [rcvRun]
  cases rcvOne S r w o with
  | blocked => exact ⟨(by intro h; cases h), by rintro ⟨_, _, h, _⟩; cases h⟩
  | ub => exact ⟨(by intro h; cases h), by rintro ⟨_, _, h, _⟩; cases h⟩
  | ok p =>
    obtain ⟨r', w'⟩ := p
    constructor
    · intro h; exact ⟨r', w', rfl, h⟩
    · rintro ⟨a, b, h, h'⟩
      injection h with h; injection h with h1 h2; subst h1; subst h2; exact h'

theorem rcvRun_append_ok {S : Nat} (l l' : List ROp) : ∀ {r : RcvSt} {w : List Byte} {q},
    rcvRun S r w (l ++ l') = .ok q ↔ ∃ r' w', rcvRun S r w l = .ok (r', w') ∧ rcvRun S r' w' l' = .ok q := by
  induction l with
  | nil =>
    intro r w q
    constructor
    · intro h; exact ⟨r, w, rfl, h⟩
    · rintro ⟨a, b, h, h'⟩
      simp only [rcvRun] at h
      injection h with h; injection h with h1 h2; subst h1; subst h2; exact h'
  | cons o l ih =>
    intro r w q
    rw [List.cons_append, rcvRun_cons_ok]
    constructor
    · rintro ⟨r1, w1, h1, h2⟩
      obtain ⟨r2, w2, h3, h4⟩ := ih.1 h2
      exact ⟨r2, w2, rcvRun_cons_ok.2 ⟨r1, w1, h1, h3⟩, h4⟩
    · rintro ⟨r2, w2, h1, h2⟩
      obtain ⟨r1, w1, h3, h4⟩ := rcvRun_cons_ok.1 h1
      exact ⟨r1, w1, h3, ih.2 ⟨r2, w2, h4, h2⟩⟩

theorem rcvRun_more {S : Nat} (l : List ROp) : ∀ {r r' : RcvSt} {w w' : List Byte},
    rcvRun S r w l = .ok (r', w') → ∀ x, rcvRun S r (w ++ x) l = .ok (r', w' ++ x) := by
  induction l with
  | nil =>
    intro r r' w w' h x
    simp only [rcvRun] at h ⊢
    injection h with h; injection h with h1 h2; subst h1; subst h2; rfl
  | cons o l ih =>
    intro r r' w w' h x
    obtain ⟨r1, w1, h1, h2⟩ := rcvRun_cons_ok.1 h
    exact rcvRun_cons_ok.2 ⟨r1, w1 ++ x, rcvOne_more h1 x, ih h2 x⟩

/-- Whatever the schedule, what the receiving endpoint has done is a function of the bytes delivered. -/
theorem reachAdv_run {S : Nat} {c0 c : Net} (h : ReachAdv S c0 c) :
    ∃ dn W, c0.rops = dn ++ c.rops ∧ rcvRun S c0.rcv W dn = .ok (c.rcv, c.toR) := by
  induction h with
  | init => exact ⟨[], c0.toR, rfl, rfl⟩
  | @adv c w _ ih =>
    obtain ⟨dn, W, h1, h2⟩ := ih
    exact ⟨dn, W ++ w, h1, rcvRun_more dn h2 w⟩
  | @rcvStep c c' _ hst ih =>
    obtain ⟨dn, W, h1, h2⟩ := ih
    cases hr : c.rops with
    | nil => simp only [stepR, hr] at hst; cases hst
    | cons o rest =>
      obtain ⟨e1, e2⟩ := (stepR_one S c hr).1 c' hst
      refine ⟨dn ++ [o], W, by rw [h1, hr, e1]; simp, ?_⟩
      exact (rcvRun_append_ok dn [o]).2 ⟨_, _, h2, rcvRun_cons_ok.2 ⟨_, _, e2, rfl⟩⟩

/-! ### no undefined behaviour -/

/-- The array holds booleans wherever it is going to be read. -/
def RcvOk (S : Nat) (r : RcvSt) : Prop :=
  r.ptr = S ∨ (r.ptr < S ∧ r.arr.length = S ∧ ∀ b ∈ r.arr, (byteBool b).isSome)

theorem decBytes_length (n : Nat) : ∀ w : List Byte, w.length = n → (decBytes (8 * n) w).length = 8 * n := by
  induction n with
  | zero => intro w hw; have := List.eq_nil_of_length_eq_zero hw; subst this; rfl
  | succ n ih =>
    intro w hw
    match w, hw with
    | c :: w, hw =>
      rw [show 8 * (n + 1) = 8 * n + 8 by omega]
      simp only [decBytes, List.length_cons]
      rw [ih w (by simpa using hw)]

theorem unpackByte_bool : ∀ (c : Byte) (j : Fin 8), (byteBool (unpackByte c j)).isSome := by
  have hun : ∀ m : Fin 256, ∀ j : Fin 8, (byteBool (unpackByte (BitVec.ofFin (w := 8) m) j)).isSome := by
    decide +kernel
  exact fun c j => hun c.toFin j

theorem decBytes_bools (n : Nat) : ∀ (w : List Byte), w.length = n → ∀ c ∈ decBytes (8 * n) w, (byteBool c).isSome := by
  induction n with
  | zero => intro w hw; have := List.eq_nil_of_length_eq_zero hw; subst this; intro c hc; cases hc
  | succ n ih =>
    intro w hw c hc
    match w, hw with
    | a :: w, hw =>
      rw [show 8 * (n + 1) = 8 * n + 8 by omega] at hc
      simp only [decBytes, List.mem_cons] at hc
      rcases hc with rfl | rfl | rfl | rfl | rfl | rfl | rfl | rfl | hc
      · exact unpackByte_bool a 0
      · exact unpackByte_bool a 1
      · exact unpackByte_bool a 2
      · exact unpackByte_bool a 3
      · exact unpackByte_bool a 4
      · exact unpackByte_bool a 5
      · exact unpackByte_bool a 6
      · exact unpackByte_bool a 7
      · exact ih w (by simpa using hw) c hc

theorem encLen_eight {S : Nat} (h8 : S % 8 = 0) : 8 * encLen S = S := by unfold encLen; omega

theorem rcvFill_ok {S : Nat} (hS : 0 < S) (h8 : S % 8 = 0) {r : RcvSt} (hr : RcvOk S r) (w : List Byte) :
    rcvFill S r w = .blocked ∨ ∃ r1 w1, rcvFill S r w = .ok (r1, w1) ∧ r1.ptr < S ∧ r1.arr.length = S ∧
      ∀ b ∈ r1.arr, (byteBool b).isSome := by
  unfold rcvFill
  by_cases hp : r.ptr = S
  · rw [if_pos hp]
    by_cases hl : w.length < encLen S
    · rw [if_pos hl]; exact Or.inl rfl
    · rw [if_neg hl]
      have hlen : (w.take (encLen S)).length = encLen S := by rw [List.length_take]; omega
      have e := encLen_eight h8
      have h1 := decBytes_length _ _ hlen
      have h2 := decBytes_bools _ _ hlen
      rw [e] at h1 h2
      exact Or.inr ⟨_, _, rfl, hS, h1, h2⟩
  · rw [if_neg hp]
    rcases hr with h | h
    · exact absurd h hp
    · exact Or.inr ⟨_, _, rfl, h⟩

theorem rcvTake_ok {S : Nat} {r : RcvSt} (h1 : r.ptr < S) (h2 : r.arr.length = S)
    (h3 : ∀ b ∈ r.arr, (byteBool b).isSome) :
    ∃ r', rcvTake r = .ok r' ∧ RcvOk S r' := by
  unfold rcvTake
  have hlt : r.ptr < r.arr.length := by omega
  rw [List.getElem?_eq_getElem hlt]
  obtain ⟨b, hb⟩ := Option.isSome_iff_exists.1 (h3 _ (List.getElem_mem hlt))
  simp only [hb]
  refine ⟨_, rfl, ?_⟩
  by_cases h : r.ptr + 1 = S
  · exact Or.inl h
  · exact Or.inr ⟨by simp only; omega, h2, h3⟩

theorem rcvOne_ok {S : Nat} (hS : 0 < S) (h8 : S % 8 = 0) {r : RcvSt} (hr : RcvOk S r) (w : List Byte) (o : ROp) :
    rcvOne S r w o ≠ .ub ∧ ∀ r' w', rcvOne S r w o = .ok (r', w') → RcvOk S r' := by
  cases o with
  | flush =>
    rw [rcvOne_flush]
    exact ⟨by simp, by intro r' w' h; injection h with h; injection h with h1 h2; subst h1; exact Or.inl rfl⟩
  | back bs =>
    rw [rcvOne_back]
    exact ⟨by simp, by intro r' w' h; injection h with h; injection h with h1 h2; subst h1; exact Or.inl rfl⟩
  | hash =>
    rw [rcvOne_hash]
    exact ⟨by simp, by intro r' w' h; injection h with h; injection h with h1 h2; subst h1; exact Or.inl rfl⟩
  | data n =>
    rw [rcvOne_data]
    by_cases hl : w.length < n
    · rw [if_pos hl]; exact ⟨by simp, by intro r' w' h; cases h⟩
    · rw [if_neg hl]
      exact ⟨by simp, by intro r' w' h; injection h with h; injection h with h1 h2; subst h1; exact Or.inl rfl⟩
  | bit =>
    rw [rcvOne_bit]
    rcases rcvFill_ok hS h8 hr w with hb | ⟨r1, w1, hf, k1, k2, k3⟩
    · rw [hb]; exact ⟨by simp, by intro r' w' h; cases h⟩
    · rw [hf]
      obtain ⟨r2, ht, hok⟩ := rcvTake_ok k1 k2 k3
      simp only [ht]
      exact ⟨by simp, by intro r' w' h; injection h with h; injection h with h1 h2; subst h1; exact hok⟩

theorem rcvRun_ok {S : Nat} (hS : 0 < S) (h8 : S % 8 = 0) (l : List ROp) : ∀ {r : RcvSt} {w : List Byte}, RcvOk S r →
    rcvRun S r w l ≠ .ub ∧ ∀ r' w', rcvRun S r w l = .ok (r', w') → RcvOk S r' := by
  induction l with
  | nil =>
    intro r w hr
    refine ⟨by simp [rcvRun], ?_⟩
    intro r' w' h
    simp only [rcvRun] at h
    injection h with h; injection h with h1 h2; subst h1; exact hr
  | cons o l ih =>
    intro r w hr
    obtain ⟨k1, k2⟩ := rcvOne_ok hS h8 hr w o
    simp only [rcvRun]
    cases he : rcvOne S r w o with
    | blocked => exact ⟨by simp, by intro r' w' h; cases h⟩
    | ub => exact absurd he k1
    | ok q =>
      obtain ⟨r1, w1⟩ := q
      exact ih (k2 r1 w1 he)

/-! ### what is returned -/

theorem rcvTake_facts {r r' : RcvSt} (h : rcvTake r = .ok r') : ∃ c b, r.arr[r.ptr]? = some c ∧ byteBool c = some b ∧
    r' = { r with ptr := r.ptr + 1, bits := r.bits ++ [b] } := by
  unfold rcvTake at h
  split at h
  · cases h
  · rename_i c hc
    split at h
    · cases h
    · rename_i b hb
      injection h with h
      exact ⟨c, b, hc, hb, h.symm⟩

theorem rcvFill_facts {S : Nat} {r r' : RcvSt} {w w' : List Byte} (h : rcvFill S r w = .ok (r', w')) :
    (r.ptr = S ∧ encLen S ≤ w.length ∧ w' = w.drop (encLen S) ∧
      r' = { r with arr := decBytes S (w.take (encLen S)), ptr := 0, hashed := r.hashed ++ w.take (encLen S) }) ∨
    (r.ptr ≠ S ∧ r' = r ∧ w' = w) := by
  unfold rcvFill at h
  by_cases hp : r.ptr = S
  · rw [if_pos hp] at h
    by_cases hl : w.length < encLen S
    · rw [if_pos hl] at h; cases h
    · rw [if_neg hl] at h
      injection h with h; injection h with h1 h2
      exact Or.inl ⟨hp, by omega, h2.symm, h1.symm⟩
  · rw [if_neg hp] at h
    injection h with h; injection h with h1 h2
    exact Or.inr ⟨hp, h1.symm, h2.symm⟩

theorem rcvOne_bit_ok {S : Nat} {r r' : RcvSt} {w w' : List Byte} (h : rcvOne S r w .bit = .ok (r', w')) :
    ∃ r1, rcvFill S r w = .ok (r1, w') ∧ rcvTake r1 = .ok r' := by
  rw [rcvOne_bit] at h
  split at h
  · cases h
  · cases h
  · rename_i r1 w1 hf
    split at h
    · rename_i r2 ht
      injection h with h; injection h with h1 h2
      subst h1; subst h2
      exact ⟨r1, hf, ht⟩
    · cases h
    · cases h

theorem rcvRun_counts {S : Nat} (l : List ROp) : ∀ {r r' : RcvSt} {w w' : List Byte}, rcvRun S r w l = .ok (r', w') →
    r'.bits.length = r.bits.length + rcvBits l ∧ r'.datas.length = r.datas.length + rcvDatas l ∧
    r'.digests.length = r.digests.length + rcvDigs l := by
  induction l with
  | nil =>
    intro r r' w w' h
    simp only [rcvRun] at h
    injection h with h; injection h with h1 h2; subst h1; exact ⟨rfl, rfl, rfl⟩
  | cons o l ih =>
    intro r r' w w' h
    obtain ⟨r1, w1, h1, h2⟩ := rcvRun_cons_ok.1 h
    obtain ⟨i1, i2, i3⟩ := ih h2
    have key : r1.bits.length = r.bits.length + rcvBits [o] ∧ r1.datas.length = r.datas.length + rcvDatas [o] ∧
        r1.digests.length = r.digests.length + rcvDigs [o] := by
      cases o with
      | flush =>
        rw [rcvOne_flush] at h1
        injection h1 with h1; injection h1 with h1 _; subst h1; exact ⟨rfl, rfl, rfl⟩
      | back bs =>
        rw [rcvOne_back] at h1
        injection h1 with h1; injection h1 with h1 _; subst h1; exact ⟨rfl, rfl, rfl⟩
      | hash =>
        rw [rcvOne_hash] at h1
        injection h1 with h1; injection h1 with h1 _; subst h1
        exact ⟨rfl, rfl, by rw [List.length_append]; rfl⟩
      | data n =>
        rw [rcvOne_data] at h1
        split at h1
        · cases h1
        · injection h1 with h1; injection h1 with h1 _; subst h1
          exact ⟨rfl, by rw [List.length_append]; rfl, rfl⟩
      | bit =>
        obtain ⟨r0, hf, ht⟩ := rcvOne_bit_ok h1
        obtain ⟨c, b, _, _, e⟩ := rcvTake_facts ht
        subst e
        rcases rcvFill_facts hf with ⟨_, _, _, e⟩ | ⟨_, e, _⟩
        · subst e; exact ⟨by rw [List.length_append]; rfl, rfl, rfl⟩
        · subst e; exact ⟨by rw [List.length_append]; rfl, rfl, rfl⟩
    have c1 : rcvBits (o :: l) = rcvBits [o] + rcvBits l := by
      rw [show o :: l = [o] ++ l from rfl]; simp only [rcvBits, List.countP_append]
    have c2 : rcvDatas (o :: l) = rcvDatas [o] + rcvDatas l := by
      rw [show o :: l = [o] ++ l from rfl]; simp only [rcvDatas, List.countP_append]
    have c3 : rcvDigs (o :: l) = rcvDigs [o] + rcvDigs l := by
      rw [show o :: l = [o] ++ l from rfl]; simp only [rcvDigs, List.countP_append]
    rw [c1, c2, c3, i1, i2, i3, key.1, key.2.1, key.2.2]
    omega

/-! ### the digest determines the bits -/

theorem rcvOne_hashed {S : Nat} {r r' : RcvSt} {w w' : List Byte} {o : ROp} (ho : o ≠ .hash)
    (h : rcvOne S r w o = .ok (r', w')) : r.hashed <+: r'.hashed := by
  cases o with
  | hash => exact absurd rfl ho
  | flush => rw [rcvOne_flush] at h; injection h with h; injection h with h _; subst h; exact List.prefix_rfl
  | back bs => rw [rcvOne_back] at h; injection h with h; injection h with h _; subst h; exact List.prefix_rfl
  | data n =>
    rw [rcvOne_data] at h
    split at h
    · cases h
    · injection h with h; injection h with h _; subst h; exact List.prefix_rfl
  | bit =>
    obtain ⟨r0, hf, ht⟩ := rcvOne_bit_ok h
    obtain ⟨c, b, _, _, e⟩ := rcvTake_facts ht
    subst e
    rcases rcvFill_facts hf with ⟨_, _, _, e⟩ | ⟨_, e, _⟩
    · subst e; exact List.prefix_append _ _
    · subst e; exact List.prefix_rfl

theorem rcvRun_hashed {S : Nat} (l : List ROp) (hl : ∀ o ∈ l, o ≠ .hash) : ∀ {r r' : RcvSt} {w w' : List Byte},
    rcvRun S r w l = .ok (r', w') → r.hashed <+: r'.hashed := by
  induction l with
  | nil =>
    intro r r' w w' h
    simp only [rcvRun] at h
    injection h with h; injection h with h _; subst h; exact List.prefix_rfl
  | cons o l ih =>
    intro r r' w w' h
    obtain ⟨r1, w1, h1, h2⟩ := rcvRun_cons_ok.1 h
    exact (rcvOne_hashed (hl o (by simp)) h1).trans (ih (fun o ho => hl o (by simp [ho])) h2)

theorem prefix_unique {α : Type} {a b c : List α} (ha : a <+: c) (hb : b <+: c) (h : a.length = b.length) : a = b := by
  obtain ⟨x, hx⟩ := ha
  obtain ⟨y, hy⟩ := hb
  exact (List.append_inj (hx.trans hy.symm) h).1

/-- Two runs of the same calls, without a digest, that hash the same bytes return the same bits. -/
theorem rcvRun_bits {S : Nat} (l : List ROp) (hl : ∀ o ∈ l, o ≠ .hash) : ∀ {r1 r2 r1' r2' : RcvSt} {w1 w2 w1' w2' : List Byte},
    rcvRun S r1 w1 l = .ok (r1', w1') → rcvRun S r2 w2 l = .ok (r2', w2') → r1'.hashed = r2'.hashed →
    r1.hashed.length = r2.hashed.length → r1.ptr = r2.ptr → (r1.ptr ≠ S → r1.arr = r2.arr) →
    ∃ nb, r1'.bits = r1.bits ++ nb ∧ r2'.bits = r2.bits ++ nb := by
  induction l with
  | nil =>
    intro r1 r2 r1' r2' w1 w2 w1' w2' h1 h2 _ _ _ _
    simp only [rcvRun] at h1 h2
    injection h1 with h1; injection h1 with h1 _; subst h1
    injection h2 with h2; injection h2 with h2 _; subst h2
    exact ⟨[], by simp, by simp⟩
  | cons o l ih =>
    intro r1 r2 r1' r2' w1 w2 w1' w2' h1 h2 hh hlen hptr harr
    have hl' : ∀ o ∈ l, o ≠ .hash := fun o ho => hl o (by simp [ho])
    obtain ⟨s1, v1, a1, b1⟩ := rcvRun_cons_ok.1 h1
    obtain ⟨s2, v2, a2, b2⟩ := rcvRun_cons_ok.1 h2
    have p1 := rcvRun_hashed l hl' b1
    have p2 := rcvRun_hashed l hl' b2
    rw [← hh] at p2
    have done : ∀ x, s1.bits = r1.bits ++ x → s2.bits = r2.bits ++ x → s1.hashed.length = s2.hashed.length →
        s1.ptr = s2.ptr → (s1.ptr ≠ S → s1.arr = s2.arr) →
        ∃ nb, r1'.bits = r1.bits ++ nb ∧ r2'.bits = r2.bits ++ nb := by
      intro x e1 e2 e3 e4 e5
      obtain ⟨nb, k1, k2⟩ := ih hl' b1 b2 hh e3 e4 e5
      exact ⟨x ++ nb, by rw [k1, e1, List.append_assoc], by rw [k2, e2, List.append_assoc]⟩
    cases o with
    | hash => exact absurd rfl (hl .hash (by simp))
    | flush =>
      rw [rcvOne_flush] at a1 a2
      injection a1 with a1; injection a1 with a1 _; subst a1
      injection a2 with a2; injection a2 with a2 _; subst a2
      exact done [] (by simp [rcvFlush]) (by simp [rcvFlush]) hlen rfl (fun h => absurd rfl h)
    | back bs =>
      rw [rcvOne_back] at a1 a2
      injection a1 with a1; injection a1 with a1 _; subst a1
      injection a2 with a2; injection a2 with a2 _; subst a2
      exact done [] (by simp [rcvFlush]) (by simp [rcvFlush]) hlen rfl (fun h => absurd rfl h)
    | data n =>
      rw [rcvOne_data] at a1 a2
      split at a1
      · cases a1
      · split at a2
        · cases a2
        · injection a1 with a1; injection a1 with a1 _; subst a1
          injection a2 with a2; injection a2 with a2 _; subst a2
          exact done [] (by simp [rcvFlush]) (by simp [rcvFlush]) hlen rfl (fun h => absurd rfl h)
    | bit =>
      obtain ⟨q1, f1, t1⟩ := rcvOne_bit_ok a1
      obtain ⟨q2, f2, t2⟩ := rcvOne_bit_ok a2
      obtain ⟨c1, d1, g1, g2, e1⟩ := rcvTake_facts t1
      obtain ⟨c2, d2, g3, g4, e2⟩ := rcvTake_facts t2
      subst e1; subst e2
      -- the arrays agree after the refill
      have key : q1.arr = q2.arr ∧ q1.ptr = q2.ptr ∧ q1.hashed.length = q2.hashed.length ∧ q1.bits = r1.bits ∧
          q2.bits = r2.bits := by
        rcases rcvFill_facts f1 with ⟨x1, x2, _, x3⟩ | ⟨x1, x2, _⟩
        · rcases rcvFill_facts f2 with ⟨y1, y2, _, y3⟩ | ⟨y1, _, _⟩
          · subst x3; subst y3
            simp only at p1 p2 ⊢
            have hlen2 : (r1.hashed ++ w1.take (encLen S)).length = (r2.hashed ++ w2.take (encLen S)).length := by
              simp only [List.length_append, List.length_take]; omega
            have heq := prefix_unique p1 p2 hlen2
            have := (List.append_inj heq hlen).2
            rw [this]
            simp only [List.length_append]
            exact ⟨trivial, trivial, by omega, trivial, trivial⟩
          · exact absurd (hptr ▸ x1) y1
        · rcases rcvFill_facts f2 with ⟨y1, _, _, _⟩ | ⟨y1, y2, _⟩
          · exact absurd (hptr.symm ▸ y1) x1
          · subst x2; subst y2
            exact ⟨harr x1, hptr, hlen, rfl, rfl⟩
      obtain ⟨k1, k2, k3, k4, k5⟩ := key
      have hc : c1 = c2 := by
        rw [k1, k2] at g1
        exact Option.some.inj (g1.symm.trans g3)
      subst hc
      have hd : d1 = d2 := Option.some.inj (g2.symm.trans g4)
      subst hd
      exact done [d1] (by simp only [k4]) (by simp only [k5]) k3 (by simp only [k2]) (fun _ => k1)

end EmpZk
