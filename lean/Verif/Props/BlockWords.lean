/-
Properties C06 and C08, word level: the block manipulations of the protocol are the field operations used in its model.
-/
import Verif.Model.BlockWords
import Verif.Model.BoolGate

namespace EmpZk

theorem minusOne_bit (i : Nat) : minusOne.getLsbD i = (decide (0 < i) && decide (i < 128)) := by
  by_cases hi : i < 128
  · have : ∀ j : Fin 128, minusOne.getLsbD j = (decide (0 < j.val) && decide (j.val < 128)) := by decide +kernel
    exact this ⟨i, hi⟩
  · rw [BitVec.getLsbD_of_ge _ _ (by omega)]
    simp [hi]

/-- C06. `set_zero_bit` on the bits of a block is the field operation of the model: subtract the low bit. -/
theorem C06_set_zero_bit (b : GF128) : (⟨setZeroBitW b.bits⟩ : GF128) = setZeroBit b := by
  apply congrArg GF128.mk
  show b.bits &&& minusOne = (b + sel (lsb b) 1).bits
  unfold sel
  have hl : lsb b = b.bits.getLsbD 0 := rfl
  apply BitVec.eq_of_getLsbD_eq
  intro i hi
  rw [BitVec.getLsbD_and, minusOne_bit]
  have hone : ∀ j : Fin 128, (1#128).getLsbD j = decide (j.val = 0) := by decide +kernel
  cases hb : lsb b
  · simp only [Bool.false_eq_true, if_false]
    rw [GF128.add_bits, BitVec.getLsbD_xor]
    rw [show (0 : GF128).bits = 0#128 from rfl, BitVec.getLsbD_zero, Bool.xor_false]
    rw [hl] at hb
    by_cases h0 : i = 0
    · subst h0; rw [hb]; rfl
    · simp [hi, show 0 < i by omega]
  · simp only [if_true]
    rw [GF128.add_bits, BitVec.getLsbD_xor, show (1 : GF128).bits = 1#128 from rfl, hone ⟨i, hi⟩]
    rw [hl] at hb
    by_cases h0 : i = 0
    · subst h0; rw [hb]; rfl
    · simp [hi, h0, show 0 < i by omega]

/-- C06. `set_value_in_block` likewise. -/
theorem C06_set_value_in_block (b : GF128) (v : Bool) :
    (⟨setValueInBlockW b.bits v⟩ : GF128) = setValueInBlock b v := by
  have h := C06_set_zero_bit b
  unfold setValueInBlock
  rw [← h]
  apply congrArg GF128.mk
  cases v <;> rfl

theorem shiftOr_bit (c : Bool) (w : BitVec 64) (k : Nat) (hk : k < 64) :
    (if c then (w <<< 1) ||| 1#64 else w <<< 1).getLsbD k = if k = 0 then c else w.getLsbD (k - 1) := by
  by_cases h0 : k = 0
  · subst h0; cases c <;> simp
  · rw [if_neg h0]
    cases c
    · simp [BitVec.getLsbD_shiftLeft, hk, show ¬ k < 1 by omega]; exact (BitVec.getLsbD_eq_getElem _).symm
    · simp [BitVec.getLsbD_shiftLeft, hk, show ¬ k < 1 by omega, BitVec.getLsbD_one, h0]; exact (BitVec.getLsbD_eq_getElem _).symm

theorem shiftAdd_eq (w : BitVec 64) : (w <<< 1) + 1#64 = (w <<< 1) ||| 1#64 := by
  apply BitVec.add_eq_or_of_and_eq_zero
  apply BitVec.eq_of_getLsbD_eq
  intro k hk
  rw [BitVec.getLsbD_and, BitVec.getLsbD_shiftLeft, BitVec.getLsbD_one, BitVec.getLsbD_zero]
  by_cases h0 : k = 0 <;> simp [h0]

theorem choiceLoop_bit (b : Nat → Bool) (n : Nat) : ∀ (w : BitVec 64) (i : Nat), i < 64 →
    (choiceLoop b n w).getLsbD i = if i < n then b i else w.getLsbD (i - n) := by
  induction n with
  | zero => intro w i _; simp [choiceLoop]
  | succ n ih =>
    intro w i hi
    rw [choiceLoop, ih _ i hi, shiftOr_bit _ _ _ (by omega)]
    by_cases h1 : i < n
    · simp [h1, show i < n + 1 by omega]
    · by_cases h2 : i = n
      · subst h2; simp
      · simp [h1, show ¬ i < n + 1 by omega, show i - n ≠ 0 by omega, show i - (n + 1) = i - n - 1 by omega]

theorem chLoop_eq (b : Nat → Bool) (n : Nat) : ∀ w, chLoop b n w = choiceLoop b n w := by
  induction n with
  | zero => intro w; rfl
  | succ n ih => intro w; rw [chLoop, choiceLoop, ih, shiftAdd_eq]

theorem chLoop_bit (b : Nat → Bool) (n : Nat) (w : BitVec 64) (i : Nat) (hi : i < 64) :
    (chLoop b n w).getLsbD i = if i < n then b i else w.getLsbD (i - n) := by
  rw [chLoop_eq, choiceLoop_bit b n w i hi]

theorem chWord_bit (b : Nat → Bool) (i : Nat) (hi : i < 64) : (chWord b).getLsbD i = b i := by
  unfold chWord
  rw [chLoop_bit b 63 _ i hi]
  split
  · rfl
  · have : i = 63 := by omega
    subst this
    cases b 63 <;> rfl

/-- C08. The two-word loop of the AND check collects the low bits of the 128 masking blocks: the resulting block is the
packing of those bits. -/
theorem C08_choice_bits (ope : Nat → GF128) : chBlock ope = packLsbs ope := by
  rw [← GF128.pack_bits (chBlock ope)]
  unfold packLsbs
  apply Finset.sum_congr rfl
  intro i _
  congr 2
  show BitVec.getLsbD (_ ++ _ : BitVec (64 + 64)) _ = (ope i).getLSB
  rw [BitVec.getLsbD_append]
  by_cases h : (i : Nat) < 64
  · rw [if_pos h, chWord_bit _ _ h]; simp
  · rw [if_neg h, chWord_bit _ _ (by omega)]
    congr 2; omega

/-- C22. The same for the loop of the polynomial check. -/
theorem C22_choice_bits (ope : Nat → GF128) : choiceBlock ope = packLsbs ope := by
  rw [← GF128.pack_bits (choiceBlock ope)]
  unfold packLsbs
  apply Finset.sum_congr rfl
  intro i _
  congr 2
  show BitVec.getLsbD (_ ++ _ : BitVec (64 + 64)) _ = (ope i).getLSB
  rw [BitVec.getLsbD_append]
  by_cases h : (i : Nat) < 64
  · rw [if_pos h, choiceLoop_bit _ 64 _ _ h, if_pos h]; simp
  · rw [if_neg h, choiceLoop_bit _ 64 _ _ (by omega), if_pos (by omega)]
    congr 2; omega

example : setZeroBitW 7#128 = 6#128 ∧ setValueInBlockW 6#128 true = 7#128 := by decide +kernel
example : (chBlock (fun i => if i = 0 ∨ i = 65 then 1 else 0)).bits = 0x20000000000000001#128 := by decide +kernel

end EmpZk
