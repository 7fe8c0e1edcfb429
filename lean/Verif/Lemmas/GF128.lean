/-
The concrete field of 128-bit blocks: XOR and `gfmul` on 128-bit strings form a field, and it is an
instance of what the protocol model assumes about blocks.
-/
import Verif.Lemmas.GFIrred
import Verif.Spec.BlockField
import Mathlib.RingTheory.AdjoinRoot
import Mathlib.RingTheory.IntegralDomain
import Mathlib.Data.Fintype.EquivFin

namespace EmpZk
open Polynomial

/-- A 128-bit block (`__m128i` as used for field elements). -/
structure GF128 where
  bits : BitVec 128
deriving DecidableEq

namespace GF128

/-- XOR of blocks. -/
def add (a b : GF128) : GF128 := ⟨a.bits ^^^ b.bits⟩
/-- `gfmul` of blocks. -/
def mul (a b : GF128) : GF128 := ⟨BitVec.ofNat 128 (gfmulN a.bits.toNat b.bits.toNat)⟩

instance : Zero GF128 := ⟨⟨0⟩⟩
instance : One GF128 := ⟨⟨1⟩⟩
instance : Add GF128 := ⟨add⟩
instance : Mul GF128 := ⟨mul⟩
instance : Neg GF128 := ⟨id⟩
instance : Inhabited GF128 := ⟨0⟩

theorem add_bits (a b : GF128) : (a + b).bits = a.bits ^^^ b.bits := rfl
theorem mul_bits (a b : GF128) : (a * b).bits.toNat = gfmulN a.bits.toNat b.bits.toNat := by
  show (BitVec.ofNat 128 _).toNat = _
  rw [BitVec.toNat_ofNat]
  exact Nat.mod_eq_of_lt (gfmulN_lt _ _ a.bits.isLt)

/-- Polynomial of a block. -/
noncomputable def poly (a : GF128) : (ZMod 2)[X] := toPoly a.bits.toNat

theorem poly_add (a b : GF128) : poly (a + b) = poly a + poly b := by
  unfold poly; rw [add_bits, BitVec.toNat_xor, toPoly_xor]

theorem poly_zero : poly 0 = 0 := by
  unfold poly; show toPoly (BitVec.toNat 0) = 0; simp
theorem poly_one : poly 1 = 1 := by
  unfold poly; show toPoly (BitVec.toNat 1) = 1; simp

theorem degree_toPoly_lt {n k : Nat} (h : n < 2^k) : (toPoly n).degree < k := by
  rw [degree_lt_iff_coeff_zero]
  intro m hm
  rw [toPoly_coeff, Nat.testBit_lt_two_pow (lt_of_lt_of_le h (Nat.pow_le_pow_right (by omega) hm))]
  rfl

theorem degree_poly_lt (a : GF128) : (poly a).degree < (128 : Nat) := degree_toPoly_lt a.bits.isLt

theorem poly_inj {a b : GF128} (h : poly a = poly b) : a = b := by
  cases a; cases b
  congr 1
  exact BitVec.eq_of_toNat_eq (toPoly_inj h)

/-- Into the quotient ring. -/
noncomputable def toQ (a : GF128) : AdjoinRoot gfP := AdjoinRoot.mk gfP (poly a)

theorem toQ_add (a b : GF128) : toQ (a + b) = toQ a + toQ b := by
  unfold toQ; rw [poly_add, map_add]
theorem toQ_zero : toQ 0 = 0 := by unfold toQ; rw [poly_zero, map_zero]
theorem toQ_one : toQ 1 = 1 := by unfold toQ; rw [poly_one, map_one]
theorem toQ_mul (a b : GF128) : toQ (a * b) = toQ a * toQ b := by
  unfold toQ
  rw [← map_mul, AdjoinRoot.mk_eq_mk]
  unfold poly
  rw [mul_bits, gfP_def]
  exact toPoly_gfmulN _ _ b.bits.isLt
theorem toQ_neg (a : GF128) : toQ (-a) = - toQ a := by
  have : toQ a + toQ a = 0 := by
    unfold toQ
    rw [← map_add, two_zmod2_poly, map_zero]
  rw [neg_eq_of_add_eq_zero_left this]; rfl

theorem toQ_inj {a b : GF128} (h : toQ a = toQ b) : a = b := by
  unfold toQ at h
  rw [AdjoinRoot.mk_eq_mk] at h
  apply poly_inj
  rw [← sub_eq_zero]
  apply eq_zero_of_dvd_of_degree_lt h
  obtain ⟨hm, hd⟩ := gfP_monic_natDegree
  rw [degree_eq_natDegree hm.ne_zero, hd]
  exact lt_of_le_of_lt (degree_sub_le _ _) (max_lt (degree_poly_lt a) (degree_poly_lt b))

instance : CommRing GF128 where
  add_assoc a b c := toQ_inj (by simp only [toQ_add]; ring)
  zero_add a := toQ_inj (by simp only [toQ_add, toQ_zero]; ring)
  add_zero a := toQ_inj (by simp only [toQ_add, toQ_zero]; ring)
  add_comm a b := toQ_inj (by simp only [toQ_add]; ring)
  left_distrib a b c := toQ_inj (by simp only [toQ_add, toQ_mul]; ring)
  right_distrib a b c := toQ_inj (by simp only [toQ_add, toQ_mul]; ring)
  zero_mul a := toQ_inj (by simp only [toQ_mul, toQ_zero]; ring)
  mul_zero a := toQ_inj (by simp only [toQ_mul, toQ_zero]; ring)
  mul_assoc a b c := toQ_inj (by simp only [toQ_mul]; ring)
  one_mul a := toQ_inj (by simp only [toQ_mul, toQ_one]; ring)
  mul_one a := toQ_inj (by simp only [toQ_mul, toQ_one]; ring)
  mul_comm a b := toQ_inj (by simp only [toQ_mul]; ring)
  neg_add_cancel a := toQ_inj (by simp only [toQ_add, toQ_neg, toQ_zero]; ring)
  nsmul := nsmulRec
  zsmul := zsmulRec

/-- Blocks are the numbers below 2^128. -/
def equivFin : GF128 ≃ Fin (2^128) where
  toFun a := a.bits.toFin
  invFun n := ⟨BitVec.ofFin n⟩
  left_inv _ := rfl
  right_inv _ := rfl

instance : Fintype GF128 := Fintype.ofEquiv _ equivFin.symm

theorem card : Fintype.card GF128 = 2^128 := by
  rw [Fintype.card_congr equivFin, Fintype.card_fin]

instance : Nontrivial GF128 := ⟨0, 1, by
  intro h
  have := congrArg bits h
  exact absurd this (by decide)⟩

instance : IsDomain GF128 := by
  have : Fact (Irreducible gfP) := ⟨gfP_irreducible⟩
  have : NoZeroDivisors GF128 := ⟨by
    intro a b h
    have h2 := congrArg toQ h
    rw [toQ_mul, toQ_zero, mul_eq_zero] at h2
    rcases h2 with h2 | h2
    · left; apply toQ_inj; rw [h2, toQ_zero]
    · right; apply toQ_inj; rw [h2, toQ_zero]⟩
  exact NoZeroDivisors.to_isDomain _

noncomputable instance : Field GF128 := Fintype.fieldOfDomain GF128

/-- The embedding as a ring homomorphism. -/
noncomputable def toQHom : GF128 →+* AdjoinRoot gfP where
  toFun := toQ
  map_zero' := toQ_zero
  map_one' := toQ_one
  map_add' := toQ_add
  map_mul' := toQ_mul

/-- The low bit of a block. -/
def getLSB (a : GF128) : Bool := a.bits.getLsbD 0
/-- The block with only bit 1 set: the field element X. -/
def blockX : GF128 := ⟨2⟩

theorem toQHom_blockX : toQHom blockX = AdjoinRoot.mk gfP X := by
  show AdjoinRoot.mk gfP (toPoly (BitVec.toNat 2)) = _
  rw [show BitVec.toNat (2 : BitVec 128) = 2 from rfl, toPoly_two]

noncomputable instance : BlockField GF128 where
  add_self a := toQ_inj (by
    rw [show a + a = a + -a from rfl, add_neg_cancel])
  lsb := getLSB
  lsb_add a b := by
    show (a.bits ^^^ b.bits).getLsbD 0 = _
    rw [BitVec.getLsbD_xor]; rfl
  lsb_one := by decide
  gX := blockX

theorem toQ_bit (b : Bool) : toQHom (bit b) = AdjoinRoot.mk gfP (if b then 1 else 0) := by
  cases b <;> simp

theorem poly_eq_sum (a : GF128) :
    poly a = ∑ i : Fin 128, (if a.bits.getLsbD i then X ^ (i : Nat) else 0) := by
  ext k
  rw [finsetSum_coeff]
  unfold poly
  rw [toPoly_coeff]
  have hc : ∀ i : Fin 128, ((if a.bits.getLsbD i then X ^ (i : Nat) else 0 : (ZMod 2)[X])).coeff k =
      if k = i.val then (if a.bits.getLsbD i then 1 else 0) else 0 := by
    intro i
    split <;> simp [coeff_X_pow]
  simp only [hc]
  by_cases hk : k < 128
  · rw [Finset.sum_eq_single (⟨k, hk⟩ : Fin 128)]
    · simp [BitVec.getLsbD]
    · intro b _ hb
      rw [if_neg]
      intro h; apply hb; ext; exact h.symm
    · intro h; exact absurd (Finset.mem_univ _) h
  · rw [Finset.sum_eq_zero]
    · rw [Nat.testBit_lt_two_pow (lt_of_lt_of_le a.bits.isLt (Nat.pow_le_pow_right (by omega) (by omega)))]
      simp
    · intro i _
      rw [if_neg (by omega)]

/-- Packing the bits of a block with the powers of X gives the block back. -/
theorem pack_bits (a : GF128) :
    ∑ i : Fin 128, bit (a.bits.getLsbD i) * (gX : GF128) ^ (i : Nat) = a := by
  have hinj : Function.Injective toQHom := fun x y h => toQ_inj h
  apply hinj
  show _ = AdjoinRoot.mk gfP (poly a)
  rw [poly_eq_sum, map_sum, map_sum]
  apply Finset.sum_congr rfl
  intro i _
  rw [map_mul, map_pow, show toQHom gX = AdjoinRoot.mk gfP X from toQHom_blockX, toQ_bit, ← map_pow,
    ← map_mul]
  split <;> simp

noncomputable instance : PackField GF128 where
  pack_bijective := by
    rw [Fintype.bijective_iff_surjective_and_card]
    refine ⟨fun a => ⟨fun i => a.bits.getLsbD i, pack_bits a⟩, ?_⟩
    rw [card, Fintype.card_fun]
    simp

end GF128
end EmpZk
