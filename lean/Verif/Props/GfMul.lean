/-
Property theorems C05: batched 128-bit carry-less multiplication.
-/
import Verif.Lemmas.GfMul

namespace EmpZk
open Polynomial

/-- C05: each lane yields the two halves of the full 256-bit carry-less product. -/
theorem C05_lane_full_product (a b : U128) :
    (mul128Lane a b).1.toNat + 2^128 * (mul128Lane a b).2.toNat = clmulN a.toNat b.toNat 128 := by
  apply toPoly_inj
  rw [toPoly_append, toPoly_clmulN _ _ 128 b.isLt, toPoly_u128 a, toPoly_u128 b]
  have h00 := clmulepi64_toNat a b false false
  have h01 := clmulepi64_toNat a b false true
  have h10 := clmulepi64_toNat a b true false
  have h11 := clmulepi64_toNat a b true true
  simp only [Bool.false_eq_true, if_false, if_true] at h00 h01 h10 h11
  have hm : toPoly (clmulepi64 a b false true ^^^ clmulepi64 a b true false).toNat =
      toPoly (low64 a).toNat * toPoly (high64 b).toNat +
        toPoly (high64 a).toNat * toPoly (low64 b).toNat := by
    rw [BitVec.toNat_xor, toPoly_xor, h01, h10]
  -- the middle term, shifted by 64, straddles the two halves
  have hs : ∀ t : U128, toPoly (t <<< 64).toNat + toPoly (t >>> 64).toNat * X ^ 128 =
      toPoly t.toNat * X ^ 64 := by
    intro t
    have e1 : (t <<< 64).toNat = (t.toNat % 2^64) <<< 64 := by
      rw [BitVec.toNat_shiftLeft, Nat.shiftLeft_eq, Nat.shiftLeft_eq]; omega
    rw [e1, shr_toNat, toPoly_shift]
    have := toPoly_split t.toNat 64
    rw [this]; ring
  have hs' := hs (clmulepi64 a b false true ^^^ clmulepi64 a b true false)
  unfold mul128Lane
  simp only
  rw [BitVec.toNat_xor, BitVec.toNat_xor (x := clmulepi64 a b true true), toPoly_xor, toPoly_xor,
    h00, h11]
  rw [hm] at hs'
  linear_combination hs'

example : mul128Lane (BitVec.allOnes 128) 3#128 = (1#128, 1#128) := by decide +kernel

/-- C05: for every batch size and every aliasing of operand and result addresses, the result array holds
the field products of the operands' original contents, and nothing else is changed. -/
theorem C05_batch_products (N : Nat) (a b : Nat → Nat) (res : Nat) (m : BlockMem) :
    (∀ i, i < N → (⟨gfmulBatch N a b res m (res + i)⟩ : GF128) = ⟨m (a i)⟩ * ⟨m (b i)⟩) ∧
    (∀ x, x < res ∨ res + N ≤ x → gfmulBatch N a b res m x = m x) := by
  constructor
  · intro i hi
    unfold gfmulBatch
    rw [storeLanes_in _ _ _ _ _ hi]
    unfold reduce
    rw [C05_lane_full_product]
    rfl
  · intro x hx
    exact storeLanes_out _ _ _ _ _ hx

-- operands overlapping the result array: block 0 is overwritten by block0*block1 and still used for lane 1
example : (gfmulBatch 2 (fun _ => 0) (fun i => i) 0 (fun x => if x = 0 then 2#128 else 3#128) 1) = 6#128 := by
  decide +kernel

end EmpZk
