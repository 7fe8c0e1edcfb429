/-
What the protocol uses about 128-bit blocks as elements of F_{2^128}: a field of characteristic two
(addition is XOR), the low bit of a block (`getLSB`), which is linear, with low bit of `1` set, and the
element X used by emp-tool's `GaloisFieldPacking` (external), whose first 128 powers form a basis.
-/
import Mathlib.Algebra.Field.Basic
import Mathlib.Algebra.BigOperators.Fin
import Mathlib.Algebra.BigOperators.Group.Finset.Basic

namespace EmpZk

/-- A field of blocks: XOR is addition; `lsb` is emp-tool's `getLSB` (external), used e.g. at
emp-zk/emp-zk-bool/ostriple.h:100; `gX` is the generator behind `GaloisFieldPacking` (external), used at
emp-zk/emp-zk-bool/ostriple.h:187. -/
class BlockField (F : Type) [Field F] where
  add_self : ∀ a : F, a + a = 0
  lsb : F → Bool
  lsb_add : ∀ a b : F, lsb (a + b) = (lsb a ^^ lsb b)
  lsb_one : lsb 1 = true
  gX : F

/-- Value of a bit in the field. -/
def bit {F : Type} [Field F] (b : Bool) : F := if b then 1 else 0

/-- Blocks are exactly the 128-bit strings: every block is a unique combination of the packing basis. -/
class PackField (F : Type) [Field F] extends BlockField F where
  pack_bijective :
    Function.Bijective (fun b : Fin 128 → Bool => ∑ i, bit (b i) * gX ^ (i : Nat))

export BlockField (lsb gX)

section
variable {F : Type} [Field F] [BlockField F]

theorem addSelf (a : F) : a + a = 0 := BlockField.add_self a

theorem neg_eq_self' (a : F) : -a = a := neg_eq_of_add_eq_zero_left (addSelf a)

theorem sub_eq_add' (a b : F) : a - b = a + b := by rw [sub_eq_add_neg, neg_eq_self']

theorem two_eq_zero' : (2 : F) = 0 := by
  have := addSelf (1 : F)
  rwa [one_add_one_eq_two] at this

theorem add_eq_zero' {a b : F} : a + b = 0 ↔ a = b := by
  rw [add_eq_zero_iff_eq_neg, neg_eq_self']

theorem lsb_add (a b : F) : lsb (a + b) = (lsb a ^^ lsb b) := BlockField.lsb_add a b
@[simp] theorem lsb_one : lsb (1 : F) = true := BlockField.lsb_one
@[simp] theorem lsb_zero : lsb (0 : F) = false := by
  have := lsb_add (0 : F) 0
  rw [add_zero] at this
  simpa using this

@[simp] theorem bit_true : bit true = (1 : F) := rfl
@[simp] theorem bit_false : bit false = (0 : F) := rfl
theorem bit_xor (a b : Bool) : bit (a ^^ b) = (bit a + bit b : F) := by
  cases a <;> cases b <;> simp [addSelf]
theorem bit_and (a b : Bool) : bit (a && b) = (bit a * bit b : F) := by
  cases a <;> cases b <;> simp
@[simp] theorem lsb_bit (b : Bool) : lsb (bit b : F) = b := by cases b <;> simp
theorem bit_inj {a b : Bool} (h : (bit a : F) = bit b) : a = b := by
  cases a <;> cases b <;> simp_all
theorem lsb_bit_mul (b : Bool) (x : F) : lsb (bit b * x) = (b && lsb x) := by
  cases b <;> simp
end

end EmpZk
