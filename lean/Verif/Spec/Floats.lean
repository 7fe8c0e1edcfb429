/-
Specification of C74 and C75: the number a single precision float denotes, and the number a field element stands for.
-/
import Mathlib.Data.Rat.Floor
import Mathlib.Algebra.Order.Field.Power

namespace EmpZk

/-- Exponent field of a float. -/
def fExp (f : BitVec 32) : Nat := f.toNat / 2^23 % 256
/-- Fraction field of a float. -/
def fFrac (f : BitVec 32) : Nat := f.toNat % 2^23
/-- Sign of a float. -/
def fNeg (f : BitVec 32) : Bool := decide (2^31 ≤ f.toNat)
/-- Magnitude of a normal float (exponent field 1 to 254), IEEE 754: `1.fraction * 2^(exponent - 127)`. -/
def fMag (f : BitVec 32) : ℚ := (2^23 + fFrac f : ℕ) * (2 : ℚ) ^ ((fExp f : ℤ) - 150)
/-- Value of a normal float. -/
def fVal (f : BitVec 32) : ℚ := if fNeg f then -fMag f else fMag f

/-- The signed integer a field element `x < 2^61 - 1` stands for: the representative nearest to zero. -/
def fieldInt (x : Nat) : ℤ := if x < 2^60 then (x : ℤ) else (x : ℤ) - (2^61 - 1)

end EmpZk
