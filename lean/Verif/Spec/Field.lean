/-
Specification side: the prime field F_p with p = 2^61 - 1, written without the model.
-/
import Mathlib.Data.ZMod.Basic
import Mathlib.NumberTheory.LucasLehmer

namespace EmpZk

/-- The modulus, as a plain number. -/
abbrev pN : Nat := 2305843009213693951

/-- The field the library computes in. -/
abbrev Fp := ZMod pN

theorem pN_eq : pN = 2 ^ 61 - 1 := by norm_num

theorem pN_prime : Nat.Prime pN := by
  have h : (mersenne 61).Prime :=
    lucas_lehmer_sufficiency _ (by simp) (by norm_num)
  have e : mersenne 61 = pN := by norm_num [mersenne]
  rwa [e] at h

instance : Fact (Nat.Prime pN) := ⟨pN_prime⟩

end EmpZk
