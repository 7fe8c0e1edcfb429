/-
Selection by a bit and random linear combinations, shared by the checks of emp-zk-bool, emp-zk-arith, emp-vole and
the RAM extension.
-/
import Mathlib.Algebra.Field.Basic

namespace EmpZk

section
variable {F : Type} [CommRing F]

/-- `choice[b]` with `choice[0] = zero_block`, `choice[1] = t` (emp-zk-bool/ostriple.h:57-58, polynomial.h:103-104). -/
def sel (b : Bool) (t : F) : F := if b then t else 0

/-- emp-tool `uni_hash_coeff_gen(block)` and `vector_inn_prdt_sum_red(block)` (external; used in
emp-zk-bool/ostriple.h:246-252, polynomial.h:51-57): `c * l[0] + c*seed * l[1] + ...`. -/
def chiSumFrom (seed : F) : F → List F → F
  | _, [] => 0
  | c, x :: l => c * x + chiSumFrom seed (c * seed) l

/-- Coefficients start at `chi[0] = seed` (emp-zk-bool/ostriple.h:247; emp-vole/utility.h:188-192). -/
def chiSum (seed : F) (l : List F) : F := chiSumFrom seed seed l

end
end EmpZk
