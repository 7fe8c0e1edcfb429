/-
Specification: the stream of correlations a sequence of extensions produces. Each extension gives a batch; its last `M` elements
seed the next extension and are never handed out, the others are handed out in order.
-/
import Verif.Model.Word

namespace EmpZk

variable {α : Type}

/-- The elements that seed extension `r`, when each batch has `L` elements to hand out. -/
def seedOf (gen : Nat → List α → List α) (L : Nat) (pre0 : List α) : Nat → List α
  | 0 => pre0
  | r + 1 => (gen r (seedOf gen L pre0 r)).drop L

/-- Batch number `r`. -/
def batchOf (gen : Nat → List α → List α) (L : Nat) (pre0 : List α) (r : Nat) : List α := gen r (seedOf gen L pre0 r)

/-- Element `i` of the stream: the usable parts of the batches, one after the other. -/
def streamAt (gen : Nat → List α → List α) (L : Nat) (pre0 : List α) (i : Nat) : Option α :=
  (batchOf gen L pre0 (i / L))[i % L]?

end EmpZk
