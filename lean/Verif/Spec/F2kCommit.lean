/-
What a committed block of the RAM extension means, stated without the protocol: the key that belongs to a committed pair, what
it means that a product gate is right, and the memory a RAM log has to be consistent with.
-/
import Verif.Spec.BlockField

namespace EmpZk

section
variable {F : Type} [Field F]

/-- The key the verifier holds for the committed pair (value, MAC). -/
def keyF (delta : F) (x : F × F) : F := x.2 + x.1 * delta

/-- The keys of a triple (left, right, output). -/
def keyF3 (delta : F) (g : (F × F) × (F × F) × (F × F)) : F × F × F := (keyF delta g.1, keyF delta g.2.1, keyF delta g.2.2)

/-- A two-operand product is right. -/
def MulOk (g : (F × F) × (F × F) × (F × F)) : Prop := g.2.2.1 = g.1.1 * g.2.1.1

end
end EmpZk
