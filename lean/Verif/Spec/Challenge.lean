/-
Specification side of C73: a prover who commits to wrong AND outputs, and what the verifier computes from the corrections.
-/
import Verif.Model.BoolGate
import Verif.Model.BoolIO
import Verif.Spec.BoolCommit

namespace EmpZk

section
variable {F : Type} [Field F] [BlockField F]

/-- The operands of an AND gate and the correlation block drawn for it, on the prover's side. -/
structure PreGate (F : Type) where
  left : F
  right : F
  auth : F

/-- The value a prover commits to when the flag `wrong` says whether to lie. -/
def PreGate.val (g : PreGate F) (wrong : Bool) : Bool := (lsb g.left && lsb g.right) ^^ wrong

/-- The prover's buffered gate (ostriple.h:123-138) with that value in place of the AND. -/
def PreGate.gate (g : PreGate F) (wrong : Bool) : Gate F := ⟨g.left, g.right, setValueInBlock g.auth (g.val wrong)⟩

/-- The correction bit sent for it (ostriple.h:129-131). -/
def PreGate.corr (g : PreGate F) (wrong : Bool) : Bool := g.val wrong ^^ lsb g.auth

/-- The verifier's buffered gate, from the keys of the same blocks and the received correction (ostriple.h:132-138). -/
def PreGate.ver (delta : F) (g : PreGate F) (d : Bool) : Gate F :=
  ⟨keyOf delta g.left, keyOf delta g.right, andVer delta (keyOf delta g.auth) d⟩

end
end EmpZk
