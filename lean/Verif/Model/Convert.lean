/-
Conversion of one element between arithmetic and boolean values, each party on its own (edabits.h:151-165, 221-236; the bodies of the
bulk loops edabits.h:187-218, 259-291 are the same for every element).
-/
import Verif.Model.EdaBits

namespace EmpZk

/-- edabits.h:221-236 with auth_helper.h:26-36, prover following the code: the word sent, the word hashed, and the value of the resulting
`Integer`. `M` is the label of the edaBit, `Mx` of the input, `r` the value of the boolean half of the edaBit. The boolean labels
themselves are not modelled here: the circuit `Integer(62, sum, PUBLIC) - r` with its correction is taken by its value `f2Diff`
(C22, C23). -/
def arith2boolA (M Mx : U128) (r : Int62) : W × W × Int62 :=
  let s := intfpAddA M Mx
  (high64 s, low64 s, f2Diff ((high64 s).setWidth 62) r)

/-- edabits.h:221-236 with auth_helper.h:38-47, verifier: the word hashed and the value of the resulting `Integer`, when the word `v`
arrives from the network. -/
def arith2boolB (delta : W) (K Kx : U128) (r : Int62) (v : W) : W × Int62 :=
  (addMod (low64 (intfpAddB K Kx)) (multMod v delta), f2Diff (v.setWidth 62) r)

/-- edabits.h:151-165, prover: the label of the resulting field element. The opened difference goes through `reveal` of the boolean
protocol (auth_helper.h:61-63) and is the same for both parties. -/
def bool2arithA (M : U128) (x r : Int62) : U128 := intfpAddConstA M ((f2Diff x r).setWidth 64)

/-- edabits.h:151-165, verifier. -/
def bool2arithB (delta : W) (K : U128) (x r : Int62) : U128 := intfpAddConstB delta K ((f2Diff x r).setWidth 64)

end EmpZk
