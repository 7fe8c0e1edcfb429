/-
The circuits on 62-bit integers that edabits.h builds from emp-tool's `Integer` (edabits.h:61-63, 127-129, 157-158): ripple-carry addition
and subtraction and a selection. emp-tool is not in the repository; these gate lists follow its documented circuits.
-/
import Verif.Model.ConvNet

namespace EmpZk

/-- `Integer::operator+` (emp-tool, external; used at edabits.h:127-129): `n` wires exist, `c` is the wire of the carry, then pairs of wires;
no AND for the last bit. Result: gates, wires of the sum, number of wires. -/
def addGo : Nat → Nat → List (Nat × Nat) → List BOp × List Nat × Nat
  | n, _, [] => ([], [], n)
  | n, c, [(a, b)] => ([.xor c b, .xor n a], [n + 1], n + 2)
  | n, c, (a, b) :: q :: ps =>
    let r := addGo (n + 5) (n + 4) (q :: ps)
    (.xor a c :: .xor b c :: .xor a (n + 1) :: .and n (n + 1) :: .xor c (n + 3) :: r.1, (n + 2) :: r.2.1, r.2.2)

/-- `Integer::operator-` (emp-tool, external; used at edabits.h:157, 202, 234, 284), likewise. -/
def subGo : Nat → Nat → List (Nat × Nat) → List BOp × List Nat × Nat
  | n, _, [] => ([], [], n)
  | n, c, [(a, b)] => ([.xor a b, .xor n c], [n + 1], n + 2)
  | n, c, (a, b) :: q :: ps =>
    let r := subGo (n + 5) (n + 4) (q :: ps)
    (.xor a b :: .xor c b :: .xor n c :: .and n (n + 1) :: .xor c (n + 3) :: r.1, (n + 2) :: r.2.1, r.2.2)

/-- `Integer::select` (emp-tool, external; used at edabits.h:128-129, 158): the second of each pair if wire `s` is set. -/
def selGo (s : Nat) : Nat → List (Nat × Nat) → List BOp × List Nat × Nat
  | n, [] => ([], [], n)
  | n, (a, b) :: ps =>
    let r := selGo s (n + 3) ps
    (.xor a b :: .and n s :: .xor a (n + 1) :: r.1, (n + 2) :: r.2.1, r.2.2)

/-- The correction of edabits.h:128-129, 158: `d.select(d.bits[61], d + k)` for a public `k`, after `n` wires. -/
def fixGo (n : Nat) (ds : List Nat) (s : Nat) (k : Int62) : List BOp × List Nat :=
  let r := addGo (n + 63) (n + 62) (ds.zip ((List.range 62).map (n + ·)))
  let q := selGo s r.2.2 (ds.zip r.2.1)
  (((List.range 62).map (fun i => BOp.pub (k.getLsbD i)) ++ [.pub false]) ++ r.1 ++ q.1, q.2.1)

/-- The pairs of input wires (edabits.h:127, 157). -/
def inPairs : List (Nat × Nat) := (List.range 62).map (fun i => (i, 62 + i))

/-- edabits.h:127-129. -/
def sumCirc : Circ62 :=
  let r := addGo 125 124 inPairs
  let q := fixGo r.2.2 r.2.1 (r.2.1.getLastD 0) prI2
  ⟨.pub false :: r.1 ++ q.1, q.2⟩

/-- edabits.h:157-158. -/
def diffCirc : Circ62 :=
  let r := subGo 125 124 inPairs
  let q := fixGo r.2.2 r.2.1 (r.2.1.getLastD 0) prI
  ⟨.pub false :: r.1 ++ q.1, q.2⟩

end EmpZk
