/-
Specification: plain evaluation of arithmetic programs over the field of `2^61 - 1` elements (no labels, no MACs).
-/
import Verif.Lemmas.Word
import Verif.Spec.BoolCircuit

namespace EmpZk

/-- A statement "this degree-2 polynomial of the wires is zero"; `α` is the type of wires.
`deg2 c0 [(c,x,y),..]`: `c0 + Σ c*x*y` (polynomial.h:83-121, `coeff[0] = c0`); `inner c [(x,y),..]`: `c + Σ x*y`
(123-158). -/
inductive APoly (α : Type) where
  | deg2 (c0 : W) (terms : List (W × α × α))
  | inner (c : W) (terms : List (α × α))

/-- Change of the type of wires. -/
def APoly.map {α β : Type} (f : α → β) : APoly α → APoly β
  | .deg2 c0 terms => .deg2 c0 (terms.map (fun t => (t.1, f t.2.1, f t.2.2)))
  | .inner c terms => .inner c (terms.map (fun t => (f t.1, f t.2)))

/-- The value claimed to be zero. -/
def APoly.eval : APoly Fp → Fp
  | .deg2 c0 terms => fp c0 + (terms.map (fun t => fp t.1 * (t.2.1 * t.2.2))).sum
  | .inner c terms => fp c + (terms.map (fun t => t.1 * t.2)).sum

/-- The coefficients are canonical words. -/
def APoly.CanonC {α : Type} : APoly α → Prop
  | .deg2 c0 terms => Canon c0 ∧ ∀ t ∈ terms, Canon t.1
  | .inner c _ => Canon c

/-- The wires of a statement; `none` if one does not exist. -/
def APoly.lookup {α : Type} (w : List α) : APoly Nat → Option (APoly α)
  | .deg2 c0 terms => do
      let t ← lookupTerms w terms
      some (.deg2 c0 t)
  | .inner c terms => do
      let t ← lookupPairs w terms
      some (.inner c t)

/-- Instructions of a program; wires are numbered in order of creation (int_fp.h:14-64, 85-95). -/
inductive AOp where
  | input (w : W)
  | pub (w : W)
  | add (i j : Nat)
  | mul (i j : Nat)
  | mulc (i : Nat) (c : W)
  | reveal (i : Nat)
  | revealCheck (i : Nat) (expect : W)
  | revealZero (i : Nat)
  | poly (s : APoly Nat)

/-- The words of the instruction are canonical, as the interface requires (inputs, constants and expected values below
`p`). -/
def AOp.CanonC : AOp → Prop
  | .input w => Canon w
  | .pub w => Canon w
  | .mulc _ c => Canon c
  | .revealCheck _ x => Canon x
  | .poly s => s.CanonC
  | _ => True

/-- The same instruction, except that a private input may have another value. -/
def AOp.same : AOp → AOp → Prop
  | .input _, .input _ => True
  | a, b => a = b

/-- Plain values: wires, values revealed, values claimed to be zero so far. -/
structure APlain where
  wires : List Fp
  outs : List Fp
  claims : List Fp

/-- One instruction on plain values; `none` if an operand does not exist. -/
def aplainStep (s : APlain) : AOp → Option APlain
  | .input w => some { s with wires := s.wires ++ [fp w] }
  | .pub w => some { s with wires := s.wires ++ [fp w] }
  | .add i j => do
      let a ← s.wires[i]?
      let b ← s.wires[j]?
      some { s with wires := s.wires ++ [a + b] }
  | .mul i j => do
      let a ← s.wires[i]?
      let b ← s.wires[j]?
      some { s with wires := s.wires ++ [a * b] }
  | .mulc i c => do
      let a ← s.wires[i]?
      some { s with wires := s.wires ++ [a * fp c] }
  | .reveal i => do
      let a ← s.wires[i]?
      some { s with outs := s.outs ++ [a] }
  | .revealCheck i x => do
      let a ← s.wires[i]?
      some { s with claims := s.claims ++ [a - fp x] }
  | .revealZero i => do
      let a ← s.wires[i]?
      some { s with claims := s.claims ++ [a] }
  | .poly st => do
      let p ← st.lookup s.wires
      some { s with claims := s.claims ++ [p.eval] }

/-- A whole program. -/
def aplainRun (ops : List AOp) : Option APlain :=
  ops.foldlM aplainStep { wires := [], outs := [], claims := [] }

/-- Number of multiplications of a program. -/
def mulCount : List AOp → Nat
  | [] => 0
  | .mul _ _ :: os => mulCount os + 1
  | _ :: os => mulCount os

end EmpZk
