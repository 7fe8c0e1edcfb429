/-
Specification: plain evaluation of boolean programs (no labels, no MACs).
-/
namespace EmpZk

/-- The statements of polynomial.h over wires of type `α`. -/
inductive PolyStmt (α : Type) where
  /-- polynomial.h:99-147 `zkp_poly_deg2`: `coeff[0]` and the triples (`coeff[i+1]`, `polyx[i]`, `polyy[i]`). -/
  | deg2 (c0 : Bool) (terms : List (Bool × α × α))
  /-- polynomial.h:149-192 `zkp_inner_prdt`. -/
  | inner (constant : Bool) (xy : List (α × α))
  /-- polynomial.h:194-259 `zkp_inner_prdt_eq`. -/
  | innerEq (xy rs : List (α × α))
  /-- polynomial.h:261-346 `zkp_inner_prdt_eq` with one more pair. -/
  | innerEqOne (xy rs : List (α × α)) (rr ss : α)
  /-- polynomial.h:350-413: one iteration (`width`) of `zkp_inner_prdt_multi`. -/
  | multiOne (xy : List (α × α)) (r s : α)

/-- polynomial.h:348-414 `zkp_inner_prdt_multi`: the `in_width` statements it queues. -/
def multiStmts {α : Type} (x : Nat → Nat → α) (y r : Nat → α) (s : α) (len inWidth : Nat) : List (PolyStmt α) :=
  (List.range inWidth).map (fun w =>
    PolyStmt.multiOne ((List.range len).map (fun i => (x i w, y i))) (r w) s)

/-- XOR of a list of bits. -/
def xorAll : List Bool → Bool
  | [] => false
  | b :: l => b ^^ xorAll l

/-- The value the statement claims to be zero (XOR of the terms and of the constant). -/
def PolyStmt.eval : PolyStmt Bool → Bool
  | .deg2 c0 terms => c0 ^^ xorAll (terms.map (fun t => t.1 && (t.2.1 && t.2.2)))
  | .inner c xy => c ^^ xorAll (xy.map (fun t => t.1 && t.2))
  | .innerEq xy rs => xorAll (xy.map (fun t => t.1 && t.2)) ^^ xorAll (rs.map (fun t => t.1 && t.2))
  | .innerEqOne xy rs rr ss =>
      xorAll (xy.map (fun t => t.1 && t.2)) ^^ xorAll (rs.map (fun t => t.1 && t.2)) ^^ (rr && ss)
  | .multiOne xy r s => xorAll (xy.map (fun t => t.1 && t.2)) ^^ (r && s)

/-- Relabelling of the wires of a statement. -/
def PolyStmt.map {α β : Type} (f : α → β) : PolyStmt α → PolyStmt β
  | .deg2 c0 terms => .deg2 c0 (terms.map (fun t => (t.1, f t.2.1, f t.2.2)))
  | .inner c xy => .inner c (xy.map (fun t => (f t.1, f t.2)))
  | .innerEq xy rs => .innerEq (xy.map (fun t => (f t.1, f t.2))) (rs.map (fun t => (f t.1, f t.2)))
  | .innerEqOne xy rs rr ss =>
      .innerEqOne (xy.map (fun t => (f t.1, f t.2))) (rs.map (fun t => (f t.1, f t.2))) (f rr) (f ss)
  | .multiOne xy r s => .multiOne (xy.map (fun t => (f t.1, f t.2))) (f r) (f s)

/-- Pairs of wires looked up in a wire list; `none` if one does not exist. -/
def lookupPairs {α : Type} (w : List α) : List (Nat × Nat) → Option (List (α × α))
  | [] => some []
  | (i, j) :: l => do
      let a ← w[i]?
      let b ← w[j]?
      let r ← lookupPairs w l
      some ((a, b) :: r)

/-- The same with a coefficient. -/
def lookupTerms {κ α : Type} (w : List α) : List (κ × Nat × Nat) → Option (List (κ × α × α))
  | [] => some []
  | (c, i, j) :: l => do
      let a ← w[i]?
      let b ← w[j]?
      let r ← lookupTerms w l
      some ((c, a, b) :: r)

/-- A statement on wire numbers, looked up in a wire list. -/
def PolyStmt.lookup {α : Type} (w : List α) : PolyStmt Nat → Option (PolyStmt α)
  | .deg2 c0 terms => do
      let t ← lookupTerms w terms
      some (.deg2 c0 t)
  | .inner c xy => do
      let t ← lookupPairs w xy
      some (.inner c t)
  | .innerEq xy rs => do
      let t ← lookupPairs w xy
      let u ← lookupPairs w rs
      some (.innerEq t u)
  | .innerEqOne xy rs rr ss => do
      let t ← lookupPairs w xy
      let u ← lookupPairs w rs
      let a ← w[rr]?
      let b ← w[ss]?
      some (.innerEqOne t u a b)
  | .multiOne xy r s => do
      let t ← lookupPairs w xy
      let a ← w[r]?
      let b ← w[s]?
      some (.multiOne t a b)

/-- A boolean program: every instruction that produces a wire appends it; operands are earlier wires. -/
inductive BOp where
  | input (b : Bool)
  | pub (b : Bool)
  | xor (i j : Nat)
  | not (i : Nat)
  | and (i j : Nat)
  | reveal (i : Nat)
  | poly (s : PolyStmt Nat)

/-- The same instruction, except that a private input may have another value. -/
def BOp.same : BOp → BOp → Prop
  | .input _, .input _ => True
  | a, b => a = b

/-- Plain values: wires so far, values revealed so far, values of the statements claimed to be zero so far. -/
structure Plain where
  wires : List Bool
  outs : List Bool
  claims : List Bool
deriving DecidableEq

/-- One instruction on plain values; `none` if an operand does not exist. -/
def plainStep (s : Plain) : BOp → Option Plain
  | .input b => some { s with wires := s.wires ++ [b] }
  | .pub b => some { s with wires := s.wires ++ [b] }
  | .xor i j => do
      let a ← s.wires[i]?
      let b ← s.wires[j]?
      some { s with wires := s.wires ++ [a ^^ b] }
  | .not i => do
      let a ← s.wires[i]?
      some { s with wires := s.wires ++ [!a] }
  | .and i j => do
      let a ← s.wires[i]?
      let b ← s.wires[j]?
      some { s with wires := s.wires ++ [a && b] }
  | .reveal i => do
      let a ← s.wires[i]?
      some { s with outs := s.outs ++ [a] }
  | .poly st => do
      let p ← st.lookup s.wires
      some { s with claims := s.claims ++ [p.eval] }

/-- A whole program. -/
def plainRun (ops : List BOp) : Option Plain :=
  ops.foldlM plainStep { wires := [], outs := [], claims := [] }

/-- The AND gates of a program as wire numbers (left, right, output), when `n` wires exist before it. -/
def andTriples : Nat → List BOp → List (Nat × Nat × Nat)
  | _, [] => []
  | n, .input _ :: os => andTriples (n + 1) os
  | n, .pub _ :: os => andTriples (n + 1) os
  | n, .xor _ _ :: os => andTriples (n + 1) os
  | n, .not _ :: os => andTriples (n + 1) os
  | n, .and i j :: os => (i, j, n) :: andTriples (n + 1) os
  | n, .reveal _ :: os => andTriples n os
  | n, .poly _ :: os => andTriples n os

/-- The statements of a program. -/
def polyStmts : List BOp → List (PolyStmt Nat)
  | [] => []
  | .poly st :: os => st :: polyStmts os
  | _ :: os => polyStmts os

/-- The wires revealed by a program. -/
def revealed : List BOp → List Nat
  | [] => []
  | .reveal i :: os => i :: revealed os
  | _ :: os => revealed os

end EmpZk
