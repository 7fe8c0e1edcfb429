/-!
Specification of session histories: which sequences of calls are allowed, and what is expected of them.
-/
namespace EmpZk

/-- Calls of a program. The flags say which buffers are non-empty when the destructors run, the numbers how many cheat messages the
call records (for `finBool`: by the AND check or the MAC digest, and by the pending polynomials). -/
inductive LEv
  | setupBool
  | finBool (pendA pendP : Bool) (nA nP : Nat)
  | setupArith (conv : Bool)
  | finArith (pendM pendP : Bool) (nP : Nat)
  | boolOp (n : Nat)
  | arithOp (n : Nat)
  | convOp

/-- What the caller knows: is a boolean session open, was there one; is an arithmetic session open and with conversions; was there one
with conversions; how many arithmetic sessions were closed. -/
structure LSess where
  bool : Bool
  everB : Bool
  arith : Option Bool
  seen : Bool
  done : Nat

/-- No session yet. -/
def LSess.init : LSess := ⟨false, false, none, false, 0⟩

/-- The rules for a caller: one session of each kind at a time, conversions need an open boolean session, operations need the
sessions they belong to. `none`: the rules are broken. -/
def LSess.step (s : LSess) : LEv → Option LSess
  | .setupBool => if s.bool then none else some { s with bool := true, everB := true }
  | .finBool _ _ _ _ => if s.bool then some { s with bool := false } else none
  | .setupArith c => if s.arith.isSome || (c && !s.bool) then none else some { s with arith := some c, seen := s.seen || c }
  | .finArith _ _ _ => if s.arith.isSome then some { s with arith := none, done := s.done + 1 } else none
  | .boolOp _ => if s.bool then some s else none
  | .arithOp _ => if s.arith.isSome then some s else none
  | .convOp => if s.arith = some true ∧ s.bool then some s else none

/-- The rules along a history. -/
def LSess.run : LSess → List LEv → Option LSess
  | s, [] => some s
  | s, e :: es => (s.step e).bind (fun s' => s'.run es)

/-- The history closes an arithmetic session without conversions after one with conversions had been opened. -/
def closesPlainAfterConv : LSess → List LEv → Bool
  | _, [] => false
  | s, e :: es =>
    (match e with
      | .finArith _ _ _ => decide (s.arith = some false) && s.seen
      | _ => false) ||
    (match s.step e with
      | some s' => closesPlainAfterConv s' es
      | none => false)

/-- Cheat messages a call records. -/
def LEv.cheats : LEv → Nat
  | .finBool _ p nA nP => (if p then nP else 0) + nA
  | .finArith _ p nP => if p then nP else 0
  | .boolOp n => n
  | .arithOp n => n
  | _ => 0

/-- The verdicts a user expects: each `finalize_zk_bool` tells whether a message was recorded since the previous `setup_zk_bool`
(`n` messages so far). -/
def verdicts : Nat → List LEv → List Bool
  | _, [] => []
  | _, .setupBool :: es => verdicts 0 es
  | n, .finBool a p nA nP :: es => decide (n + (LEv.finBool a p nA nP).cheats ≠ 0) :: verdicts (n + (LEv.finBool a p nA nP).cheats) es
  | n, e :: es => verdicts (n + e.cheats) es

end EmpZk
