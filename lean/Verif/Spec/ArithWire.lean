/-
The prover's messages in the bytes a verifier of an arithmetic session receives. Only the program, the buffer sizes and the lengths of
the VOLE messages are used: neither `Delta` nor any key.
-/
import Verif.Model.ArithNet

namespace EmpZk

/-- The first `n` bytes and the rest. -/
def takeN (n : Nat) (bs : List Byte) : Option (List Byte × List Byte) := if n ≤ bs.length then some (bs.take n, bs.drop n) else none

/-- The bytes after the prover's messages of a VOLE extension. -/
def skipExt : List (Bool × List Byte) → List Byte → Option (List Byte)
  | [], bs => some bs
  | (true, m) :: l, bs => if m.length ≤ bs.length then skipExt l (bs.drop m.length) else none
  | (false, _) :: l, bs => skipExt l bs

/-- Wire format of an arithmetic session: lengths of VOLE messages, buffer sizes. -/
structure AWire where
  ext : Nat → List (Bool × List Byte)
  checkSz : Nat
  polySz : Nat

/-- How far a session is: VOLE outputs consumed, gates and statements waiting for their check. -/
structure ACnt where
  used : Nat
  gates : Nat
  polys : Nat

/-- A word. -/
def AWire.word (bs : List Byte) : Option (W × List Byte) := do
  let x ← takeN 8 bs
  some (decW x.1, x.2)

/-- A VOLE output is made, then a word comes. -/
def AWire.extWord (w : AWire) (n : Nat) (bs : List Byte) : Option (W × List Byte) := do
  let b ← skipExt (w.ext n) bs
  AWire.word b

/-- A VOLE output is made, then an answer comes. -/
def AWire.answer (w : AWire) (n : Nat) (bs : List Byte) : Option ((W × W) × List Byte) := do
  let b ← skipExt (w.ext n) bs
  let x ← takeN 16 b
  some (decAns x.1, x.2)

/-- An answer when `full`. -/
def AWire.answerIf (w : AWire) (full : Prop) [Decidable full] (n : Nat) (bs : List Byte) : Option ((W × W) × List Byte) :=
  if full then w.answer n bs else some ((0, 0), bs)

/-- The message for one instruction. -/
def AWire.step (w : AWire) (c : ACnt) (op : AOp) (bs : List Byte) : Option (AMsg × ACnt × List Byte) :=
  match op with
  | .input _ => do
      let x ← w.extWord c.used bs
      some (⟨x.1, 0, 0⟩, { c with used := c.used + 1 }, x.2)
  | .mul _ _ => do
      let a ← w.answerIf (c.gates = w.checkSz) c.used bs
      let c' : ACnt := if c.gates = w.checkSz then { c with used := c.used + 1, gates := 0 } else c
      let x ← w.extWord c'.used a.2
      some (⟨x.1, a.1⟩, { c' with used := c'.used + 1, gates := c'.gates + 1 }, x.2)
  | .reveal _ => do
      let x ← AWire.word bs
      some (⟨x.1, 0, 0⟩, c, x.2)
  | .revealCheck _ _ => do
      let x ← AWire.word bs
      some (⟨x.1, 0, 0⟩, c, x.2)
  | .poly _ => do
      let a ← w.answerIf (w.polySz ≤ c.polys ∧ c.polys ≠ 0) c.used bs
      let c' : ACnt := if w.polySz ≤ c.polys ∧ c.polys ≠ 0 then { c with used := c.used + 1, polys := 0 } else c
      some (⟨0, a.1⟩, { c' with polys := c'.polys + 1 }, a.2)
  | .pub _ => some (⟨0, 0, 0⟩, c, bs)
  | .add _ _ => some (⟨0, 0, 0⟩, c, bs)
  | .mulc _ _ => some (⟨0, 0, 0⟩, c, bs)
  | .revealZero _ => some (⟨0, 0, 0⟩, c, bs)

/-- The messages for a program. -/
def AWire.run (w : AWire) : ACnt → List AOp → List Byte → Option (List AMsg × ACnt × List Byte)
  | c, [], bs => some ([], c, bs)
  | c, o :: os, bs => do
      let x ← w.step c o bs
      let y ← w.run x.2.1 os x.2.2
      some (x.1 :: y.1, y.2)

/-- The messages at the end. -/
def AWire.fin (w : AWire) (c : ACnt) (bs : List Byte) : Option (AFin × List Byte) := do
  let a ← w.answerIf (c.polys ≠ 0) c.used bs
  let b ← w.answerIf (c.gates ≠ 0) (if c.polys ≠ 0 then c.used + 1 else c.used) a.2
  let x ← takeN 32 b.2
  some (⟨a.1, b.1, decDig x.1⟩, x.2)

/-- The messages of a session and the bytes left. -/
def AWire.session (w : AWire) (ops : List AOp) (bs : List Byte) : Option (List AMsg × AFin × List Byte) := do
  let b ← skipExt (w.ext 0) bs
  let x ← w.run ⟨1, 0, 0⟩ ops b
  let y ← w.fin x.2.1 x.2.2
  some (x.1, y.1, y.2)

end EmpZk
