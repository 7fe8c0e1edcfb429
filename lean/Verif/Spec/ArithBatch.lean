/-
Specification of batched calls: the same single calls one after the other.
-/
import Verif.Model.ArithBatch
import Verif.Spec.ArithWire

namespace EmpZk

/-- A batched call as single calls. -/
def ACall.ops : ACall → List AOp
  | .one o => [o]
  | .feed ws => ws.map .input
  | .reveal is => is.map .reveal
  | .check is => is.map fun p => .revealCheck p.1 p.2
  | .zero is => is.map .revealZero

/-- A word as message of a single call. -/
def AMsg.ofW (w : W) : AMsg := ⟨w, 0, 0⟩

/-- The message of a call as messages of the single calls; `none`: it has another shape. -/
def ACall.flat : ACall → ACallMsg → Option (List AMsg)
  | .one _, .one m => some [m]
  | .feed ws, .words xs => if xs.length = ws.length then some (xs.map AMsg.ofW) else none
  | .reveal is, .words xs => if xs.length = is.length then some (xs.map AMsg.ofW) else none
  | .check is, .words xs => if xs.length = is.length then some (xs.map AMsg.ofW) else none
  | .zero is, .words xs => if xs.length = 0 then some (is.map fun _ => AMsg.ofW 0) else none
  | _, _ => none

/-- The messages of a program of calls as messages of the single calls. -/
def flatCalls : List ACall → List ACallMsg → Option (List AMsg)
  | [], [] => some []
  | c :: cs, m :: ms => do
      let x ← c.flat m
      let y ← flatCalls cs ms
      some (x ++ y)
  | _, _ => none

/-- A program of calls as a program of single calls. -/
def callOps (cs : List ACall) : List AOp := cs.flatMap ACall.ops

/-- Wire format of a session with batched calls. -/
structure AWireB where
  wire : AWire
  extB : Nat → Nat → List (Bool × List Byte)

/-- `n` words. -/
def AWireB.words (n : Nat) (bs : List Byte) : Option (List AMsg × List Byte) := do
  let x ← takeN (8 * n) bs
  some ((decWs n x.1).map AMsg.ofW, x.2)

/-- The messages in one call: all VOLE outputs of a batched call are made before its words come. -/
def AWireB.step (w : AWireB) (c : ACnt) (call : ACall) (bs : List Byte) : Option (List AMsg × ACnt × List Byte) :=
  match call with
  | .one o => do
      let x ← w.wire.step c o bs
      some ([x.1], x.2)
  | .feed ws => do
      let b ← skipExt (w.extB c.used ws.length) bs
      let x ← AWireB.words ws.length b
      some (x.1, { c with used := c.used + ws.length }, x.2)
  | .reveal is => do
      let x ← AWireB.words is.length bs
      some (x.1, c, x.2)
  | .check is => do
      let x ← AWireB.words is.length bs
      some (x.1, c, x.2)
  | .zero is => some (is.map fun _ => AMsg.ofW 0, c, bs)

/-- The messages in a program. -/
def AWireB.run (w : AWireB) : ACnt → List ACall → List Byte → Option (List AMsg × ACnt × List Byte)
  | c, [], bs => some ([], c, bs)
  | c, o :: os, bs => do
      let x ← w.step c o bs
      let y ← w.run x.2.1 os x.2.2
      some (x.1 ++ y.1, y.2)

/-- The messages of a session, as messages of the single calls, and the bytes left. -/
def AWireB.session (w : AWireB) (cs : List ACall) (bs : List Byte) : Option (List AMsg × AFin × List Byte) := do
  let b ← skipExt (w.wire.ext 0) bs
  let x ← w.run ⟨1, 0, 0⟩ cs b
  let y ← w.wire.fin x.2.1 x.2.2
  some (x.1, y.1, y.2)

end EmpZk
