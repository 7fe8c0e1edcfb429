/-
Two parties connected by two byte streams. A party sends bytes, waits for a given number of bytes, or is finished; this is how the code
uses `io->send_data` and `io->recv_data` (for instance emp-zk-arith/ostriple.h:75, 98). The streams are those of the underlying channel
(external): reliable, first in first out, unbounded. BoolIO passes `send_data` and `recv_data` on to it (bool_io.h:64-74).
Simplification: `io->flush()` does nothing here; the underlying channel is taken to push its buffers out when an endpoint waits, as in
`Verif.Model.BoolIO`.
-/
import Verif.Model.BoolIO

namespace EmpZk

/-- A party: `done a` has returned `a`, `fail` has performed an undefined operation, `send` is `io->send_data`, `recv` is
`io->recv_data` (bool_io.h:64-74). -/
inductive Proc (α : Type) where
  | done (a : α)
  | fail
  | send (bs : List Byte) (k : Proc α)
  | recv (n : Nat) (k : List Byte → Proc α)

namespace Proc

/-- Sequential composition (statements in the code) (e.g. emp-zk-arith/ostriple.h:69-77). -/
def bind {α β : Type} : Proc α → (α → Proc β) → Proc β
  | .done a, f => f a
  | .fail, _ => .fail
  | .send bs k, f => .send bs (k.bind f)
  | .recv n k, f => .recv n (fun bs => (k bs).bind f)

instance : Monad Proc where
  pure := Proc.done
  bind := Proc.bind

/-- A computation without communication; `none` is an undefined operation (e.g. emp-zk-arith/ostriple.h:263-290). -/
def ofOpt {α : Type} : Option α → Proc α
  | some a => .done a
  | none => .fail

/-- `io->send_data(bs, len)` (bool_io.h:64-68). -/
def put (bs : List Byte) : Proc Unit := .send bs (.done ())

/-- `io->recv_data(_, n)` (bool_io.h:70-74). -/
def get (n : Nat) : Proc (List Byte) := .recv n .done

/-- One side of a fixed exchange: a list of byte strings with their sender. Used for the messages of `VoleTriple::extend`
(vole_triple.h:216-255), whose results are taken from the environment of the session. -/
def script (me : Bool) : List (Bool × List Byte) → Proc Unit
  | [] => .done ()
  | (b, bs) :: l => if b = me then .send bs (script me l) else .recv bs.length (fun _ => script me l)

end Proc

/-- Both parties and the bytes on their way: `pq` from the first to the second, `qp` back (bool_io.h:64-74). -/
structure Duo (α β : Type) where
  p : Proc α
  q : Proc β
  pq : List Byte
  qp : List Byte

/-- One step of the first party; `none`: it is finished or has to wait (bool_io.h:64-74). -/
def Duo.stepP {α β : Type} (c : Duo α β) : Option (Duo α β) :=
  match c.p with
  | .send bs k => some ⟨k, c.q, c.pq ++ bs, c.qp⟩
  | .recv n k => if n ≤ c.qp.length then some ⟨k (c.qp.take n), c.q, c.pq, c.qp.drop n⟩ else none
  | _ => none

/-- One step of the second party (bool_io.h:64-74). -/
def Duo.stepQ {α β : Type} (c : Duo α β) : Option (Duo α β) :=
  match c.q with
  | .send bs k => some ⟨c.p, k, c.pq, c.qp ++ bs⟩
  | .recv n k => if n ≤ c.pq.length then some ⟨c.p, k (c.pq.take n), c.pq.drop n, c.qp⟩ else none
  | _ => none

/-- One step of either party: the parties run concurrently (the two processes of bool_io.h:64-74). -/
def Duo.Step {α β : Type} (c c' : Duo α β) : Prop := c.stepP = some c' ∨ c.stepQ = some c'

/-- `n` steps, in any order (the two processes of bool_io.h:64-74). -/
inductive Duo.Reach {α β : Type} : Nat → Duo α β → Duo α β → Prop where
  | refl (c) : Reach 0 c c
  | step {n c c' f} (h : Duo.Step c c') (t : Reach n c' f) : Reach (n + 1) c f

/-- A party alone on the bytes `bs` that arrive, whoever sent them: what it returns and the bytes left over (bool_io.h:70-74). -/
inductive Proc.Out (α : Type) where
  | waits
  | fails
  | ends (a : α) (rest : List Byte)

/-- A party alone on arriving bytes (its own sends have no effect on it) (bool_io.h:64-74). -/
def Proc.on {α : Type} : Proc α → List Byte → Proc.Out α
  | .done a, bs => .ends a bs
  | .fail, _ => .fails
  | .send _ k, bs => k.on bs
  | .recv n k, bs => if n ≤ bs.length then (k (bs.take n)).on (bs.drop n) else .waits

end EmpZk
