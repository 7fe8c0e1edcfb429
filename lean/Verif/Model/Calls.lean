/-
Two programs that talk through the endpoints of `Verif.Model.BoolIO` (emp-zk/emp-zk-bool/bool_io.h): each computes with what its calls
return and decides with it which call to make next.
-/
import Verif.Model.BoolIO

namespace EmpZk

/-- A program on the sending endpoint: `k` gets the byte string the call returns (`recv_data` bool_io.h:70-74, `get_hash_block` 39-43;
nothing for the other calls). `fail` is an undefined operation, `stop` a call of `error` (emp-tool: prints and exits). -/
inductive SProg (α : Type) where
  | done (a : α)
  | fail
  | stop
  | call (o : SOp) (k : List Byte → SProg α)

/-- A program on the receiving endpoint: `k` gets the bit or the byte string the call returns (bool_io.h:39-43, 54-62, 70-74). -/
inductive RProg (α : Type) where
  | done (a : α)
  | fail
  | stop
  | call (o : ROp) (k : Bool → List Byte → RProg α)

namespace SProg

/-- Statements one after the other (e.g. emp-zk-bool/ostriple.h:95-103). -/
def bind {α β : Type} : SProg α → (α → SProg β) → SProg β
  | .done a, f => f a
  | .fail, _ => .fail
  | .stop, _ => .stop
  | .call o k, f => .call o (fun x => (k x).bind f)

instance : Monad SProg where
  pure := .done
  bind := SProg.bind

/-- A computation without communication; `none` is an undefined operation (e.g. emp-zk-bool/ostriple.h:152-170). -/
def ofOpt {α : Type} : Option α → SProg α
  | some a => .done a
  | none => .fail

/-- Calls whose results are not used (bool_io.h:26-52, 64-74). -/
def calls : List SOp → SProg Unit
  | [] => .done ()
  | o :: l => .call o (fun _ => calls l)

end SProg

namespace RProg

/-- Statements one after the other (e.g. emp-zk-bool/ostriple.h:95-103). -/
def bind {α β : Type} : RProg α → (α → RProg β) → RProg β
  | .done a, f => f a
  | .fail, _ => .fail
  | .stop, _ => .stop
  | .call o k, f => .call o (fun x y => (k x y).bind f)

instance : Monad RProg where
  pure := .done
  bind := RProg.bind

/-- A computation without communication; `none` is an undefined operation (e.g. emp-zk-bool/ostriple.h:152-170). -/
def ofOpt {α : Type} : Option α → RProg α
  | some a => .done a
  | none => .fail

/-- Calls whose results are not used (bool_io.h:26-52, 64-74). -/
def calls : List ROp → RProg Unit
  | [] => .done ()
  | o :: l => .call o (fun _ _ => calls l)

end RProg

/-- What a finished call on the sending endpoint returned (bool_io.h:39-43, 70-74): the newest entry. -/
def sndRet (s : SndSt) : SOp → List Byte
  | .hash => s.digests.getLastD []
  | .back _ => s.got.getLastD []
  | _ => []

/-- What a finished call on the receiving endpoint returned (bool_io.h:39-43, 54-62, 70-74). -/
def rcvRetB (r : RcvSt) : ROp → Bool
  | .bit => r.bits.getLastD false
  | _ => false

/-- The same for byte strings (bool_io.h:39-43, 70-74). -/
def rcvRetD (r : RcvSt) : ROp → List Byte
  | .data _ => r.datas.getLastD []
  | .hash => r.digests.getLastD []
  | _ => []

/-- Two programs, their endpoints and the bytes in transit (bool_io.h:6-21). -/
structure PNet (α β : Type) where
  p : SProg α
  snd : SndSt
  toR : List Byte
  toS : List Byte
  rcv : RcvSt
  q : RProg β

/-- One step of the program on the sending endpoint; see `stepS` (bool_io.h:45-52, 64-74). -/
def stepP {α β : Type} (S : Nat) (c : PNet α β) : Option (PNet α β) :=
  match c.p with
  | .call o k =>
    match stepS S ⟨c.snd, [o], c.toR, c.toS, c.rcv, []⟩ with
    | none => none
    | some n => some ⟨if n.sops = [] then k (sndRet n.snd o) else .call o k, n.snd, n.toR, n.toS, c.rcv, c.q⟩
  | _ => none

/-- One step of the program on the receiving endpoint; see `stepR` (bool_io.h:54-74). -/
def stepQ {α β : Type} (S : Nat) (c : PNet α β) : RecvRes (PNet α β) :=
  match c.q with
  | .call o k =>
    match stepR S ⟨c.snd, [], c.toR, c.toS, c.rcv, [o]⟩ with
    | .blocked => .blocked
    | .ub => .ub
    | .ok n => .ok ⟨c.p, c.snd, n.toR, n.toS, n.rcv, k (rcvRetB n.rcv o) (rcvRetD n.rcv o)⟩
  | _ => .blocked

/-- Both programs before the first step (bool_io.h:15-21; the receiver's array is uninitialised: `junk`). -/
def pnetInit {α β : Type} (S : Nat) (junk : List Byte) (p : SProg α) (q : RProg β) : PNet α β :=
  ⟨p, ⟨[], [], [], []⟩, [], [], ⟨junk, S, [], [], [], []⟩, q⟩

/-- Configurations reachable under some schedule of the two programs (bool_io.h:45-74). -/
inductive PReach {α β : Type} (S : Nat) (c0 : PNet α β) : PNet α β → Prop where
  | init : PReach S c0 c0
  | sndStep {c c'} : PReach S c0 c → stepP S c = some c' → PReach S c0 c'
  | rcvStep {c c'} : PReach S c0 c → stepQ S c = .ok c' → PReach S c0 c'

end EmpZk
