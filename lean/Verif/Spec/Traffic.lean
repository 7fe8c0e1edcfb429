/-
Specification of the traffic of a party: how many bytes its calls put on the wire and how it ends, when the other party's bytes are given; and
of a run over the network together with the sizes of the pieces sent so far.
-/
import Verif.Model.Calls

namespace EmpZk

/-- How a program at its endpoint ends: it returns, performs an undefined operation, calls `error`, or waits for bytes that do not come. -/
inductive Ending where
  | returned
  | undefined
  | stopped
  | waiting
  deriving DecidableEq

/-- A piece of `n` bytes in front of a list of pieces; pieces of no bytes do not show. -/
def piece (n : Nat) (l : List Nat) : List Nat := if n = 0 then l else n :: l

/-- The traffic of a program on the sending endpoint when `recv_data` returns the strings `got` one after the other: the sizes of the pieces it
puts on the wire, call by call, and its end. -/
def traffic {α : Type} (S : Nat) : SProg α → SndSt → List (List Byte) → List Nat × Ending
  | .done _, _, _ => ([], .returned)
  | .fail, _, _ => ([], .undefined)
  | .stop, _, _ => ([], .stopped)
  | .call o k, s, got =>
    match o, got with
    | .bit b, gs =>
      let r := traffic S (k []) (sendBit S s b).1 gs
      (piece (sendBit S s b).2.length r.1, r.2)
    | .flush, gs =>
      let r := traffic S (k []) (sndFlush S s).1 gs
      (piece (sndFlush S s).2.length r.1, r.2)
    | .data bs, gs =>
      let r := traffic S (k []) (sndFlush S s).1 gs
      (piece ((sndFlush S s).2.length + bs.length) r.1, r.2)
    | .hash, gs =>
      let r := traffic S (k (sndFlush S s).1.hashed)
        { (sndFlush S s).1 with hashed := [], digests := (sndFlush S s).1.digests ++ [(sndFlush S s).1.hashed] } gs
      (piece (sndFlush S s).2.length r.1, r.2)
    | .back _, [] => (piece (sndFlush S s).2.length [], .waiting)
    | .back _, g :: gs =>
      let r := traffic S (k g) { (sndFlush S s).1 with got := (sndFlush S s).1.got ++ [g] } gs
      (piece (sndFlush S s).2.length r.1, r.2)

/-- The traffic of a program from the start. -/
def trafficOf {α : Type} (S : Nat) (p : SProg α) (got : List (List Byte)) : List Nat × Ending := traffic S p ⟨[], [], [], []⟩ got

/-- Configurations reachable under some schedule, with the sizes of the pieces the first program has put on the wire so far. -/
inductive PSent {α β : Type} (S : Nat) (c0 : PNet α β) : List Nat → PNet α β → Prop where
  | init : PSent S c0 [] c0
  | sndStep {l c c'} : PSent S c0 l c → stepP S c = some c' → PSent S c0 (l ++ piece (c'.toR.length - c.toR.length) []) c'
  | rcvStep {l c c'} : PSent S c0 l c → stepQ S c = .ok c' → PSent S c0 l c'

/-- The kind of a call and the number of bytes it moves. -/
inductive Kind where
  | bit
  | flush
  | data (n : Nat)
  | hash
  | back (n : Nat)

/-- The kind of a call. -/
def SOp.kind : SOp → Kind
  | .bit _ => .bit
  | .flush => .flush
  | .data bs => .data bs.length
  | .hash => .hash
  | .back n => .back n

/-- The call returns bytes of the other party. -/
def Kind.fromPeer : Kind → Prop
  | .back _ => True
  | _ => False

end EmpZk
