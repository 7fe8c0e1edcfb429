/-
The receiving endpoint of emp-zk/emp-zk-bool/bool_io.h against an adversary: the other end may deliver any bytes at any
time, also depending on what it has been sent so far.
-/
import Verif.Model.BoolNet

namespace EmpZk

/-- Configurations reachable when the bytes of the other end are arbitrary: the receiving endpoint makes its calls
(bool_io.h:34, 39-43, 54-74), the adversary appends bytes to those in transit. -/
inductive ReachAdv (S : Nat) (c0 : Net) : Net → Prop where
  | init : ReachAdv S c0 c0
  | adv {c} (w : List Byte) : ReachAdv S c0 c → ReachAdv S c0 { c with toR := c.toR ++ w }
  | rcvStep {c c'} : ReachAdv S c0 c → stepR S c = .ok c' → ReachAdv S c0 c'

/-- One call on the receiving endpoint alone (bool_io.h:34, 39-43, 54-74), as in `stepR`: new state and bytes left in
transit. -/
def rcvOne (S : Nat) (r : RcvSt) (w : List Byte) (o : ROp) : RecvRes (RcvSt × List Byte) :=
  match stepR S ⟨⟨[], [], [], []⟩, [], w, [], r, [o]⟩ with
  | .ok c => .ok (c.rcv, c.toR)
  | .blocked => .blocked
  | .ub => .ub

/-- A sequence of calls on the receiving endpoint (bool_io.h:34, 39-43, 54-74) when the bytes `w` are delivered. -/
def rcvRun (S : Nat) : RcvSt → List Byte → List ROp → RecvRes (RcvSt × List Byte)
  | r, w, [] => .ok (r, w)
  | r, w, o :: l =>
    match rcvOne S r w o with
    | .ok (r', w') => rcvRun S r' w' l
    | .blocked => .blocked
    | .ub => .ub

/-- bool_io.h:15-21: the receiving endpoint after construction (the array is uninitialised: `junk`). -/
def rcvInit (S : Nat) (junk : List Byte) : RcvSt := ⟨junk, S, [], [], [], []⟩

end EmpZk
