/-
Model of emp-zk/emp-vole/preot.h : precomputed oblivious transfer.

Arrays are functions from indices; every access outside `[0, n)` is the outcome `none`. The correlation-robust hash `ccrh`
(external) is an arbitrary function `H` applied to each block. The receiver's correction bits are sent as they are.
-/
import Verif.Model.Word

namespace EmpZk

/-- preot.h:7-34 `OTPre`, sending party: `pre_data[0..n)`, `pre_data[n..2n)`, `bits`, `count`. -/
structure PreSend where
  n : Nat
  length : Nat
  h0 : Nat → U128
  h1 : Nat → U128
  bits : Nat → Bool
  count : Nat

/-- preot.h:7-34 `OTPre`, receiving party: `pre_data[0..n)`, `bits`, `count`. -/
structure PreRecv where
  n : Nat
  length : Nat
  h : Nat → U128
  bits : Nat → Bool
  count : Nat

/-- preot.h:21-28 and 36-41 constructor and `send_pre`; `bits0` is the uninitialised array. -/
def sendPre (H : U128 → U128) (length times : Nat) (data : Nat → U128) (Delta : U128) (bits0 : Nat → Bool) : PreSend :=
  { n := length * times, length, h0 := fun i => H (data i), h1 := fun i => H (data i ^^^ Delta), bits := bits0, count := 0 }

/-- preot.h:21-28, 43-46 constructor and `recv_pre(data, b)`. -/
def recvPreB (H : U128 → U128) (length times : Nat) (data : Nat → U128) (b : Nat → Bool) : PreRecv :=
  { n := length * times, length, h := fun i => H (data i), bits := b, count := 0 }

/-- preot.h:21-28, 48-52 constructor and `recv_pre(data)`: the choice bits are the low bits. -/
def recvPre (H : U128 → U128) (length times : Nat) (data : Nat → U128) : PreRecv :=
  recvPreB H length times data (fun i => (data i).getLsbD 0)

/-- preot.h:59-65 `choices_recver`: new state and the bits sent. -/
def choicesRecver (st : PreRecv) (b : Nat → Bool) : Option (PreRecv × (Nat → Bool)) :=
  if st.count + st.length ≤ st.n then
    let bits := fun k => if st.count ≤ k ∧ k < st.count + st.length then b (k - st.count) != st.bits k else st.bits k
    some ({ st with bits, count := st.count + st.length }, fun i => bits (st.count + i))
  else none

/-- preot.h:54-57 `choices_sender`: `msg` are the received bits. -/
def choicesSender (st : PreSend) (msg : Nat → Bool) : Option PreSend :=
  if st.count + st.length ≤ st.n then
    some { st with bits := fun k => if st.count ≤ k ∧ k < st.count + st.length then msg (k - st.count) else st.bits k,
                   count := st.count + st.length }
  else none

/-- preot.h:67 `reset`, receiver. -/
def PreRecv.reset (st : PreRecv) : PreRecv := { st with count := 0 }
/-- preot.h:67 `reset`, sender. -/
def PreSend.reset (st : PreSend) : PreSend := { st with count := 0 }

/-- preot.h:69-84 `send(m0, m1, length, io2, s)`: the pairs of pads sent, by position. -/
def otSend (st : PreSend) (m0 m1 : Nat → U128) (length s : Nat) : Option (Nat → U128 × U128) :=
  if s * length + length ≤ st.n then
    some (fun i =>
      let k := s * length + i
      if !st.bits k then (m0 i ^^^ st.h0 k, m1 i ^^^ st.h1 k) else (m0 i ^^^ st.h1 k, m1 i ^^^ st.h0 k))
  else none

/-- preot.h:86-96 `recv(data, b, length, io2, s)`. -/
def otRecv (st : PreRecv) (b : Nat → Bool) (length s : Nat) (pads : Nat → U128 × U128) : Option (Nat → U128) :=
  if s * length + length ≤ st.n then
    some (fun i =>
      let k := s * length + i
      st.h k ^^^ (if b i then (pads i).2 else (pads i).1))
  else none

/-- mpfss_reg.h:87-96: the choice rounds of the first `t` trees, both parties; `b s` are the choices of tree `s`. -/
def choiceRounds (b : Nat → Nat → Bool) : Nat → PreSend × PreRecv → Option (PreSend × PreRecv)
  | 0, st => some st
  | t + 1, st => do
    let (s, r) ← choiceRounds b t st
    let (r, msg) ← choicesRecver r (b t)
    let s ← choicesSender s msg
    some (s, r)

end EmpZk
