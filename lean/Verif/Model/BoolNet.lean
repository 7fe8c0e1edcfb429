/-
A whole boolean proof over the byte channel: the session of `Verif.Model.BoolSession` with every message passed through
the endpoints of `Verif.Model.BoolIO` (emp-zk/emp-zk-bool/ostriple.h, polynomial.h, triple_auth.h, bool_io.h).

Each party makes calls on its endpoint in the order of the code and computes with what its calls return: the prover with
the byte strings received (seeds of polynomial.h:51) and the digests of its own endpoint, the verifier with the bits, byte
strings and digests of its endpoint.
Simplification: a `flush` directly after `send_data` or `recv_data` on the same endpoint is left out where only one party
calls it (polynomial.h:73, 78, triple_auth.h:38): nothing is buffered then (`flush_after_data_snd`,
`flush_after_data_rcv` in `Verif.Lemmas.BoolNet`).
-/
import Verif.Model.BoolSession
import Verif.Model.BoolIO

namespace EmpZk

section
variable {F : Type} [Field F] [BlockField F]

/-- What a session over the network takes from outside: the message-level environment (its `chal` is not used), the seeds
derived from a digest (ostriple.h:146-151: `PRG(get_hash_block())`), the memory representation of a block (16 bytes) and
of the digest of triple_auth.h:34, and the calls which `FerretCOT::rcot` (external) makes on the two endpoints when it is
asked for `n` outputs after `used` ones. -/
structure NetEnv (F : Type) where
  e : BEnv F
  seeds : List Byte → Nat → F
  enc : F → List Byte
  dec : List Byte → F
  encD : F → List Byte
  decD : List Byte → F
  extP : Nat → Nat → List SOp
  extV : Nat → Nat → List ROp

/-- The environment of one check: the challenge is derived from the digest `d` (ostriple.h:146-151), the seed of a
polynomial check is `sd` (polynomial.h:46). -/
def NetEnv.env (ne : NetEnv F) (d : List Byte) (sd : F) : BEnv F :=
  { ne.e with chal := fun _ _ => ne.seeds d, polySeed := fun _ => sd }

/-- Two blocks in memory (ostriple.h:192, polynomial.h:72). -/
def NetEnv.enc2 (ne : NetEnv F) (a : F × F) : List Byte := ne.enc a.1 ++ ne.enc a.2

/-- ostriple.h:200-201, polynomial.h:88: two blocks read from memory. -/
def NetEnv.dec2 (ne : NetEnv F) (l : List Byte) : F × F := (ne.dec (l.take 16), ne.dec (l.drop 16))

/-! ### prover -/

/-- The prover: its state, its endpoint, the calls made so far, and the byte strings its endpoint is going to return
(emp-zk-bool/ostriple.h:11-66, bool_io.h:8-21). -/
structure PrvNet (F : Type) where
  st : PrvSt F
  io : SndSt
  calls : List SOp
  got : List (List Byte)

/-- Calls on the prover's endpoint (bool_io.h:26-52, 64-74). -/
def PrvNet.call (S : Nat) (n : PrvNet F) (l : List SOp) : PrvNet F :=
  { n with io := sndRun S n.io l, calls := n.calls ++ l }

/-- Number of byte strings returned by a sequence of calls on the sending endpoint (bool_io.h:70-74). -/
def sndBacks (l : List SOp) : Nat := l.countP (fun o => match o with | .back _ => true | _ => false)

/-- `ferret->rcot(_, k)` (external): the calls it makes; `none` if a byte string it waits for never comes
(emp-zk-bool/ostriple.h:55, 96, 123, 172). -/
def PrvNet.rcot (ne : NetEnv F) (S : Nat) (n : PrvNet F) (used k : Nat) : Option (PrvNet F) :=
  if n.got.length < sndBacks (ne.extP used k) then none
  else some ({ n with got := n.got.drop (sndBacks (ne.extP used k)) }.call S (ne.extP used k))

/-- ostriple.h:144-211 `andgate_correctness_check_manage`, prover. -/
def pnAndCheck (ne : NetEnv F) (S : Nat) (n : PrvNet F) : Option (PrvNet F) := do
  let d := (sndFlush S n.io).1.hashed
  let n1 ← (n.call S [.hash]).rcot ne S n.st.used 128
  let r ← prvAndCheck (ne.env d 0) n1.st
  some ({ n1 with st := r.1 }.call S [.data (ne.enc2 r.2), .flush])

/-- polynomial.h:42-97 `batch_check`, prover. -/
def pnPolyCheck (ne : NetEnv F) (S : Nat) (n : PrvNet F) : Option (PrvNet F) :=
  match n.got with
  | [] => none
  | sd :: g => do
    let n1 ← ({ n with got := g }.call S [.back 16]).rcot ne S n.st.used 128
    let r := prvPolyCheck (ne.env [] (ne.dec sd)) n1.st
    some ({ n1 with st := r.1 }.call S [.data (ne.enc2 r.2)])

/-- ostriple.h:118-121, prover: run the check when the buffers are full. -/
def pnAndRoom (ne : NetEnv F) (S : Nat) (n : PrvNet F) : Option (PrvNet F) :=
  if n.st.gates.length = ne.e.checkSz then pnAndCheck ne S n else some n

/-- polynomial.h:101-102 (and 151-152, 196-197, 263-264, 352-353), prover: run the check when the buffers are full. -/
def pnPolyRoom (ne : NetEnv F) (S : Nat) (n : PrvNet F) : Option (PrvNet F) :=
  if n.st.polys.length ≥ ne.e.polySz ∧ n.st.polys ≠ [] then pnPolyCheck ne S n else some n

/-- polynomial.h:35-36, 43-44, prover. -/
def pnFinPoly (ne : NetEnv F) (S : Nat) (n : PrvNet F) : Option (PrvNet F) :=
  if n.st.polys ≠ [] then pnPolyCheck ne S n else some n

/-- ostriple.h:69-71, prover. -/
def pnFinAnd (ne : NetEnv F) (S : Nat) (n : PrvNet F) : Option (PrvNet F) :=
  if n.st.gates ≠ [] then pnAndCheck ne S n else some n

/-- One instruction of the prover: ostriple.h:95-111 (input), 116-140 (AND), 261-274 (reveal), polynomial.h:99-414. -/
def netStepP (ne : NetEnv F) (S : Nat) (n : PrvNet F) (op : BOp) : Option (PrvNet F) :=
  match op with
  | .input b => do
      let n1 ← n.rcot ne S n.st.used 1
      let r ← prvStep ne.e n1.st (.input b)
      some ({ n1 with st := r.1 }.call S [.bit r.2.bit])
  | .and i j => do
      let a ← n.st.wires[i]?
      let b ← n.st.wires[j]?
      let n1 ← pnAndRoom ne S n
      let n2 ← n1.rcot ne S n1.st.used 1
      let q ← prvAndPush ne.e n2.st a b
      some ({ n2 with st := q.1 }.call S [.bit q.2])
  | .reveal i => do
      let r ← prvStep ne.e n.st (.reveal i)
      some ({ n with st := r.1 }.call S [.bit r.2.bit])
  | .poly s => do
      let p ← s.lookup n.st.wires
      let n1 ← pnPolyRoom ne S n
      let q ← prvPolyPush ne.e n1.st p
      some { n1 with st := q }
  | .pub b => do
      let r ← prvStep ne.e n.st (.pub b)
      some { n with st := r.1 }
  | .xor i j => do
      let r ← prvStep ne.e n.st (.xor i j)
      some { n with st := r.1 }
  | .not i => do
      let r ← prvStep ne.e n.st (.not i)
      some { n with st := r.1 }

/-- zk_prover.h:43-46, ostriple.h:68-73, triple_auth.h:33-38, bool_io.h:22-23 (the endpoint is flushed when deleted). -/
def netFinP (ne : NetEnv F) (S : Nat) (n : PrvNet F) : Option (PrvNet F) := do
  let n1 ← pnFinPoly ne S n
  let n2 ← pnFinAnd ne S n1
  some (n2.call S [.data (ne.encD (ne.e.hash n2.st.digest)), .flush])

/-- All instructions of the program (the circuit of the user) (emp-zk-bool/ostriple.h:95-142, 261-290). -/
def netRunP (ne : NetEnv F) (S : Nat) : PrvNet F → List BOp → Option (PrvNet F)
  | n, [] => some n
  | n, o :: os => do
      let n1 ← netStepP ne S n o
      netRunP ne S n1 os

/-- bool_io.h:15-18 and ostriple.h:33-66 (the constructor asks for one correlation): a whole prover, whose endpoint
returns the byte strings `got`. -/
def netSessionP (ne : NetEnv F) (S : Nat) (ops : List BOp) (got : List (List Byte)) : Option (PrvNet F) := do
  let n0 ← PrvNet.rcot ne S ⟨PrvSt.init, ⟨[], [], [], []⟩, [], got⟩ 0 1
  let n1 ← netRunP ne S n0 ops
  netFinP ne S n1

/-! ### verifier -/

/-- The verifier: its state, what its endpoint is going to return (bits, byte strings, digests), the calls made so far
(emp-zk-bool/ostriple.h:11-66, bool_io.h:8-21). -/
structure VerNet (F : Type) where
  st : VerSt F
  bits : List Bool
  datas : List (List Byte)
  digs : List (List Byte)
  calls : List ROp

/-- Numbers of bits, byte strings and digests returned by a sequence of calls (bool_io.h:39-43, 54-62, 70-74). -/
def rcvBits (l : List ROp) : Nat := l.countP (fun o => match o with | .bit => true | _ => false)
/-- Number of byte strings consumed by a sequence of calls on the receiving endpoint (bool_io.h:70-74). -/
def rcvDatas (l : List ROp) : Nat := l.countP (fun o => match o with | .data _ => true | _ => false)
/-- Number of digests consumed by a sequence of calls on the receiving endpoint (bool_io.h:39-43). -/
def rcvDigs (l : List ROp) : Nat := l.countP (fun o => match o with | .hash => true | _ => false)

/-- `ferret->rcot(_, k)` (external): the calls it makes (emp-zk-bool/ostriple.h:55, 96, 123, 195). -/
def VerNet.rcot (ne : NetEnv F) (v : VerNet F) (used k : Nat) : Option (VerNet F) :=
  let l := ne.extV used k
  if v.bits.length < rcvBits l ∨ v.datas.length < rcvDatas l ∨ v.digs.length < rcvDigs l then none
  else some { v with bits := v.bits.drop (rcvBits l), datas := v.datas.drop (rcvDatas l),
                     digs := v.digs.drop (rcvDigs l), calls := v.calls ++ l }

/-- bool_io.h:54-62. -/
def VerNet.bit (v : VerNet F) : Option (Bool × VerNet F) :=
  match v.bits with
  | [] => none
  | b :: B => some (b, { v with bits := B, calls := v.calls ++ [.bit] })

/-- bool_io.h:70-74. -/
def VerNet.data (v : VerNet F) (n : Nat) : Option (List Byte × VerNet F) :=
  match v.datas with
  | [] => none
  | d :: D => some (d, { v with datas := D, calls := v.calls ++ [.data n] })

/-- ostriple.h:145-146, bool_io.h:39-43. -/
def VerNet.hash (v : VerNet F) : Option (List Byte × VerNet F) :=
  match v.digs with
  | [] => none
  | d :: D => some (d, { v with digs := D, calls := v.calls ++ [.hash] })

variable [DecidableEq F]

/-- ostriple.h:144-211 `andgate_correctness_check_manage`, verifier. -/
def vnAndCheck (ne : NetEnv F) (v : VerNet F) : Option (VerNet F) := do
  let (d, v1) ← v.hash
  let v2 ← v1.rcot ne v1.st.used 128
  let (bs, v3) ← v2.data 32
  let s ← verAndCheck (ne.env d 0) v3.st (ne.dec2 bs)
  some { v3 with st := s, calls := v3.calls ++ [.flush] }

/-- polynomial.h:42-97 `batch_check`, verifier. -/
def vnPolyCheck (ne : NetEnv F) (v : VerNet F) : Option (VerNet F) := do
  let sd := ne.e.polySeed v.st.polyBatches
  let v2 ← VerNet.rcot ne { v with calls := v.calls ++ [.back (ne.enc sd)] } v.st.used 128
  let (bs, v3) ← v2.data 32
  some { v3 with st := verPolyCheck (ne.env [] sd) v3.st (ne.dec2 bs) }

/-- ostriple.h:118-121, verifier. -/
def vnAndRoom (ne : NetEnv F) (v : VerNet F) : Option (VerNet F) :=
  if v.st.gates.length = ne.e.checkSz then vnAndCheck ne v else some v

/-- polynomial.h:101-102 (and 151-152, 196-197, 263-264, 352-353), verifier. -/
def vnPolyRoom (ne : NetEnv F) (v : VerNet F) : Option (VerNet F) :=
  if v.st.polys.length ≥ ne.e.polySz ∧ v.st.polys ≠ [] then vnPolyCheck ne v else some v

/-- polynomial.h:35-36, 43-44, verifier. -/
def vnFinPoly (ne : NetEnv F) (v : VerNet F) : Option (VerNet F) :=
  if v.st.polys ≠ [] then vnPolyCheck ne v else some v

/-- ostriple.h:69-71, verifier. -/
def vnFinAnd (ne : NetEnv F) (v : VerNet F) : Option (VerNet F) :=
  if v.st.gates ≠ [] then vnAndCheck ne v else some v

/-- One instruction of the verifier: ostriple.h:95-111, 116-140, 261-274, polynomial.h:99-414. -/
def netStepV (ne : NetEnv F) (v : VerNet F) (op : BOp) : Option (VerNet F) :=
  match op with
  | .input b => do
      let v1 ← v.rcot ne v.st.used 1
      let (d, v2) ← v1.bit
      let s ← verStep ne.e v2.st ⟨d, 0, 0⟩ (.input b)
      some { v2 with st := s }
  | .and i j => do
      let a ← v.st.wires[i]?
      let b ← v.st.wires[j]?
      let v1 ← vnAndRoom ne v
      let v2 ← v1.rcot ne v1.st.used 1
      let (d, v3) ← v2.bit
      let s ← verAndPush ne.e v3.st a b d
      some { v3 with st := s }
  | .reveal i => do
      let (d, v1) ← v.bit
      let s ← verStep ne.e v1.st ⟨d, 0, 0⟩ (.reveal i)
      some { v1 with st := s }
  | .poly p => do
      let q ← p.lookup v.st.wires
      let v1 ← vnPolyRoom ne v
      let s ← verPolyPush ne.e v1.st q
      some { v1 with st := s }
  | .pub b => do
      let s ← verStep ne.e v.st ⟨false, 0, 0⟩ (.pub b)
      some { v with st := s }
  | .xor i j => do
      let s ← verStep ne.e v.st ⟨false, 0, 0⟩ (.xor i j)
      some { v with st := s }
  | .not i => do
      let s ← verStep ne.e v.st ⟨false, 0, 0⟩ (.not i)
      some { v with st := s }

/-- zk_verifier.h:55-58, ostriple.h:68-73, triple_auth.h:39-43, bool_io.h:22-23. -/
def netFinV (ne : NetEnv F) (v : VerNet F) : Option (VerNet F) := do
  let v1 ← vnFinPoly ne v
  let v2 ← vnFinAnd ne v1
  let (bs, v3) ← v2.data 32
  some { v3 with st := verFinHash ne.e v3.st (ne.decD bs), calls := v3.calls ++ [.flush] }

/-- All instructions of the program (the circuit of the user) (emp-zk-bool/ostriple.h:95-142, 261-290). -/
def netRunV (ne : NetEnv F) : VerNet F → List BOp → Option (VerNet F)
  | v, [] => some v
  | v, o :: os => do
      let v1 ← netStepV ne v o
      netRunV ne v1 os

/-- bool_io.h:15-20 and ostriple.h:33-66: a whole verifier, whose endpoint returns the given bits, byte strings and
digests. -/
def netSessionV (ne : NetEnv F) (ops : List BOp) (bits : List Bool) (datas digs : List (List Byte)) :
    Option (VerNet F) := do
  let v0 ← VerNet.rcot ne ⟨VerSt.init, bits, datas, digs, []⟩ 0 1
  let v1 ← netRunV ne v0 ops
  netFinV ne v1

end
end EmpZk
