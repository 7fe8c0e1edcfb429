/-
The prover of a boolean proof as a party on the network: the prover of `Verif.Model.BoolNet` written as an interactive program, so that
its peer may react to what it has seen so far (emp-zk/emp-zk-bool/ostriple.h, polynomial.h, triple_auth.h, bool_io.h).
The correlations of `FerretCOT::rcot` (external) are asked for when the code asks for them; the calls `rcot` makes on the endpoint are those
of `NetEnv.extP`.
-/
import Verif.Model.BoolNet
import Verif.Model.Proc

namespace EmpZk

/-- A program that sends and receives bytes and asks for correlations of type `C` (`ferret->rcot`, emp-zk-bool/ostriple.h:55, 96, 123, 172);
`fail` is an undefined operation. -/
inductive CProg (C α : Type) where
  | done (a : α)
  | fail
  | send (bs : List Byte) (k : CProg C α)
  | recv (n : Nat) (k : List Byte → CProg C α)
  | cor (k : C → CProg C α)

namespace CProg

/-- Statements one after the other (e.g. emp-zk-bool/ostriple.h:95-103). -/
def bind {C α β : Type} : CProg C α → (α → CProg C β) → CProg C β
  | .done a, f => f a
  | .fail, _ => .fail
  | .send bs k, f => .send bs (k.bind f)
  | .recv n k, f => .recv n (fun b => (k b).bind f)
  | .cor k, f => .cor (fun x => (k x).bind f)

instance {C : Type} : Monad (CProg C) where
  pure := .done
  bind := CProg.bind

/-- A computation without communication; `none` is an undefined operation (e.g. emp-zk-bool/ostriple.h:152-170). -/
def ofOpt {C α : Type} : Option α → CProg C α
  | some a => .done a
  | none => .fail

/-- `n` correlations (emp-zk-bool/ostriple.h:96, 172). -/
def askN {C : Type} : Nat → CProg C (List C)
  | 0 => .done []
  | n + 1 => do
      let l ← askN n
      let x ← CProg.cor .done
      pure (l ++ [x])

end CProg

section
variable {F : Type} [Field F] [BlockField F]

/-- The prover: its state and its endpoint (emp-zk-bool/ostriple.h:11-66, bool_io.h:8-21). -/
structure BPrv (F : Type) where
  st : PrvSt F
  io : SndSt

/-- One call on the prover's endpoint: the new state of the endpoint and what the call returns (bool_io.h:26-52, 64-74; `hash` is
`flush(); get_hash_block()`, ostriple.h:145-146). See `stepS`. -/
def bcall (S : Nat) (io : SndSt) : SOp → CProg F (SndSt × List Byte)
  | .bit b => .send (sendBit S io b).2 (.done ((sendBit S io b).1, []))
  | .flush => .send (sndFlush S io).2 (.done ((sndFlush S io).1, []))
  | .data bs => .send ((sndFlush S io).2 ++ bs) (.done ((sndFlush S io).1, []))
  | .hash =>
      .send (sndFlush S io).2 (.done ({ (sndFlush S io).1 with
        hashed := [], digests := (sndFlush S io).1.digests ++ [(sndFlush S io).1.hashed] }, (sndFlush S io).1.hashed))
  | .back n => .send (sndFlush S io).2 (.recv n fun b => .done ((sndFlush S io).1, b))

/-- Calls whose results are not used (bool_io.h:26-52, 64-74). -/
def bcalls (S : Nat) : SndSt → List SOp → CProg F SndSt
  | io, [] => pure io
  | io, o :: l => do
      let r ← bcall S io o
      bcalls S r.1 l

/-- `ferret->rcot(_, k)` (external): its calls, then `k` correlations (emp-zk-bool/ostriple.h:55, 96, 123, 172). -/
def brcot (ne : NetEnv F) (S : Nat) (n : BPrv F) (k : Nat) : CProg F (BPrv F × List F) := do
  let io ← bcalls S n.io (ne.extP n.st.used k)
  let l ← CProg.askN k
  pure (⟨n.st, io⟩, l)

/-- An environment of the prover in which the next correlations are `l` (emp-zk-bool/ostriple.h:96, 123, 172); only as many are read as
`rcot` has delivered. -/
def BEnv.withMacs (e : BEnv F) (used : Nat) (l : List F) : BEnv F :=
  { e with key := fun n => l.getD (n - used) 0, choice := fun _ => false }

/-- ostriple.h:144-211 `andgate_correctness_check_manage`, prover (see `pnAndCheck`). -/
def bAndCheck (ne : NetEnv F) (S : Nat) (n : BPrv F) : CProg F (BPrv F) := do
  let r ← bcall S n.io .hash
  let m ← brcot ne S ⟨n.st, r.1⟩ 128
  let a ← CProg.ofOpt (prvAndCheck ((ne.env r.2 0).withMacs n.st.used m.2) m.1.st)
  let io ← bcalls S m.1.io [.data (ne.enc2 a.2), .flush]
  pure ⟨a.1, io⟩

/-- polynomial.h:42-97 `batch_check`, prover (see `pnPolyCheck`). -/
def bPolyCheck (ne : NetEnv F) (S : Nat) (n : BPrv F) : CProg F (BPrv F) := do
  let r ← bcall S n.io (.back 16)
  let m ← brcot ne S ⟨n.st, r.1⟩ 128
  let io ← bcalls S m.1.io
    [.data (ne.enc2 (prvPolyCheck ((ne.env [] (ne.dec r.2)).withMacs n.st.used m.2) m.1.st).2)]
  pure ⟨(prvPolyCheck ((ne.env [] (ne.dec r.2)).withMacs n.st.used m.2) m.1.st).1, io⟩

/-- ostriple.h:118-121, prover. -/
def bAndRoom (ne : NetEnv F) (S : Nat) (n : BPrv F) : CProg F (BPrv F) :=
  if n.st.gates.length = ne.e.checkSz then bAndCheck ne S n else pure n

/-- polynomial.h:101-102 (and 151-152, 196-197, 263-264, 352-353), prover. -/
def bPolyRoom (ne : NetEnv F) (S : Nat) (n : BPrv F) : CProg F (BPrv F) :=
  if n.st.polys.length ≥ ne.e.polySz ∧ n.st.polys ≠ [] then bPolyCheck ne S n else pure n

/-- polynomial.h:35-36, 43-44, prover. -/
def bFinPoly (ne : NetEnv F) (S : Nat) (n : BPrv F) : CProg F (BPrv F) :=
  if n.st.polys ≠ [] then bPolyCheck ne S n else pure n

/-- ostriple.h:69-71, prover. -/
def bFinAnd (ne : NetEnv F) (S : Nat) (n : BPrv F) : CProg F (BPrv F) :=
  if n.st.gates ≠ [] then bAndCheck ne S n else pure n

/-- One instruction of the prover: ostriple.h:95-111 (input), 116-140 (AND), 261-274 (reveal), polynomial.h:99-414 (see `netStepP`). -/
def bprvStep (ne : NetEnv F) (S : Nat) (n : BPrv F) : BOp → CProg F (BPrv F)
  | .input b => do
      let m ← brcot ne S n 1
      let r ← CProg.ofOpt (prvStep (ne.e.withMacs n.st.used m.2) m.1.st (.input b))
      let io ← bcalls S m.1.io [.bit r.2.bit]
      pure ⟨r.1, io⟩
  | .and i j => do
      let a ← CProg.ofOpt n.st.wires[i]?
      let b ← CProg.ofOpt n.st.wires[j]?
      let n1 ← bAndRoom ne S n
      let m ← brcot ne S n1 1
      let q ← CProg.ofOpt (prvAndPush (ne.e.withMacs n1.st.used m.2) m.1.st a b)
      let io ← bcalls S m.1.io [.bit q.2]
      pure ⟨q.1, io⟩
  | .reveal i => do
      let r ← CProg.ofOpt (prvStep ne.e n.st (.reveal i))
      let io ← bcalls S n.io [.bit r.2.bit]
      pure ⟨r.1, io⟩
  | .poly s => do
      let p ← CProg.ofOpt (s.lookup n.st.wires)
      let n1 ← bPolyRoom ne S n
      let q ← CProg.ofOpt (prvPolyPush ne.e n1.st p)
      pure ⟨q, n1.io⟩
  | .pub b => do
      let r ← CProg.ofOpt (prvStep ne.e n.st (.pub b))
      pure ⟨r.1, n.io⟩
  | .xor i j => do
      let r ← CProg.ofOpt (prvStep ne.e n.st (.xor i j))
      pure ⟨r.1, n.io⟩
  | .not i => do
      let r ← CProg.ofOpt (prvStep ne.e n.st (.not i))
      pure ⟨r.1, n.io⟩

/-- All instructions of the program (emp-zk-bool/ostriple.h:95-142, 261-290). -/
def bprvRun (ne : NetEnv F) (S : Nat) : BPrv F → List BOp → CProg F (BPrv F)
  | n, [] => pure n
  | n, o :: os => do
      let n1 ← bprvStep ne S n o
      bprvRun ne S n1 os

/-- zk_prover.h:43-46, ostriple.h:68-73, triple_auth.h:33-38, bool_io.h:22-23. -/
def bprvFin (ne : NetEnv F) (S : Nat) (n : BPrv F) : CProg F (BPrv F) := do
  let n1 ← bFinPoly ne S n
  let n2 ← bFinAnd ne S n1
  let io ← bcalls S n2.io [.data (ne.encD (ne.e.hash n2.st.digest)), .flush]
  pure ⟨n2.st, io⟩

/-- A whole prover: constructor (ostriple.h:33-66: one correlation; bool_io.h:15-18), program, end of the session. -/
def bprvProg (ne : NetEnv F) (S : Nat) (ops : List BOp) : CProg F (BPrv F) := do
  let m ← brcot ne S ⟨{ PrvSt.init with used := 0 }, ⟨[], [], [], []⟩⟩ 1
  let n ← bprvRun ne S ⟨PrvSt.init, m.1.io⟩ ops
  bprvFin ne S n

end
end EmpZk
