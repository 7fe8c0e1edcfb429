/-
Model of a session of the boolean protocol: both parties as state machines exchanging messages
(emp-zk/emp-zk-bool/ostriple.h, triple_auth.h, polynomial.h, cheat_record.h, emp-zk-bool.h).

The prover's step produces a message, the verifier's step consumes one.  The verifier is also run on arbitrary
messages (a malicious prover).
-/
import Verif.Model.BoolGate

namespace EmpZk

section
variable {F : Type} [Field F] [BlockField F]

/-- Everything a session takes from outside: the correlations of `FerretCOT::rcot` (external: verifier's keys and
`Delta`, prover's bits; the prover's block is `key + bit * delta`), the blocks of `PRG(fix_key)` behind the public labels
(zk_prover.h:14-15), the thread count, buffer sizes (`CHECK_SZ` ostriple.h:21, `buffer_sz` polynomial.h:11), the seeds
`share_seed` derived from the transcript hash (ostriple.h:146-151; an arbitrary function of the check number, the
transcript and the thread), the verifier's random seeds of polynomial.h:46 and the hash of triple_auth.h. -/
structure BEnv (F : Type) where
  delta : F
  key : Nat → F
  choice : Nat → Bool
  pub0 : F
  pub1 : F
  threads : Nat
  checkSz : Nat
  polySz : Nat
  chal : Nat → List Bool → Nat → F
  polySeed : Nat → F
  hash : List F → F

/-- The prover's block of a correlation: what `rcot` guarantees (external) (used at emp-zk-bool/ostriple.h:96, 123). -/
def BEnv.mac (e : BEnv F) (n : Nat) : F := e.key n + sel (e.choice n) e.delta

/-- What the parties rely on from `FerretCOT` (external): low bit of `Delta` is one, low bits of keys are zero
(used at emp-zk-bool/ostriple.h:57-65, 99-110). -/
structure BEnv.Good (e : BEnv F) : Prop where
  lsb_delta : lsb e.delta = true
  lsb_key : ∀ n, lsb (e.key n) = false

/-- The messages the prover sends during one instruction: a bit, and the answer to a check run by the instruction
(emp-zk-bool/ostriple.h:102, 131, 192, polynomial.h:72). -/
structure BMsg (F : Type) where
  bit : Bool
  ans : F × F

/-- Prover's state: labels, number of `rcot` outputs consumed, AND buffers, polynomial buffers, transcript bits,
blocks put into `auth_helper`'s hash, opened values, numbers of checks run (emp-zk-bool/ostriple.h:11-31, polynomial.h:10-18). -/
structure PrvSt (F : Type) where
  wires : List F
  used : Nat
  gates : List (Gate F)
  polys : List (F × F)
  transcript : List Bool
  digest : List F
  outs : List Bool
  andBatches : Nat
  polyBatches : Nat

/-- cheat_record.h:24-27 `put`: the possible entries (ostriple.h:206, 73, polynomial.h:92). -/
inductive Cheat where
  | andCheck
  | finalize
  | polyCheck
deriving DecidableEq

/-- Record of an AND check on the verifier's side (ghost: not stored by the code) (what emp-zk-bool/ostriple.h:193-207 compares). -/
structure AndRec (F : Type) where
  gates : List (Gate F)
  seeds : Nat → F
  ope : Nat
  ans : F × F

/-- Record of a polynomial check on the verifier's side (ghost: not stored by the code) (what emp-zk-bool/polynomial.h:74-94 compares). -/
structure PolyRec (F : Type) where
  polys : List F
  seed : F
  ope : Nat
  ans : F × F

/-- Verifier's state; `cheats` is `CheatRecord::message` (cheat_record.h:13). -/
structure VerSt (F : Type) where
  wires : List F
  used : Nat
  gates : List (Gate F)
  polys : List F
  transcript : List Bool
  digest : List F
  outs : List Bool
  andBatches : Nat
  polyBatches : Nat
  cheats : List Cheat
  andLog : List (AndRec F)
  polyLog : List (PolyRec F)

/-- ostriple.h:33-66 and polynomial.h:20-33: one `rcot` output is consumed by the constructor. -/
def PrvSt.init : PrvSt F := ⟨[], 1, [], [], [], [], [], 0, 0⟩

/-- emp-zk-bool.h:13 (`CheatRecord::reset`) and the constructors. -/
def VerSt.init : VerSt F := ⟨[], 1, [], [], [], [], [], 0, 0, [], [], []⟩

/-- ostriple.h:144-192, prover: consumes 128 correlations, returns the answer. -/
def prvAndCheck (e : BEnv F) (s : PrvSt F) : Option (PrvSt F × (F × F)) :=
  match andCheckPrv s.gates e.threads (e.chal s.andBatches s.transcript) (fun i => e.mac (s.used + i)) with
  | none => none
  | some a => some ({ s with used := s.used + 128, gates := [], andBatches := s.andBatches + 1 }, a)

/-- polynomial.h:42-72, prover. -/
def prvPolyCheck (e : BEnv F) (s : PrvSt F) : PrvSt F × (F × F) :=
  ({ s with used := s.used + 128, polys := [], polyBatches := s.polyBatches + 1 },
   polyCheckPrv s.polys (e.polySeed s.polyBatches) (fun i => e.mac (s.used + i)))

/-- ostriple.h:118-121, prover: run the check when the buffers are full. -/
def prvAndRoom (e : BEnv F) (s : PrvSt F) : Option (PrvSt F × (F × F)) :=
  if s.gates.length = e.checkSz then prvAndCheck e s else some (s, 0, 0)

/-- ostriple.h:123-139, prover; `none` is a write outside the buffers. -/
def prvAndPush (e : BEnv F) (s : PrvSt F) (a b : F) : Option (PrvSt F × Bool) :=
  if s.gates.length < e.checkSz then
    let r := andPrv a b (e.mac s.used)
    some ({ s with wires := s.wires ++ [r.1], used := s.used + 1, transcript := s.transcript ++ [r.2],
                   gates := s.gates ++ [⟨a, b, r.1⟩] }, r.2)
  else none

/-- polynomial.h:101-102 (and 151-152, 196-197, 263-264, 352-353), prover: run the check when the buffers are full
(`batch_check` does nothing when `num == 0`, line 43-44). -/
def prvPolyRoom (e : BEnv F) (s : PrvSt F) : PrvSt F × (F × F) :=
  if s.polys.length ≥ e.polySz ∧ s.polys ≠ [] then prvPolyCheck e s else (s, 0, 0)

/-- polynomial.h:128-130, prover; `none` is a write outside the buffers. -/
def prvPolyPush (e : BEnv F) (s : PrvSt F) (p : PolyStmt F) : Option (PrvSt F) :=
  if s.polys.length < e.polySz then some { s with polys := s.polys ++ [stmtPrv p] } else none

/-- One instruction of the prover.  `none`: a nonexistent operand, a write outside a buffer, or undefined behaviour.
zk_prover.h:54-74 (feed, reveal), zk_bool_circuit_exec.h:14-20 (gates), ostriple.h:95-140, 261-274,
polynomial.h:99-414. Simplification: an input or reveal of `length` bits is `length` instructions. -/
def prvStep (e : BEnv F) (s : PrvSt F) : BOp → Option (PrvSt F × BMsg F)
  | .input b =>
      let r := inputPrv (e.mac s.used) b
      some ({ s with wires := s.wires ++ [r.1], used := s.used + 1, transcript := s.transcript ++ [r.2] }, ⟨r.2, 0, 0⟩)
  | .pub b => some ({ s with wires := s.wires ++ [pubPrv e.pub0 e.pub1 b] }, ⟨false, 0, 0⟩)
  | .xor i j => do
      let a ← s.wires[i]?
      let b ← s.wires[j]?
      some ({ s with wires := s.wires ++ [xorGate a b] }, ⟨false, 0, 0⟩)
  | .not i => do
      let a ← s.wires[i]?
      some ({ s with wires := s.wires ++ [notPrv a] }, ⟨false, 0, 0⟩)
  | .and i j => do
      let a ← s.wires[i]?
      let b ← s.wires[j]?
      let r ← prvAndRoom e s
      let q ← prvAndPush e r.1 a b
      some (q.1, ⟨q.2, r.2⟩)
  | .reveal i => do
      let a ← s.wires[i]?
      some ({ s with outs := s.outs ++ [lsb a], transcript := s.transcript ++ [lsb a], digest := s.digest ++ [a] },
        ⟨lsb a, 0, 0⟩)
  | .poly st => do
      let p ← st.lookup s.wires
      let r := prvPolyRoom e s
      let q ← prvPolyPush e r.1 p
      some (q, ⟨false, r.2⟩)

variable [DecidableEq F]

/-- ostriple.h:144-207, verifier: `none` is undefined behaviour (see `splitTasks`). -/
def verAndCheck (e : BEnv F) (s : VerSt F) (ans : F × F) : Option (VerSt F) :=
  match andCheckVer e.delta s.gates e.threads (e.chal s.andBatches s.transcript) (fun i => e.key (s.used + i)) ans with
  | none => none
  | some ok => some { s with
      used := s.used + 128, gates := [], andBatches := s.andBatches + 1,
      cheats := if ok then s.cheats else s.cheats ++ [.andCheck],
      andLog := s.andLog ++ [⟨s.gates, e.chal s.andBatches s.transcript, s.used, ans⟩] }

/-- polynomial.h:42-97, verifier. -/
def verPolyCheck (e : BEnv F) (s : VerSt F) (ans : F × F) : VerSt F :=
  { s with
      used := s.used + 128, polys := [], polyBatches := s.polyBatches + 1,
      cheats := if polyCheckVer e.delta s.polys (e.polySeed s.polyBatches) (fun i => e.key (s.used + i)) ans
                then s.cheats else s.cheats ++ [.polyCheck],
      polyLog := s.polyLog ++ [⟨s.polys, e.polySeed s.polyBatches, s.used, ans⟩] }

/-- ostriple.h:118-121, verifier. -/
def verAndRoom (e : BEnv F) (s : VerSt F) (ans : F × F) : Option (VerSt F) :=
  if s.gates.length = e.checkSz then verAndCheck e s ans else some s

omit [DecidableEq F] in
/-- ostriple.h:123-139, verifier; `none` is a write outside the buffers. -/
def verAndPush (e : BEnv F) (s : VerSt F) (a b : F) (d : Bool) : Option (VerSt F) :=
  if s.gates.length < e.checkSz then
    let r := andVer e.delta (e.key s.used) d
    some { s with wires := s.wires ++ [r], used := s.used + 1, transcript := s.transcript ++ [d],
                  gates := s.gates ++ [⟨a, b, r⟩] }
  else none

/-- polynomial.h:101-102 (and 151-152, 196-197, 263-264, 352-353), verifier. -/
def verPolyRoom (e : BEnv F) (s : VerSt F) (ans : F × F) : VerSt F :=
  if s.polys.length ≥ e.polySz ∧ s.polys ≠ [] then verPolyCheck e s ans else s

omit [DecidableEq F] in
/-- polynomial.h:139-145, verifier; `none` is a write outside the buffers. -/
def verPolyPush (e : BEnv F) (s : VerSt F) (p : PolyStmt F) : Option (VerSt F) :=
  if s.polys.length < e.polySz then some { s with polys := s.polys ++ [stmtVer e.delta p] } else none

/-- One instruction of the verifier on a received message. zk_verifier.h:65-82, zk_bool_circuit_exec.h:14-20,
ostriple.h:95-140, 261-274, triple_auth.h:25-31, polynomial.h:99-414.  The verifier does not use the plain value in
`input b`. -/
def verStep (e : BEnv F) (s : VerSt F) (m : BMsg F) : BOp → Option (VerSt F)
  | .input _ =>
      some { s with wires := s.wires ++ [inputVer e.delta (e.key s.used) m.bit], used := s.used + 1,
                    transcript := s.transcript ++ [m.bit] }
  | .pub b => some { s with wires := s.wires ++ [pubVer e.delta e.pub0 e.pub1 b] }
  | .xor i j => do
      let a ← s.wires[i]?
      let b ← s.wires[j]?
      some { s with wires := s.wires ++ [xorGate a b] }
  | .not i => do
      let a ← s.wires[i]?
      some { s with wires := s.wires ++ [notVer e.delta a] }
  | .and i j => do
      let a ← s.wires[i]?
      let b ← s.wires[j]?
      let r ← verAndRoom e s m.ans
      verAndPush e r a b m.bit
  | .reveal i => do
      let a ← s.wires[i]?
      some { s with outs := s.outs ++ [m.bit], transcript := s.transcript ++ [m.bit],
                    digest := s.digest ++ [openVer e.delta a m.bit] }
  | .poly st => do
      let p ← st.lookup s.wires
      verPolyPush e (verPolyRoom e s m.ans) p

/-- Messages of the end of the session: answers of the last two checks and the digest of triple_auth.h:37. -/
structure BFin (F : Type) where
  polyAns : F × F
  andAns : F × F
  digest : F

omit [DecidableEq F] in
/-- polynomial.h:35-36, 43-44, prover: `delete polyproof`. -/
def prvFinPoly (e : BEnv F) (s : PrvSt F) : PrvSt F × (F × F) :=
  if s.polys ≠ [] then prvPolyCheck e s else (s, 0, 0)

omit [DecidableEq F] in
/-- ostriple.h:69-71, prover: `delete ostriple`. -/
def prvFinAnd (e : BEnv F) (s : PrvSt F) : Option (PrvSt F × (F × F)) :=
  if s.gates ≠ [] then prvAndCheck e s else some (s, 0, 0)

omit [DecidableEq F] in
/-- zk_prover.h:43-46 (`delete polyproof; delete ostriple`), ostriple.h:68-73, triple_auth.h:33-38. -/
def prvFinalize (e : BEnv F) (s : PrvSt F) : Option (PrvSt F × BFin F) := do
  let p := prvFinPoly e s
  let q ← prvFinAnd e p.1
  some (q.1, ⟨p.2, q.2, e.hash q.1.digest⟩)

/-- polynomial.h:35-36, 43-44, verifier. -/
def verFinPoly (e : BEnv F) (s : VerSt F) (ans : F × F) : VerSt F :=
  if s.polys ≠ [] then verPolyCheck e s ans else s

/-- ostriple.h:69-71, verifier. -/
def verFinAnd (e : BEnv F) (s : VerSt F) (ans : F × F) : Option (VerSt F) :=
  if s.gates ≠ [] then verAndCheck e s ans else some s

/-- ostriple.h:72-73 and triple_auth.h:39-43, verifier. -/
def verFinHash (e : BEnv F) (s : VerSt F) (digest : F) : VerSt F :=
  if digest = e.hash s.digest then s else { s with cheats := s.cheats ++ [.finalize] }

/-- zk_verifier.h:55-58: polynomial.h:35-36, ostriple.h:68-73, triple_auth.h:39-43. -/
def verFinalize (e : BEnv F) (s : VerSt F) (m : BFin F) : Option (VerSt F) := do
  let q ← verFinAnd e (verFinPoly e s m.polyAns) m.andAns
  some (verFinHash e q m.digest)

/-- emp-zk-bool.h:37-41 and cheat_record.h:29-31: the value returned by `finalize_zk_bool` on the verifier's side
(`true` = cheating was recorded). -/
def cheated (s : VerSt F) : Bool := !s.cheats.isEmpty

omit [DecidableEq F] in
/-- A whole honest prover: state and messages (emp-zk-bool/ostriple.h:95-142, 261-290, polynomial.h:98-412 one call after the other). -/
def prvRun (e : BEnv F) : PrvSt F → List BOp → Option (PrvSt F × List (BMsg F))
  | s, [] => some (s, [])
  | s, o :: os => do
      let r ← prvStep e s o
      let q ← prvRun e r.1 os
      some (q.1, r.2 :: q.2)

/-- A whole verifier on received messages (emp-zk-bool/ostriple.h:95-142, 261-290, polynomial.h:98-412 one call after the other). -/
def verRun (e : BEnv F) : VerSt F → List BOp → List (BMsg F) → Option (VerSt F)
  | s, [], [] => some s
  | s, o :: os, m :: ms => do
      let s' ← verStep e s m o
      verRun e s' os ms
  | _, _, _ => none

/-- Verifier's side of a whole session: gates, then `finalize_zk_bool` (emp-zk-bool.h:8-41). -/
def verSession (e : BEnv F) (ops : List BOp) (ms : List (BMsg F)) (fin : BFin F) : Option (VerSt F) := do
  let s ← verRun e VerSt.init ops ms
  verFinalize e s fin

omit [DecidableEq F] in
/-- Prover's side of a whole session (emp-zk-bool.h:8-41). -/
def prvSession (e : BEnv F) (ops : List BOp) : Option (PrvSt F × List (BMsg F) × BFin F) := do
  let r ← prvRun e PrvSt.init ops
  let q ← prvFinalize e r.1
  some (q.1, r.2, q.2)

end
end EmpZk
