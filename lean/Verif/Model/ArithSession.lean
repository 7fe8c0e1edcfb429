/-
Model of emp-zk/emp-zk-arith: whole sessions, from `setup_zk_arith` to `finalize_zk_arith`, for both parties.
-/
import Verif.Model.ArithGate

namespace EmpZk

/-- Everything a session reads from outside.
* `delta`: verifier's secret (ostriple.h:338-342).
* `u n`, `mac n`: `n`-th VOLE output of the prover (high and low half), `key n` that of the verifier (vole_triple.h,
  see `Verif.Model.Vole*`).
* `pubMac`: zk_fp_exec_prover.h:11-13.
* `seed b i`: `i`-th output of `PRG(seed0)` for the `b`-th multiplication check; `seed0` is chosen and sent by the
  verifier (ostriple.h:344-354).
* `polySeed b`: `seed` before `mod` of the `b`-th polynomial check (polynomial.h:63-66).
* `hash`: emp-tool `Hash` on the stored words (triple_auth.h:12-25, external). -/
structure AEnv where
  delta : W
  key : Nat → W
  u : Nat → W
  mac : Nat → W
  pubMac : W
  threads : Nat
  checkSz : Nat
  polySz : Nat
  seed : Nat → Nat → U128
  polySeed : Nat → W
  hash : List W → BitVec 256

/-- The prover's `n`-th VOLE output as stored by `vole->extend` (emp-zk-arith/ostriple.h:71, 81, 128 (vole_triple.h:216-255)). -/
def AEnv.cor (e : AEnv) (n : Nat) : U128 := makeBlock (e.u n) (e.mac n)

/-- The verifier's `n`-th VOLE output as stored by `vole->extend` (emp-zk-arith/ostriple.h:94, 107, 150 (vole_triple.h:216-255)). -/
def AEnv.keyU (e : AEnv) (n : Nat) : U128 := keyWord (e.key n)

/-- Message of the prover for one instruction: the word sent (correction or revealed value) and, when a buffer was
full, the answer of the check (emp-zk-arith/ostriple.h:75, 135, 227, 300 and polynomial.h:61). -/
structure AMsg where
  w : W
  ans : W × W

/-- Messages at the end: the last two checks and the digest (triple_auth.h:27). -/
structure AFin where
  polyAns : W × W
  mulAns : W × W
  digest : BitVec 256

/-- Prover's state. `used`: VOLE outputs consumed; `gates`, `polys`: buffers; `stored`: words hashed by `store`
(triple_auth.h:21); `outs`: values returned by `reveal`. -/
structure APrv where
  wires : List U128
  used : Nat
  gates : List AGate
  polys : List (W × W)
  stored : List W
  outs : List W
  mulBatches : Nat
  polyBatches : Nat

/-- Record of a multiplication check on the verifier's side (ghost: not stored by the code)
(what emp-zk-arith/ostriple.h:228-239 compares). -/
structure AMulRec where
  gates : List AGate
  seeds : Nat → U128
  ope : Nat
  ans : W × W

/-- Record of a polynomial check on the verifier's side (ghost: not stored by the code)
(what emp-zk-arith/polynomial.h:63-77 compares). -/
structure APolyRec where
  polys : List W
  seed : W
  ope : Nat
  ans : W × W

/-- Verifier's state.  `aborted`: `error` was called (the process ends; simplification: the model goes on with the flag
set); `cheat`: `CheatRecord::put` was called (polynomial.h:77); `expLog`: the pairs (expected, received) compared by
`reveal_check` (ghost). -/
structure AVer where
  wires : List U128
  used : Nat
  gates : List AGate
  polys : List W
  stored : List W
  outs : List W
  mulBatches : Nat
  polyBatches : Nat
  aborted : Bool
  cheat : Bool
  expLog : List (W × W)
  mulLog : List AMulRec
  polyLog : List APolyRec

/-- ostriple.h:31-52: the constructor consumes one VOLE output. -/
def APrv.init : APrv := ⟨[], 1, [], [], [], [], 0, 0⟩
/-- ostriple.h:31-52. -/
def AVer.init : AVer := ⟨[], 1, [], [], [], [], 0, 0, false, false, [], [], []⟩

/-- ostriple.h:166-227, prover: one VOLE output is consumed. -/
def aprvMulCheck (e : AEnv) (s : APrv) : Option (APrv × (W × W)) := do
  let a ← mulCheckA s.gates e.threads (e.seed s.mulBatches) (e.cor s.used)
  some ({ s with used := s.used + 1, gates := [], mulBatches := s.mulBatches + 1 }, a)

/-- polynomial.h:42-61, prover. -/
def aprvPolyCheck (e : AEnv) (s : APrv) : Option (APrv × (W × W)) := do
  let a ← apolyCheckA s.polys (mod64 (e.polySeed s.polyBatches)) (e.cor s.used)
  some ({ s with used := s.used + 1, polys := [], polyBatches := s.polyBatches + 1 }, a)

/-- ostriple.h:124-127, prover. -/
def aprvMulRoom (e : AEnv) (s : APrv) : Option (APrv × (W × W)) :=
  if s.gates.length = e.checkSz then aprvMulCheck e s else some (s, 0, 0)

/-- ostriple.h:128-141, prover; `none` is a write outside the buffers. -/
def aprvMulPush (e : AEnv) (s : APrv) (a b : U128) : Option (APrv × W) :=
  if s.gates.length < e.checkSz then
    let r := mulSend (e.cor s.used) a b
    some ({ s with wires := s.wires ++ [r.1], used := s.used + 1, gates := s.gates ++ [⟨a, b, r.1⟩] }, r.2)
  else none

/-- polynomial.h:85-86, 125-126, prover (43-44: nothing happens when `num == 0`). -/
def aprvPolyRoom (e : AEnv) (s : APrv) : Option (APrv × (W × W)) :=
  if s.polys.length ≥ e.polySz ∧ s.polys ≠ [] then aprvPolyCheck e s else some (s, 0, 0)

/-- polynomial.h:105-106, 120, prover; `none` is a write outside the buffers. -/
def aprvPolyPush (e : AEnv) (s : APrv) (p : APoly U128) : Option APrv :=
  if s.polys.length < e.polySz then some { s with polys := s.polys ++ [apolyA p] } else none

/-- One instruction of the prover: zk_fp_exec_prover.h:26-68, ostriple.h:69-142, 294-334, polynomial.h:83-158.
Batched feeds and reveals are in `Verif.Model.ArithBatch` (C86: they are sequences of single ones). -/
def aprvStep (e : AEnv) (s : APrv) : AOp → Option (APrv × AMsg)
  | .input w =>
      let r := feedA (e.cor s.used) w
      some ({ s with wires := s.wires ++ [r.1], used := s.used + 1 }, ⟨r.2, 0, 0⟩)
  | .pub w => some ({ s with wires := s.wires ++ [pubA e.pubMac w] }, ⟨0, 0, 0⟩)
  | .add i j => do
      let a ← s.wires[i]?
      let b ← s.wires[j]?
      some ({ s with wires := s.wires ++ [addGateA a b] }, ⟨0, 0, 0⟩)
  | .mul i j => do
      let a ← s.wires[i]?
      let b ← s.wires[j]?
      let r ← aprvMulRoom e s
      let q ← aprvMulPush e r.1 a b
      some (q.1, ⟨q.2, r.2⟩)
  | .mulc i c => do
      let a ← s.wires[i]?
      some ({ s with wires := s.wires ++ [mulConstA a c] }, ⟨0, 0, 0⟩)
  | .reveal i => do
      let a ← s.wires[i]?
      some ({ s with outs := s.outs ++ [high64 a], stored := s.stored ++ [low64 a] }, ⟨high64 a, 0, 0⟩)
  | .revealCheck i _ => do
      let a ← s.wires[i]?
      some ({ s with stored := s.stored ++ [low64 a] }, ⟨high64 a, 0, 0⟩)
  | .revealZero i => do
      let a ← s.wires[i]?
      some ({ s with stored := s.stored ++ [low64 a] }, ⟨0, 0, 0⟩)
  | .poly st => do
      let p ← st.lookup s.wires
      let r ← aprvPolyRoom e s
      let q ← aprvPolyPush e r.1 p
      some (q, ⟨0, r.2⟩)

/-- ostriple.h:166-241, verifier. -/
def averMulCheck (e : AEnv) (s : AVer) (ans : W × W) : Option AVer := do
  let ok ← mulCheckB e.delta s.gates e.threads (e.seed s.mulBatches) (e.keyU s.used) ans
  some { s with
    used := s.used + 1, gates := [], mulBatches := s.mulBatches + 1, aborted := s.aborted || !ok,
    mulLog := s.mulLog ++ [⟨s.gates, e.seed s.mulBatches, s.used, ans⟩] }

/-- polynomial.h:42-81, verifier. -/
def averPolyCheck (e : AEnv) (s : AVer) (ans : W × W) : Option AVer := do
  let ok ← apolyCheckB e.delta s.polys (mod64 (e.polySeed s.polyBatches)) (e.keyU s.used) ans
  some { s with
    used := s.used + 1, polys := [], polyBatches := s.polyBatches + 1, cheat := s.cheat || !ok,
    polyLog := s.polyLog ++ [⟨s.polys, mod64 (e.polySeed s.polyBatches), s.used, ans⟩] }

/-- ostriple.h:146-149, verifier. -/
def averMulRoom (e : AEnv) (s : AVer) (ans : W × W) : Option AVer :=
  if s.gates.length = e.checkSz then averMulCheck e s ans else some s

/-- ostriple.h:150-161, verifier; `none` is a write outside the buffers. -/
def averMulPush (e : AEnv) (s : AVer) (a b : U128) (d : W) : Option AVer :=
  if s.gates.length < e.checkSz then
    let r := mulRecv e.delta (e.keyU s.used) d
    some { s with wires := s.wires ++ [r], used := s.used + 1, gates := s.gates ++ [⟨a, b, r⟩] }
  else none

/-- polynomial.h:85-86, 125-126, verifier. -/
def averPolyRoom (e : AEnv) (s : AVer) (ans : W × W) : Option AVer :=
  if s.polys.length ≥ e.polySz ∧ s.polys ≠ [] then averPolyCheck e s ans else some s

/-- polynomial.h:118-120, verifier; `none` is a write outside the buffers. -/
def averPolyPush (e : AEnv) (s : AVer) (p : APoly U128) : Option AVer :=
  if s.polys.length < e.polySz then some { s with polys := s.polys ++ [apolyB e.delta p] } else none

/-- ostriple.h:303-310, verifier: the word stored for an opening to `v` of a wire with label `a`. -/
def openB (delta v : W) (a : U128) : W := addMod (multMod v delta) (low64 a)

/-- One instruction of the verifier on a received message: zk_fp_exec_verifier.h:27-68, ostriple.h:92-162, 303-334,
polynomial.h:83-158.  The verifier does not use the value in `input w`. -/
def averStep (e : AEnv) (s : AVer) (m : AMsg) : AOp → Option AVer
  | .input _ =>
      some { s with wires := s.wires ++ [feedB e.delta (e.keyU s.used) m.w], used := s.used + 1 }
  | .pub w => some { s with wires := s.wires ++ [pubB e.delta e.pubMac w] }
  | .add i j => do
      let a ← s.wires[i]?
      let b ← s.wires[j]?
      some { s with wires := s.wires ++ [addGateB a b] }
  | .mul i j => do
      let a ← s.wires[i]?
      let b ← s.wires[j]?
      let r ← averMulRoom e s m.ans
      averMulPush e r a b m.w
  | .mulc i c => do
      let a ← s.wires[i]?
      some { s with wires := s.wires ++ [mulConstB a c] }
  | .reveal i => do
      let a ← s.wires[i]?
      some { s with outs := s.outs ++ [m.w], stored := s.stored ++ [openB e.delta m.w a] }
  | .revealCheck i x => do
      let a ← s.wires[i]?
      some { s with
        stored := s.stored ++ [openB e.delta m.w a], aborted := s.aborted || !(x == m.w),
        expLog := s.expLog ++ [(x, m.w)] }
  | .revealZero i => do
      let a ← s.wires[i]?
      some { s with stored := s.stored ++ [low64 a] }
  | .poly st => do
      let p ← st.lookup s.wires
      let r ← averPolyRoom e s m.ans
      averPolyPush e r p

/-- A whole program of the prover (emp-zk-arith/ostriple.h:69-163, 294-334, polynomial.h:83-158 one call after the other). -/
def aprvRun (e : AEnv) : APrv → List AOp → Option (APrv × List AMsg)
  | s, [] => some (s, [])
  | s, o :: os => do
      let r ← aprvStep e s o
      let q ← aprvRun e r.1 os
      some (q.1, r.2 :: q.2)

/-- A whole program of the verifier on received messages
(emp-zk-arith/ostriple.h:92-163, 303-334, polynomial.h:83-158 one call after the other). -/
def averRun (e : AEnv) : AVer → List AOp → List AMsg → Option AVer
  | s, [], [] => some s
  | s, o :: os, m :: ms => do
      let s' ← averStep e s m o
      averRun e s' os ms
  | _, _, _ => none

/-- emp-zk-arith.h:49, polynomial.h:34-35: `delete fppolyproof`, prover. -/
def aprvFinPoly (e : AEnv) (s : APrv) : Option (APrv × (W × W)) :=
  if s.polys ≠ [] then aprvPolyCheck e s else some (s, 0, 0)

/-- emp-zk-arith.h:50, ostriple.h:54-56: `delete zk_exec`, prover. -/
def aprvFinMul (e : AEnv) (s : APrv) : Option (APrv × (W × W)) :=
  if s.gates ≠ [] then aprvMulCheck e s else some (s, 0, 0)

/-- emp-zk-arith.h:46-51 (`finalize_zk_arith` without conversions), ostriple.h:54-57, triple_auth.h:23-28, prover. -/
def aprvFinalize (e : AEnv) (s : APrv) : Option (APrv × AFin) := do
  let p ← aprvFinPoly e s
  let q ← aprvFinMul e p.1
  some (q.1, ⟨p.2, q.2, e.hash q.1.stored⟩)

/-- emp-zk-arith.h:49, polynomial.h:34-35, verifier. -/
def averFinPoly (e : AEnv) (s : AVer) (ans : W × W) : Option AVer :=
  if s.polys ≠ [] then averPolyCheck e s ans else some s

/-- emp-zk-arith.h:50, ostriple.h:54-56, verifier. -/
def averFinMul (e : AEnv) (s : AVer) (ans : W × W) : Option AVer :=
  if s.gates ≠ [] then averMulCheck e s ans else some s

/-- triple_auth.h:29-36, verifier. -/
def averFinHash (e : AEnv) (s : AVer) (digest : BitVec 256) : AVer :=
  { s with aborted := s.aborted || !(e.hash s.stored == digest) }

/-- emp-zk-arith.h:46-51, verifier. -/
def averFinalize (e : AEnv) (s : AVer) (m : AFin) : Option AVer := do
  let p ← averFinPoly e s m.polyAns
  let q ← averFinMul e p m.mulAns
  some (averFinHash e q m.digest)

/-- Prover's side of a whole session (emp-zk-arith.h:11-51). -/
def aprvSession (e : AEnv) (ops : List AOp) : Option (APrv × List AMsg × AFin) := do
  let r ← aprvRun e APrv.init ops
  let q ← aprvFinalize e r.1
  some (q.1, r.2, q.2)

/-- Verifier's side of a whole session on received messages (emp-zk-arith.h:11-51). -/
def averSession (e : AEnv) (ops : List AOp) (ms : List AMsg) (fin : AFin) : Option AVer := do
  let s ← averRun e AVer.init ops ms
  averFinalize e s fin

/-- The verifier finishes the session and nothing was reported: no `error`, nothing in `CheatRecord`
(emp-zk-arith/ostriple.h:237-238, polynomial.h:76-77, emp-zk-bool/cheat_record.h:1-14). -/
def AVer.accepted (s : AVer) : Bool := !s.aborted && !s.cheat

end EmpZk
