/-
Model of the batched calls of emp-zk/emp-zk-arith: `batch_feed`, `batch_reveal`, `batch_reveal_check`, `batch_reveal_check_zero`
(int_fp.h:67-83), alone and between single calls, at message level and over the network.
-/
import Verif.Model.ArithNet

namespace EmpZk

/-- A call of the interface: a single one (see `AOp`) or a batched one (int_fp.h:67-83). Arguments of a batched call: the values, the
wires, the wires with the expected values. Simplification: the caller's arrays do not overlap. -/
inductive ACall where
  | one (o : AOp)
  | feed (ws : List W)
  | reveal (is : List Nat)
  | check (is : List (Nat × W))
  | zero (is : List Nat)

/-- What the prover sends in a call besides VOLE messages (ostriple.h:75, 88, 300). -/
inductive ACallMsg where
  | one (m : AMsg)
  | words (ws : List W)

/-- ostriple.h:81, 107: the results of `vole->extend(label, len)`, which come after `n` others. -/
def voleMany (f : Nat → U128) (n len : Nat) : List U128 := (List.range len).map fun i => f (n + i)

/-- One call of the prover: ostriple.h:79-90 (`len` VOLE outputs, then all labels and corrections), 294-301 (all values and MACs, then
one message), 313-318, 330-335; zk_fp_exec_prover.h:30-48. -/
def aprvCall (e : AEnv) (s : APrv) : ACall → Option (APrv × ACallMsg)
  | .one o => do
      let r ← aprvStep e s o
      some (r.1, .one r.2)
  | .feed ws =>
      let rs := List.zipWith feedA (voleMany e.cor s.used ws.length) ws
      some ({ s with wires := s.wires ++ rs.map Prod.fst, used := s.used + ws.length }, .words (rs.map Prod.snd))
  | .reveal is => do
      let ls ← is.mapM fun i => s.wires[i]?
      some ({ s with outs := s.outs ++ ls.map high64, stored := s.stored ++ ls.map low64 }, .words (ls.map high64))
  | .check is => do
      let ls ← is.mapM fun p => s.wires[p.1]?
      some ({ s with stored := s.stored ++ ls.map low64 }, .words (ls.map high64))
  | .zero is => do
      let ls ← is.mapM fun i => s.wires[i]?
      some ({ s with stored := s.stored ++ ls.map low64 }, .words [])

/-- One call of the verifier on the prover's message: ostriple.h:105-117, 303-310, 320-328 (one `memcmp` of all values after all words
are stored), 330-335; zk_fp_exec_verifier.h:31-49. `none` for a message of another length: the verifier receives exactly
`len` words. -/
def averCall (e : AEnv) (s : AVer) (m : ACallMsg) : ACall → Option AVer
  | .one o => match m with
      | .one m => averStep e s m o
      | .words _ => none
  | .feed ws => match m with
      | .one _ => none
      | .words xs =>
        if xs.length = ws.length then
          some { s with
            wires := s.wires ++ List.zipWith (feedB e.delta) (voleMany e.keyU s.used ws.length) xs, used := s.used + ws.length }
        else none
  | .reveal is => match m with
      | .one _ => none
      | .words xs =>
        if xs.length = is.length then do
          let ls ← is.mapM fun i => s.wires[i]?
          some { s with outs := s.outs ++ xs, stored := s.stored ++ List.zipWith (openB e.delta) xs ls }
        else none
  | .check is => match m with
      | .one _ => none
      | .words xs =>
        if xs.length = is.length then do
          let ls ← is.mapM fun p => s.wires[p.1]?
          some { s with
            stored := s.stored ++ List.zipWith (openB e.delta) xs ls, aborted := s.aborted || !(is.map Prod.snd == xs),
            expLog := s.expLog ++ List.zip (is.map Prod.snd) xs }
        else none
  | .zero is => match m with
      | .one _ => none
      | .words xs =>
        if xs.length = 0 then do
          let ls ← is.mapM fun i => s.wires[i]?
          some { s with stored := s.stored ++ ls.map low64 }
        else none

/-- A whole program of the prover (int_fp.h:17-83 one call after the other). -/
def aprvCalls (e : AEnv) : APrv → List ACall → Option (APrv × List ACallMsg)
  | s, [] => some (s, [])
  | s, c :: cs => do
      let r ← aprvCall e s c
      let q ← aprvCalls e r.1 cs
      some (q.1, r.2 :: q.2)

/-- A whole program of the verifier (int_fp.h:17-83 one call after the other). -/
def averCalls (e : AEnv) : AVer → List ACall → List ACallMsg → Option AVer
  | s, [], [] => some s
  | s, c :: cs, m :: ms => do
      let s' ← averCall e s m c
      averCalls e s' cs ms
  | _, _, _ => none

/-- A session with batched calls over the network: `extB n len` are the messages of `vole->extend(label, len)` when `n` outputs have
been consumed (vole_triple.h:216-255). -/
structure ABatchEnv where
  net : ANetEnv
  extB : Nat → Nat → List (Bool × List Byte)

/-- `len * sizeof(uint64_t)` bytes of words (ostriple.h:88, 300). -/
def encWs (ws : List W) : List Byte := ws.flatMap encW

/-- `len` words from received bytes (ostriple.h:109, 304). -/
def decWs : Nat → List Byte → List W
  | 0, _ => []
  | n + 1, bs => decW (bs.take 8) :: decWs n (bs.drop 8)

/-- The words of a message (ostriple.h:88, 300). -/
def ACallMsg.ws : ACallMsg → List W
  | .one _ => []
  | .words ws => ws

/-- One call of the prover's process: ostriple.h:79-90, 294-301, 313-318, 330-335. -/
def aprvCallN (be : ABatchEnv) (s : APrv) : ACall → Proc APrv
  | .one o => aprvStepN be.net s o
  | .feed ws => do
      Proc.script true (be.extB s.used ws.length)
      let r ← Proc.ofOpt (aprvCall be.net.env s (.feed ws))
      Proc.put (encWs r.2.ws)
      pure r.1
  | .reveal is => do
      let r ← Proc.ofOpt (aprvCall be.net.env s (.reveal is))
      Proc.put (encWs r.2.ws)
      pure r.1
  | .check is => do
      let r ← Proc.ofOpt (aprvCall be.net.env s (.check is))
      Proc.put (encWs r.2.ws)
      pure r.1
  | .zero is => do
      let r ← Proc.ofOpt (aprvCall be.net.env s (.zero is))
      pure r.1

/-- One call of the verifier's process: ostriple.h:105-117, 303-310, 320-328, 330-335. -/
def averCallN (be : ABatchEnv) (s : AVer) : ACall → Proc AVer
  | .one o => averStepN be.net s o
  | .feed ws => do
      Proc.script false (be.extB s.used ws.length)
      let bs ← Proc.get (8 * ws.length)
      Proc.ofOpt (averCall be.net.env s (.words (decWs ws.length bs)) (.feed ws))
  | .reveal is => do
      let bs ← Proc.get (8 * is.length)
      Proc.ofOpt (averCall be.net.env s (.words (decWs is.length bs)) (.reveal is))
  | .check is => do
      let bs ← Proc.get (8 * is.length)
      Proc.ofOpt (averCall be.net.env s (.words (decWs is.length bs)) (.check is))
  | .zero is => Proc.ofOpt (averCall be.net.env s (.words []) (.zero is))

/-- A whole program of the prover's process (int_fp.h:17-83 one call after the other). -/
def aprvCallsN (be : ABatchEnv) : APrv → List ACall → Proc APrv
  | s, [] => pure s
  | s, c :: cs => do
      let s' ← aprvCallN be s c
      aprvCallsN be s' cs

/-- A whole program of the verifier's process (int_fp.h:17-83 one call after the other). -/
def averCallsN (be : ABatchEnv) : AVer → List ACall → Proc AVer
  | s, [] => pure s
  | s, c :: cs => do
      let s' ← averCallN be s c
      averCallsN be s' cs

/-- The prover's process: constructor, program, `finalize_zk_arith` (ostriple.h:47-48, emp-zk-arith.h:46-51). -/
def aprvBatchNet (be : ABatchEnv) (cs : List ACall) : Proc APrv := do
  Proc.script true (be.net.ext 0)
  let s ← aprvCallsN be APrv.init cs
  aprvFinalizeN be.net s

/-- The verifier's process (ostriple.h:47-48, emp-zk-arith.h:46-51). -/
def averBatchNet (be : ABatchEnv) (cs : List ACall) : Proc AVer := do
  Proc.script false (be.net.ext 0)
  let s ← averCallsN be AVer.init cs
  averFinalizeN be.net s

end EmpZk
