/-
Model of the preprocessing of the VOLE over F_p between two parties with any number of threads: emp-zk/emp-vole/base_svole.h, cope.h,
vole_triple.h. The computations are those of `Verif.Model.Cope` and `Verif.Model.VoleTriple`; here is added what is sent and when.
The OTs of `Cope::initialize` and of `cot_gen` are not modelled: what they leave behind is an input here.
-/
import Verif.Model.ExtendNet
import Verif.Model.Cope

namespace EmpZk

/-- cope.h:105-108: `n` words arrive, one by one. -/
def recvWordsN : Nat → Proc (List W)
  | 0 => pure []
  | n + 1 => do
      let l ← recvWordsN n
      let bs ← Proc.get 8
      pure (l ++ [decW bs])

/-- cope.h:153: `n` words are sent, one by one. -/
def sendWordsN (w : Nat → W) : Nat → Proc Unit
  | 0 => pure ()
  | n + 1 => do
      sendWordsN w n
      Proc.put (encW (w n))

/-- `v[i * size + j]` (cope.h:107), an index below `m * size`. -/
def matAt (l : List W) (size i j : Nat) : W := l.getD (i * size + j) 0

/-- base_svole.h:35-40, 61-80, cope.h:92-117 `triple_gen_send`: `g`, `gb` are the words drawn from the PRGs. `none`: `abort()`.
Simplification: the computations between the messages are done after the last one. -/
def baseSendN (delta : U128) (g gb : Nat → Nat → W) (size : Nat) (rseed : W) : Proc (Option (List U128)) := do
  let v ← recvWordsN (61 * size)
  let vb ← recvWordsN 61
  Proc.put (encW (mod64 rseed))
  let bs ← Proc.get 16
  Proc.ofOpt (tripleGenSend delta 61 g (matAt v size) gb (matAt vb 1) size rseed (decAns bs))

/-- base_svole.h:43-58, 83-96, cope.h:142-161 `triple_gen_recv`: `rx` are the `size + 1` random words. -/
def baseRecvN (g0 g1 gb0 gb1 : Nat → Nat → W) (size : Nat) (rx : List W) : Proc (List U128) := do
  sendWordsN (fun q => copeMsgB g0 g1 (fun j => mod64 (rx.getD j 0)) (q / size) (q % size)) (61 * size)
  sendWordsN (fun q => copeMsgB gb0 gb1 (fun _ => mod64 (rx.getD size 0)) q 0) 61
  let bs ← Proc.get 8
  let r ← Proc.ofOpt (tripleGenRecv 61 g0 gb0 rx (decW bs))
  Proc.put (encAns r.2)
  pure r.1

/-- One extension of a chain, as the sender sees it: sizes, the place in its output where the correlations used by the next one begin
(0 in `setup`, vole_triple.h:170-205; `ot_limit` in `extend`, vole_triple.h:143), seeds, memory, OTs. -/
structure StageSend where
  cfg : ExtCfg
  off : Nat
  seed : Nat → U128
  mem : Nat → Mem
  pre : PreSend

/-- The same for the receiver (vole_triple.h:127-144, 170-205). -/
structure StageRecv where
  cfg : ExtCfg
  off : Nat
  b : Nat → Nat → Bool
  mem : Nat → Mem
  pre : PreRecv
  sd : U128

/-- vole_triple.h:136-144, 170-205: extensions one after the other, each with correlations made before; sender. Less than `M` of them:
a read outside the array. -/
def chainSendN (f : ExtFns) (T : Nat) (delta : U128) : List StageSend → List U128 → Par (T + 1) (List (List U128))
  | [], _ => .done []
  | s :: l, p =>
    if p.length < s.cfg.M then .fail
    else
      (extSendN f s.cfg T ⟨delta, s.seed, s.mem, ofList p, s.pre⟩).bind fun out =>
      (chainSendN f T delta l (out.drop s.off)).bind fun r => .done (out :: r)

/-- vole_triple.h:136-144, 170-205, receiver; `none`: `error` is called. -/
def chainRecvN (f : ExtFns) (T : Nat) : List StageRecv → List U128 → Par (T + 1) (Option (List (List U128)))
  | [], _ => .done (some [])
  | s :: l, p =>
    if p.length < s.cfg.M then .fail
    else
      (extRecvN f s.cfg T ⟨s.b, s.mem, ofList p, s.pre, s.sd⟩).bind fun out =>
      match out with
      | none => .done none
      | some z => (chainRecvN f T l (z.drop s.off)).bind fun r => .done (r.map (fun r => z :: r))

/-- vole_triple.h:147-213 `setup` and any number of extensions (vole_triple.h:136-144), sender: `none`: `abort()`. -/
def volePartySendN (f : ExtFns) (T : Nat) (delta : U128) (g gb : Nat → Nat → W) (size : Nat) (rseed : W) (l : List StageSend) :
    Par (T + 1) (Option (List (List U128))) :=
  (Par.one (baseSendN delta g gb size rseed)).bind fun k =>
  match k with
  | none => .done none
  | some key => (chainSendN f T delta l key).bind fun r => .done (some r)

/-- vole_triple.h:147-213 `setup` and any number of extensions (vole_triple.h:136-144), receiver; `none`: `error` is called. -/
def volePartyRecvN (f : ExtFns) (T : Nat) (g0 g1 gb0 gb1 : Nat → Nat → W) (size : Nat) (rx : List W) (l : List StageRecv) :
    Par (T + 1) (Option (List (List U128))) :=
  (Par.one (baseRecvN g0 g1 gb0 gb1 size rx)).bind fun mac => chainRecvN f T l mac

end EmpZk
