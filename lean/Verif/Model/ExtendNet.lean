/-
Model of one VOLE extension over F_p between two parties with any number of threads: emp-zk/emp-vole/mpfss_reg.h, preot.h,
spfss_sender.h, spfss_recver.h, vole_triple.h. The computations are those of `Verif.Model.PreOT`, `Verif.Model.Mpfss` and
`Verif.Model.VoleTriple`; here is added what is sent, when, by which thread, over which channel.
-/
import Verif.Model.VoleTriple
import Verif.Model.PreOT
import Verif.Model.ArithNet
import Verif.Model.Par

namespace EmpZk

/-- External functions: `PRG(&sd).random_block` (mpfss_reg.h:195-196), the low word of the hash of a seed (spfss_sender.h:110-113), the
hash of the check word (mpfss_reg.h:211, 232). -/
structure ExtFns where
  expand : U128 → Nat → U128
  hashSeed : U128 → W
  hashWord : W → U128

/-- What the sender of an extension brings: `seed i`, `mem i` of tree `i` (spfss_sender.h:22-25), its keys (vole_triple.h:137-144), the
precomputed OTs. -/
structure ExtSendIn where
  delta : U128
  seed : Nat → U128
  mem : Nat → Mem
  key : Nat → U128
  pre : PreSend

/-- What the receiver brings: its choices (C40: in the code they are never assigned; here they have some value), the memory of its trees,
its values and MACs, the precomputed OTs, the block it draws for the check (mpfss_reg.h:191). -/
structure ExtRecvIn where
  b : Nat → Nat → Bool
  mem : Nat → Mem
  mac : Nat → U128
  pre : PreRecv
  sd : U128

/-- `n` bools as bytes (preot.h:63: `io->send_data(bits + count, length)`). -/
def encBits (b : Nat → Bool) (n : Nat) : List Byte := (List.range n).map (fun i => boolByte (b i))

/-- Received bools (preot.h:55); only positions below the number of bytes are used (preot.h:69-84). -/
def decBits (bs : List Byte) (i : Nat) : Bool := bs[i]? == some 1#8

/-- mpfss_reg.h:85-89, preot.h:54-57: the choice bits of the first `t` trees arrive. -/
def choicesSendN : Nat → PreSend → Proc PreSend
  | 0, st => pure st
  | t + 1, st => do
      let st ← choicesSendN t st
      let bs ← Proc.get st.length
      Proc.ofOpt (choicesSender st (decBits bs))

/-- mpfss_reg.h:85-94, preot.h:59-65: the masked choice bits of the first `t` trees are sent. -/
def choicesRecvN (b : Nat → Nat → Bool) : Nat → PreRecv → Proc PreRecv
  | 0, st => pure st
  | t + 1, st => do
      let st ← choicesRecvN b t st
      let r ← Proc.ofOpt (choicesRecver st (b t))
      Proc.put (encBits r.2 st.length)
      pure r.1

/-- preot.h:72-82: the pads of the first `n` transfers, two blocks each. -/
def sendPads (pads : Nat → U128 × U128) : Nat → Proc Unit
  | 0 => pure ()
  | n + 1 => do
      sendPads pads n
      Proc.put (encBlk (pads n).1 ++ encBlk (pads n).2)

/-- preot.h:89-94: the pads of the first `n` transfers arrive. -/
def recvPads : Nat → Proc (List (U128 × U128))
  | 0 => pure []
  | n + 1 => do
      let l ← recvPads n
      let bs ← Proc.get 32
      pure (l ++ [(decBlk (bs.take 16), decBlk (bs.drop 16))])

/-- An array element, below the length (spfss_sender.h:43: `m`, `&m[depth-1]`; preot.h:91). -/
def padAt (l : List (U128 × U128)) (i : Nat) : U128 × U128 := l.getD i (0, 0)

/-- mpfss_reg.h:106-109, 123-126, spfss_sender.h:36-47: one tree: computed, its OT messages and its sum sent. -/
def treeSendN (c : ExtCfg) (a : ExtSendIn) (st : PreSend) (i : Nat) : Proc (List U128) := do
  let t ← Proc.ofOpt (spfssSend c.G0 c.G1 c.levels (a.seed i) (a.mem i) (a.key i))
  let pads ← Proc.ofOpt (otSend st (fun j => (padAt t.2.1 j).1) (fun j => (padAt t.2.1 j).2) c.levels i)
  sendPads pads c.levels
  Proc.put (encW t.2.2)
  pure t.1

/-- mpfss_reg.h:111-114, 128-131, spfss_recver.h:43-67: one tree: OT messages and sum received, leaves computed. -/
def treeRecvN (c : ExtCfg) (a : ExtRecvIn) (st : PreRecv) (i : Nat) : Proc (List U128) := do
  let l ← recvPads c.levels
  let m ← Proc.ofOpt (otRecv st (a.b i) c.levels i (padAt l))
  let sum ← Proc.get 8
  Proc.ofOpt (spfssRecv c.G0 c.G1 c.levels (a.b i) m (a.mem i) (decW sum) (a.mac i))

/-- A loop over the trees of a task (mpfss_reg.h:104-117, 121-133); the leaves with their number, that is their place in
`sparse_vector`. -/
def loopN {α : Type} (f : Nat → Proc α) : List Nat → Proc (List (Nat × α))
  | [] => pure []
  | i :: l => do
      let x ← f i
      let r ← loopN f l
      pure ((i, x) :: r)

/-- The trees of task `j` (mpfss_reg.h:98-103, 118-121). -/
def taskTrees (treeN threads j : Nat) : List Nat :=
  match (mpfssTasks treeN threads)[j]? with
  | none => []
  | some r => List.range' r.1 (r.2 - r.1)

/-- What the tasks have written, in the order of the trees (mpfss_reg.h:106, 113, 124, 130); `none`: some tree has not been written. -/
def gather {α : Type} {T : Nat} (treeN : Nat) (r : Fin T → List (Nat × α)) : Option (List α) :=
  (List.range treeN).mapM (fun i => ((List.ofFn r).flatten).lookup i)

/-- The task that handles tree `i` (mpfss_reg.h:98-121): `start / width` for `start` a multiple of `width`, else the last. -/
def treeTask (treeN threads i : Nat) : Nat :=
  if i < (threads - 1) * (treeN / threads) then i / (treeN / threads) else threads - 1

/-- The digest used for tree `i` (mpfss_reg.h:148-153, 163-168, 195-196, spfss_sender.h:110-113): that of the seed of its task. -/
def treeDigest (f : ExtFns) (treeN threads : Nat) (sd : U128) (i : Nat) : W := f.hashSeed (f.expand sd (treeTask treeN threads i))

/-- mpfss_reg.h:177, 187-214, sender: the receiver's block, then `x_star` arrives and the hash is sent. -/
def checkSendN (f : ExtFns) (c : ExtCfg) (T : Nat) (a : ExtSendIn) (trees : List (List U128)) : Proc Unit := do
  let sd ← Proc.get 16
  let xs ← Proc.get 8
  let v ← Proc.ofOpt (mpfssCheckSend (treeDigest f c.t (T + 1) (decBlk sd)) c.t a.delta (a.key c.t) trees (decW xs))
  Proc.put (encBlk (f.hashWord v))

/-- mpfss_reg.h:179, 187-196, 216-239, receiver; `none`: `error` is called. -/
def checkRecvN (f : ExtFns) (c : ExtCfg) (T : Nat) (a : ExtRecvIn) (trees : List (List U128)) : Proc (Option (List (List U128))) := do
  Proc.put (encBlk a.sd)
  let r ← Proc.ofOpt (mpfssCheckRecv (treeDigest f c.t (T + 1) a.sd) c.levels c.t a.b a.mac trees)
  Proc.put (encW r.1)
  let h ← Proc.get 16
  pure (if decBlk h = f.hashWord r.2.1 then some r.2.2 else none)

/-- vole_triple.h:118-125 `extend_send`, mpfss_reg.h:79-185, with `T + 1` threads: choices, trees, check, LPN. Task `j` uses channel `j`
(C32: that is `start / width`). Simplification: the computations of the check, which the threads do without communication
(mpfss_reg.h:141-171), are done at once, after the message that follows them. -/
def extSendN (f : ExtFns) (c : ExtCfg) (T : Nat) (a : ExtSendIn) : Par (T + 1) (List U128) :=
  (Par.one (choicesSendN c.t a.pre)).bind fun st =>
  (Par.run (fun j : Fin (T + 1) => loopN (treeSendN c a st.reset) (taskTrees c.t (T + 1) j)) fun r => Par.ofOpt (gather c.t r)).bind
    fun trees =>
  (Par.one (checkSendN f c T a trees)).bind fun _ =>
  Par.ofOpt (lpnComputeSend c.prp c.n c.k c.threads trees.flatten ((List.range c.k).map (fun j => a.key (c.t + 1 + j))))

/-- vole_triple.h:127-134 `extend_recv`, mpfss_reg.h:79-185; `none`: `error` is called. -/
def extRecvN (f : ExtFns) (c : ExtCfg) (T : Nat) (a : ExtRecvIn) : Par (T + 1) (Option (List U128)) :=
  (Par.one (choicesRecvN a.b c.t a.pre)).bind fun st =>
  (Par.run (fun j : Fin (T + 1) => loopN (treeRecvN c a st.reset) (taskTrees c.t (T + 1) j)) fun r => Par.ofOpt (gather c.t r)).bind
    fun trees =>
  (Par.one (checkRecvN f c T a trees)).bind fun r =>
  match r with
  | none => .done none
  | some R =>
    (Par.ofOpt (lpnComputeRecv c.prp c.n c.k c.threads R.flatten ((List.range c.k).map (fun j => a.mac (c.t + 1 + j))))).bind
      fun z => .done (some z)

end EmpZk
