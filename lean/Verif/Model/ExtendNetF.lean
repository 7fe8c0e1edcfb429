/-
Model of the VOLE over F_{2^128} between two parties with any number of threads: emp-zk/emp-vole-f2k/mpfss.h, spfss_f2k_sender.h,
spfss_f2k_recver.h, svole.h, and emp-vole/preot.h. The computations are those of `Verif.Model.PreOT` and `Verif.Model.F2kVole`; here is added
what is sent, when, by which thread, over which channel. `MpfssRegF2k` is created with the roles exchanged (svole.h:108, 181): the verifier
(keys, Delta) sends the trees, the prover (values, MACs) receives them.

Simplification: the block `get_hash_block` gives for a tree (spfss_f2k_sender.h:66, spfss_f2k_recver.h:88) is the same on both ends (C15), and
no byte the tree's sender sends enters it (C95_digests); here `digest` is given from outside.
-/
import Verif.Model.ExtendNet
import Verif.Model.F2kVole

namespace EmpZk

/-- What the verifier brings to an extension (svole.h:132-137): seeds and memory of the trees (spfss_f2k_sender.h:19-22), its keys, the
precomputed OTs, the hashed digests of the trees (spfss_f2k_sender.h:66-69). -/
structure ExtSendInF where
  delta : GF128
  seed : Nat → U128
  mem : Nat → Mem
  key : Nat → GF128
  pre : PreSend
  digest : Nat → GF128

/-- What the prover brings (svole.h:121-129): its choices (C40: never assigned in the code), memory, values and MACs, the precomputed OTs, the
hashed digests (spfss_f2k_recver.h:88-91). -/
structure ExtRecvInF where
  b : Nat → Nat → Bool
  mem : Nat → Mem
  x : Nat → GF128
  mac : Nat → GF128
  pre : PreRecv
  digest : Nat → GF128

/-- A block as bytes (spfss_f2k_sender.h:35, mpfss.h:173, 183, 193, 204). -/
def encG (v : GF128) : List Byte := encBlk v.bits

/-- A received block (spfss_f2k_recver.h:41, mpfss.h:173, 204). -/
def decG (bs : List Byte) : GF128 := ⟨decBlk bs⟩

/-- mpfss.h:108-111, 131-133, spfss_f2k_sender.h:26-37: one tree: computed, its OT messages and its sum sent. -/
def treeSendF (c : ExtCfg) (a : ExtSendInF) (st : PreSend) (i : Nat) : Proc (List GF128) := do
  let t ← Proc.ofOpt (spfssF2kSend c.G0 c.G1 c.levels (a.seed i) (a.mem i) (a.key i))
  let pads ← Proc.ofOpt (otSend st (fun j => (padAt t.2.1 j).1) (fun j => (padAt t.2.1 j).2) c.levels i)
  sendPads pads c.levels
  Proc.put (encG t.2.2)
  pure t.1

/-- mpfss.h:118-121, 139-141, spfss_f2k_recver.h:39-56: one tree: OT messages and sum received, leaves computed. -/
def treeRecvF (c : ExtCfg) (a : ExtRecvInF) (st : PreRecv) (i : Nat) : Proc (List GF128) := do
  let l ← recvPads c.levels
  let m ← Proc.ofOpt (otRecv st (a.b i) c.levels i (padAt l))
  let sum ← Proc.get 16
  Proc.ofOpt (spfssF2kRecv c.G0 c.G1 c.levels (a.b i) m (a.mem i) (decG sum) (a.mac i))

/-- mpfss.h:152-154, 170-184: `x_star` arrives, the hash of the check block is sent. The sums `V` (spfss_f2k_sender.h:64-76) are computed by
the threads without communication; here at once. -/
noncomputable def checkSendF (hash : GF128 → U128) (c : ExtCfg) (a : ExtSendInF) (trees : List (List GF128)) : Proc Unit := do
  let xs ← Proc.get 16
  let v ← Proc.ofOpt (f2kCheckSend a.digest c.t a.delta (a.key c.t) trees (decG xs))
  Proc.put (encBlk (hash v))

/-- mpfss.h:155-156, 187-207: `x_star` is sent, the hash arrives; `false`: `error` is called. -/
noncomputable def checkRecvF (hash : GF128 → U128) (c : ExtCfg) (a : ExtRecvInF) (trees : List (List GF128)) : Proc Bool := do
  let r ← Proc.ofOpt (f2kCheckRecv a.digest c.levels c.t a.b a.x (a.mac c.t) trees)
  Proc.put (encG r.1)
  let h ← Proc.get 16
  pure (decide (decBlk h = hash r.2))

/-- svole.h:132-137 `extend_recv`, mpfss.h:88-167, with `T + 1` threads: choices, trees, check, LPN. Task `j` uses channel `j` (C32: that is
`start / width`). -/
noncomputable def extSendF (hash : GF128 → U128) (c : ExtCfg) (T : Nat) (a : ExtSendInF) : Par (T + 1) (List GF128) :=
  (Par.one (choicesSendN c.t a.pre)).bind fun st =>
  (Par.run (fun j : Fin (T + 1) => loopN (treeSendF c a st.reset) (taskTrees c.t (T + 1) j)) fun r => Par.ofOpt (gather c.t r)).bind
    fun trees =>
  (Par.one (checkSendF hash c a trees)).bind fun _ =>
  Par.ofOpt (lpnF2kCompute c.prp c.n c.k c.threads trees.flatten ((List.range c.k).map (fun j => a.key (c.t + j))))

/-- svole.h:121-129 `extend_send`, 144 (`memset`), mpfss.h:88-167; values and MACs; `none`: `error` is called. -/
noncomputable def extRecvF (hash : GF128 → U128) (c : ExtCfg) (T : Nat) (a : ExtRecvInF) : Par (T + 1) (Option (List GF128 × List GF128)) :=
  (Par.one (choicesRecvN a.b c.t a.pre)).bind fun st =>
  (Par.run (fun j : Fin (T + 1) => loopN (treeRecvF c a st.reset) (taskTrees c.t (T + 1) j)) fun r => Par.ofOpt (gather c.t r)).bind
    fun trees =>
  (Par.one (checkRecvF hash c a trees)).bind fun ok =>
  if ok then
    (Par.ofOpt (setVecX c.levels c.t a.b a.x (List.replicate c.n 0))).bind fun vals =>
    (Par.ofOpt (lpnF2kCompute c.prp c.n c.k c.threads vals ((List.range c.k).map (fun j => a.x (c.t + j))))).bind fun X =>
    (Par.ofOpt (lpnF2kCompute c.prp c.n c.k c.threads trees.flatten ((List.range c.k).map (fun j => a.mac (c.t + j))))).bind fun M =>
    .done (some (X, M))
  else .done none

/-- One extension of a chain, as the verifier sees it: sizes, the place in its output where the correlations used by the next one begin (0 in
`setup`, svole.h:161-190; `ot_limit` in `extend`, svole.h:149), seeds, memory, OTs, digests. -/
structure StageSendF where
  cfg : ExtCfg
  off : Nat
  seed : Nat → U128
  mem : Nat → Mem
  pre : PreSend
  digest : Nat → GF128

/-- The same for the prover (svole.h:141-150, 161-190). -/
structure StageRecvF where
  cfg : ExtCfg
  off : Nat
  b : Nat → Nat → Bool
  mem : Nat → Mem
  pre : PreRecv
  digest : Nat → GF128

/-- svole.h:141-150, 161-193, 205-232: extensions one after the other, each with correlations made before; verifier. Less than `M` of them: a
read outside the array. -/
noncomputable def chainSendF (hash : GF128 → U128) (T : Nat) (delta : GF128) : List StageSendF → List GF128 → Par (T + 1) (List (List GF128))
  | [], _ => .done []
  | s :: l, p =>
    if p.length < s.cfg.M then .fail
    else
      (extSendF hash s.cfg T ⟨delta, s.seed, s.mem, ofListF p, s.pre, s.digest⟩).bind fun out =>
      (chainSendF hash T delta l (out.drop s.off)).bind fun r => .done (out :: r)

/-- svole.h:141-150, 161-193, 205-232, prover: pairs (value, MAC); `none`: `error` is called. -/
noncomputable def chainRecvF (hash : GF128 → U128) (T : Nat) : List StageRecvF → List (GF128 × GF128) →
    Par (T + 1) (Option (List (List (GF128 × GF128))))
  | [], _ => .done (some [])
  | s :: l, p =>
    if p.length < s.cfg.M then .fail
    else
      (extRecvF hash s.cfg T ⟨s.b, s.mem, ofListF (p.map Prod.fst), ofListF (p.map Prod.snd), s.pre, s.digest⟩).bind fun out =>
      match out with
      | none => .done none
      | some z => (chainRecvF hash T l ((z.1.zip z.2).drop s.off)).bind fun r => .done (r.map (fun r => z.1.zip z.2 :: r))

/-- svole.h:153-203 `setup` after the OTs (`rcot`, `cot_gen`: external), and any number of extensions (svole.h:141-150, 205-232), verifier:
base keys from `128 * M_pre` blocks of `rcot` (base_svole.h:28-43), then the extensions. -/
noncomputable def svoleSendF (hash : GF128 → U128) (T : Nat) (delta : GF128) (size : Nat) (ot : Nat → Nat → GF128) (l : List StageSendF) :
    Par (T + 1) (List (List GF128)) :=
  chainSendF hash T delta l ((List.range size).map (fun i => f2kBaseKey (ot i)))

/-- svole.h:153-203 `setup` and any number of extensions (svole.h:141-150, 205-232), prover. -/
noncomputable def svoleRecvF (hash : GF128 → U128) (T : Nat) (size : Nat) (ot : Nat → Nat → GF128) (l : List StageRecvF) :
    Par (T + 1) (Option (List (List (GF128 × GF128)))) :=
  chainRecvF hash T l ((List.range size).map (fun i => f2kBaseVal (ot i)))

end EmpZk
