/-
Model of emp-zk/emp-vole-f2k/ : VOLE over the field of 128-bit blocks (base_svole.h, spfss_f2k_sender.h, spfss_f2k_recver.h,
mpfss.h, lpn_f2k.h, and one extension of svole.h).

Blocks as field elements are `GF128` (XOR is `+`, emp-tool's `gfmul` is `*`). `MpfssRegF2k` is created with the roles exchanged
(svole.h:108, 181): the party that holds the values (ALICE) is the receiver of the trees.
-/
import Verif.Model.Spfss
import Verif.Model.Mpfss
import Verif.Model.VoleTriple
import Verif.Model.BoolGate
import Verif.Model.BoolIO
import Verif.Lemmas.GF128

namespace EmpZk

/-! ### base correlations -/

/-- emp-tool `bool_to_block` (external; base_svole.h:37): bit `i` of the block is `b i`. -/
def boolToBlock (b : Nat → Bool) : GF128 := ⟨(BitVec.ofBoolListLE ((List.range 128).map b)).setWidth 128⟩

/-- base_svole.h:28-43 `extend`, ALICE, for the 128 OT blocks `ot 0 .. ot 127` of one output: value and MAC. -/
noncomputable def f2kBaseVal (ot : Nat → GF128) : GF128 × GF128 := (boolToBlock (fun i => lsb (ot i)), packBlocks ot)

/-- base_svole.h:28-43 `extend`, BOB: the key. -/
noncomputable def f2kBaseKey (ot : Nat → GF128) : GF128 := packBlocks ot

/-! ### one point share -/

/-- spfss_f2k_sender.h:41-61 `ggm_tree_gen`: leaves, OT messages and `secret_sum`. The tree generation (41-56) is that of
spfss_sender.h, `ggmGen`. -/
def spfssF2kSend (G0 G1 : U128 → U128) (levels : Nat) (seed : U128) (mem0 : Mem) (gamma : GF128) :
    Option (List GF128 × List (U128 × U128) × GF128) :=
  if levels = 0 then none
  else
    let (mem, msgs) := ggmGen G0 G1 seed mem0 (levels - 1)
    let leaves := (List.range (2 ^ levels)).map (fun k => GF128.mk (mem k))
    some (leaves, msgs, leaves.foldl (· + ·) 0 + gamma)

/-- spfss_f2k_recver.h:46-56 `compute`; the reconstruction (58-86) is that of spfss_recver.h, `ggmRecon`. -/
def spfssF2kRecv (G0 G1 : U128 → U128) (levels : Nat) (b : Nat → Bool) (m : Nat → U128) (mem0 : Mem) (share : GF128)
    (delta2 : GF128) : Option (List GF128) :=
  if levels = 0 then none
  else
    let pos := getIndex b levels
    let mem := (ggmRecon G0 G1 levels b m mem0 levels).2.set pos 0
    let leaves := (List.range (2 ^ levels)).map (fun k => GF128.mk (mem k))
    let nodesSum := leaves.foldl (· + ·) 0 + share
    some (leaves.set pos (delta2 + nodesSum))

/-- mpfss.h:107-118, 130-137 (ALICE of the trees): all trees. -/
def mpfssF2kSend (G0 G1 : U128 → U128) (levels treeN : Nat) (seed : Nat → U128) (mem0 : Nat → Mem) (key : Nat → GF128) :
    Option (List (List GF128 × List (U128 × U128) × GF128)) :=
  (List.range treeN).mapM (fun i => spfssF2kSend G0 G1 levels (seed i) (mem0 i) (key i))

/-- mpfss.h:119-127, 138-145 (BOB of the trees): all trees. -/
def mpfssF2kRecv (G0 G1 : U128 → U128) (levels treeN : Nat) (b : Nat → Nat → Bool) (m : Nat → Nat → U128) (mem0 : Nat → Mem)
    (share : Nat → GF128) (mac : Nat → GF128) : Option (List (List GF128)) :=
  (List.range treeN).mapM (fun i => spfssF2kRecv G0 G1 levels (b i) (m i) (mem0 i) (share i) (mac i))

/-! ### consistency check -/

/-- spfss_f2k_recver.h:92-94 `chi[choice_pos]` with `uni_hash_coeff_gen(block)` (external): `seed^(pos+1)`. -/
noncomputable def chiCoeff (seed : GF128) (pos : Nat) : GF128 := seed ^ (pos + 1)

/-- mpfss.h:113-115, 134-136, 171-184, sender: the hashed block. `digest i` is the hashed transcript seed of tree `i`
(spfss_f2k_sender.h:66-69, an arbitrary block here). -/
noncomputable def f2kCheckSend (digest : Nat → GF128) (treeN : Nat) (delta y : GF128) (trees : List (List GF128)) (xStar : GF128) :
    Option GF128 := do
  let V ← (List.range treeN).mapM (fun i => do let l ← trees[i]?; some (chiSum (digest i) l))
  some (V.foldl (· + ·) (delta * xStar + y))

/-- mpfss.h:123-125, 142-144, 187-199, receiver: `x_star` and the hashed block. `x` is the array `delta2`, `z` the mask's MAC. -/
noncomputable def f2kCheckRecv (digest : Nat → GF128) (levels treeN : Nat) (b : Nat → Nat → Bool) (x : Nat → GF128) (z : GF128)
    (trees : List (List GF128)) : Option (GF128 × GF128) := do
  let W ← (List.range treeN).mapM (fun i => do let l ← trees[i]?; some (chiSum (digest i) l))
  let s := (List.range treeN).foldl (fun acc i => acc + x i * chiCoeff (digest i) (getIndex (b i) levels)) 0
  some (s + x treeN, W.foldl (· + ·) z)

/-- mpfss.h:64-71 `set_vec_x` on the zeroed array `out` (svole.h:144). -/
def setVecX (levels treeN : Nat) (b : Nat → Nat → Bool) (x : Nat → GF128) (out : List GF128) : Option (List GF128) :=
  (List.range treeN).foldlM (fun A i => do
    let pt := i * 2 ^ levels + getIndex (b i) levels
    let a ← A[pt]?
    some (A.set pt (a + x i))) out

/-! ### LPN -/

/-- lpn_f2k.h:46-76: positions written by a step, each with the numbers of the ten random words selecting its entries: lane `m` of a quad
step uses the words `10 m .. 10 m + 9`. -/
def LpnOp.lanesF2k : LpnOp → List (Nat × Nat × List Nat)
  | .single j => [(j, j, List.range 10)]
  | .quad j => (List.range 4).map (fun l => (j + l, j, (List.range 10).map (fun t => 10 * l + t)))

/-- lpn_f2k.h:33-44, 46-76 (`add1`, `add2`): one step on one array. Simplification: `add2` updates the two arrays `Val` and `Mac` in one
loop; here these are two runs, as the arrays are different. -/
def lpnF2kStep (prp : Nat → Nat → BitVec 32) (k : Nat) (pre A : List GF128) (op : LpnOp) : Option (List GF128) :=
  op.lanesF2k.foldlM (fun A l => do
    let ps ← l.2.2.mapM (fun w => pre[(lpnIndexU k (prp l.2.1 w)).toNat]?)
    let a ← A[l.1]?
    some (A.set l.1 (ps.foldl (· + ·) a))) A

/-- lpn_f2k.h:78-113 `compute`, the tasks one after the other. -/
def lpnF2kCompute (prp : Nat → Nat → BitVec 32) (n k threads : Nat) (A pre : List GF128) : Option (List GF128) :=
  (lpnTasks n threads).flatten.foldlM (lpnF2kStep prp k pre) A

/-! ### one extension -/

/-- svole.h:132-137 `extend_recv`, first part: the trees (leaves, OT messages, sums). -/
def extF2kTrees (c : ExtCfg) (seed : Nat → U128) (mem : Nat → Mem) (key : Nat → GF128) :
    Option (List (List GF128 × List (U128 × U128) × GF128)) := mpfssF2kSend c.G0 c.G1 c.levels c.t seed mem key

/-- svole.h:132-137 `extend_recv` (BOB, holds Delta and the keys): hashed check block and output keys. The LPN input starts at
`pre_mac + tt` with `tt = t`. -/
noncomputable def extF2kKey (c : ExtCfg) (digest : Nat → GF128) (delta : GF128) (key : Nat → GF128) (trees : List (List GF128))
    (xStar : GF128) : Option (GF128 × List GF128) := do
  let v ← f2kCheckSend digest c.t delta (key c.t) trees xStar
  let out ← lpnF2kCompute c.prp c.n c.k c.threads trees.flatten ((List.range c.k).map (fun j => key (c.t + j)))
  some (v, out)

/-- svole.h:121-129 `extend_send` (ALICE, holds values and MACs): `x_star`, hashed check block, output values and MACs. -/
noncomputable def extF2kVal (c : ExtCfg) (digest : Nat → GF128) (b : Nat → Nat → Bool) (m : Nat → Nat → U128) (mem : Nat → Mem)
    (share : Nat → GF128) (x mac : Nat → GF128) : Option (GF128 × GF128 × List GF128 × List GF128) := do
  let R ← mpfssF2kRecv c.G0 c.G1 c.levels c.t b m mem share mac
  let r ← f2kCheckRecv digest c.levels c.t b x (mac c.t) R
  let vals ← setVecX c.levels c.t b x (List.replicate c.n 0)
  let outV ← lpnF2kCompute c.prp c.n c.k c.threads vals ((List.range c.k).map (fun j => x (c.t + j)))
  let outM ← lpnF2kCompute c.prp c.n c.k c.threads R.flatten ((List.range c.k).map (fun j => mac (c.t + j)))
  some (r.1, r.2, outV, outM)

/-- svole.h:132-137 `extend_recv` without the check: the output keys from the reserved keys alone. -/
def extF2kKeyOut (c : ExtCfg) (seed : Nat → U128) (mem : Nat → Mem) (key : Nat → GF128) : Option (List GF128) := do
  let S ← extF2kTrees c seed mem key
  lpnF2kCompute c.prp c.n c.k c.threads (S.map (fun t => t.1)).flatten ((List.range c.k).map (fun j => key (c.t + j)))

/-- Elements held in an array, as read by `pre_mac[i]` (svole.h:144-149). -/
def ofListF (p : List GF128) (i : Nat) : GF128 := p.getD i 0

/-- Randomness of one extension over F_{2^128} (emp-vole-f2k/mpfss.h:107-127, svole.h:147-175). -/
structure ExtRoundF where
  seed : Nat → U128
  memS : Nat → Mem
  memR : Nat → Mem
  b : Nat → Nat → Bool
  digest : Nat → GF128

/-- mpfss.h:107-127 with C28: the message the receiver gets in OT `j` of tree `i`. -/
def otMsgF (S : List (List GF128 × List (U128 × U128) × GF128)) (b : Nat → Nat → Bool) (i j : Nat) : U128 :=
  match S[i]? with
  | none => 0
  | some t => match t.2.1[j]? with
    | none => 0
    | some p => if b i j then p.2 else p.1

/-- spfss_f2k_sender.h:35, spfss_f2k_recver.h:41: the sum sent for tree `i`. -/
def otSumF (S : List (List GF128 × List (U128 × U128) × GF128)) (i : Nat) : GF128 :=
  match S[i]? with
  | none => 0
  | some t => t.2.2

/-- Calls on its channel of the party that receives a tree (the prover, whose endpoint of bool_io.h was created with `sender = true`): two
blocks for each OT (preot.h:89-90), the sum (spfss_f2k_recver.h:41), then the digest (spfss_f2k_recver.h:88). Nothing is buffered when the
digest is taken, so that the flush contained in `SOp.hash` does nothing. -/
def treeCallsF (levels : Nat) : List SOp := List.replicate levels (.back 32) ++ [.back 16, .hash]

end EmpZk
