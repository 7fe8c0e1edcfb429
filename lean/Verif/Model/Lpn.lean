/-
Model of emp-zk/emp-vole/lpn.h : adding `d = 10` pseudo-random entries of the base correlations to every output.

Arrays are lists, an access outside is `none` (undefined behaviour). `prp i w` is the `w`-th 32-bit word of the blocks
`makeBlock(i, 0), makeBlock(i, 1), ...` after `permute_block` (emp-tool PRP, external).
-/
import Verif.Model.Word

namespace EmpZk

/-- lpn.h:28-32 (also lpn_f2k.h:26-30): the loop from `k_mask = mask`. Simplification: naturals instead of `uint32_t`; C33
shows that the value stays below `2^31`. -/
def kMaskFrom (k mask : Nat) : Nat :=
  if mask < k then kMaskFrom k (2 * mask + 1) else mask
termination_by k - mask

/-- lpn.h:27-32 `k_mask`. -/
def kMask (k : Nat) : Nat := kMaskFrom k 1

/-- lpn.h:119-120, 132-133: one index, as an `int`: the masked word is converted to `int` and compared with `k` as `int`. -/
def lpnIndex (k : Nat) (r : BitVec 32) : Int :=
  let i := (r &&& BitVec.ofNat 32 (kMask k)).toInt
  if i ≥ (k : Int) then i - k else i

/-- lpn_f2k.h:56-57, 71-72: one index, all in `uint32_t`. -/
def lpnIndexU (k : Nat) (r : BitVec 32) : BitVec 32 :=
  let i := r &&& BitVec.ofNat 32 (kMask k)
  if i ≥ BitVec.ofNat 32 k then i - BitVec.ofNat 32 k else i

/-- Array access `preK[idx]`, `preM[idx]` with an `int` index (lpn.h:91-94, 102-105). -/
def atInt (pre : List U128) (i : Int) : Option U128 := if 0 ≤ i then pre[i.toNat]? else none

/-- lpn.h:47, 50, 91-94, 102-105: `acc + preK[..]`: 128-bit addition, truncated to `uint64_t`. -/
def accK (acc : W) (p : U128) : W := low64 (acc.setWidth 128 + p)

/-- lpn.h:45-51 `add1_single` on the value of `K[idx1]` and the ten entries. -/
def lpnAdd1Single (K : U128) (ps : List U128) : U128 :=
  let a := (ps.take 5).foldl accK (low64 K)
  let a := mod64 a
  let a := (ps.drop 5).foldl accK a
  (mod64 a).setWidth 128

/-- lpn.h:84-109 `add1`, one of the four lanes. -/
def lpnAdd1 (K : U128) (ps : List U128) : U128 :=
  let a := (ps.take 5).foldl accK 0
  let a := mod64 a
  let a := (ps.drop 5).foldl accK a
  (mod64 (low64 (K + a.setWidth 128))).setWidth 128

/-- lpn.h:36-42 `add2_single`, and one of the four lanes of `add2` (55-80). -/
def lpnAdd2 (M : U128) (ps : List U128) : U128 :=
  let a := (ps.take 5).foldl vAdd M
  let a := vecMod a
  let a := (ps.drop 5).foldl vAdd a
  vecMod a

/-- One step of a task: `__compute4(j)` or `__compute1(j)` (lpn.h:112-146). -/
inductive LpnOp where
  | quad (j : Nat)
  | single (j : Nat)
  deriving DecidableEq

/-- lpn.h:150-153, 159-162 (lpn_f2k.h:82-85, 89-92): the steps of `task(start, end)`. -/
def lpnOps (start stop : Nat) : List LpnOp :=
  if start + 4 < stop then .quad start :: lpnOps (start + 4) stop
  else (List.range (stop - start)).map (fun i => .single (start + i))
termination_by stop - start

/-- lpn.h:165-176 (lpn_f2k.h:96-107): the tasks; the last one is run by the calling thread. -/
def lpnTasks (n threads : Nat) : List (List LpnOp) :=
  let width := n / (threads + 1)
  (List.range threads).map (fun i => lpnOps (i * width) (min ((i + 1) * width) n)) ++
    [lpnOps (threads * width) (min ((threads + 1) * width) n)]

/-- lpn.h:112-137: positions written by a step, each with the numbers of the ten random words selecting its entries. -/
def LpnOp.lanes : LpnOp → List (Nat × Nat × List Nat)
  | .single j => [(j, j, List.range 10)]
  | .quad j => (List.range 4).map (fun l => (j + l, j, (List.range 10).map (fun t => 4 * t + l)))

/-- lpn.h:38, 41, 47, 50, 61-64, 91-94 ..: the ten entries selected by the words `ws` of `i`. -/
def lpnEntries (prp : Nat → Nat → BitVec 32) (k : Nat) (pre : List U128) (i : Nat) (ws : List Nat) : Option (List U128) :=
  ws.mapM (fun w => atInt pre (lpnIndex k (prp i w)))

/-- Read-modify-write of one array element (lpn.h:45-51, 85-110). -/
def lpnUpdate (f : U128 → List U128 → U128) (A : List U128) (pos : Nat) (ps : List U128) : Option (List U128) := do
  let a ← A[pos]?
  some (A.set pos (f a ps))

/-- lpn.h:112-137 with `add1` / `add1_single` (party ALICE). Simplification: the four lanes of a quad step, which touch
different elements of `K`, are done one after the other. -/
def lpnStepSend (prp : Nat → Nat → BitVec 32) (k : Nat) (pre : List U128) (K : List U128) (op : LpnOp) : Option (List U128) :=
  op.lanes.foldlM (fun A l => do
    let ps ← lpnEntries prp k pre l.2.1 l.2.2
    lpnUpdate (match op with | .quad _ => lpnAdd1 | .single _ => lpnAdd1Single) A l.1 ps) K

/-- lpn.h:112-137 with `add2` / `add2_single` (party BOB). Lanes one after the other, as above. -/
def lpnStepRecv (prp : Nat → Nat → BitVec 32) (k : Nat) (pre : List U128) (M : List U128) (op : LpnOp) : Option (List U128) :=
  op.lanes.foldlM (fun A l => do
    let ps ← lpnEntries prp k pre l.2.1 l.2.2
    lpnUpdate lpnAdd2 A l.1 ps) M

/-- A run of steps in the given order (lpn.h:148-164). -/
def lpnRunSend (prp : Nat → Nat → BitVec 32) (k : Nat) (pre : List U128) (ops : List LpnOp) (K : List U128) :
    Option (List U128) := ops.foldlM (lpnStepSend prp k pre) K

/-- A run of steps in the given order (lpn.h:148-164). -/
def lpnRunRecv (prp : Nat → Nat → BitVec 32) (k : Nat) (pre : List U128) (ops : List LpnOp) (M : List U128) :
    Option (List U128) := ops.foldlM (lpnStepRecv prp k pre) M

/-- lpn.h:181-186 `compute_send`, the tasks one after the other (other schedules: `lpnRunSend` on a reordering). -/
def lpnComputeSend (prp : Nat → Nat → BitVec 32) (n k threads : Nat) (K pre : List U128) : Option (List U128) :=
  lpnRunSend prp k pre (lpnTasks n threads).flatten K

/-- lpn.h:188-193 `compute_recv`. -/
def lpnComputeRecv (prp : Nat → Nat → BitVec 32) (n k threads : Nat) (M pre : List U128) : Option (List U128) :=
  lpnRunRecv prp k pre (lpnTasks n threads).flatten M

end EmpZk
