/-
Model of emp-zk/emp-vole/mpfss_reg.h : `t` point shares of `2^levels` leaves each, and their batched consistency check.

The transfer of the OT messages is not part of this file (see Model/PreOT.lean): the receiver's messages `m i j` and
`share i` are parameters. `digest i` is the raw word (low half of the hash of the seed) of the thread that handles tree `i`.
-/
import Verif.Model.Spfss

namespace EmpZk

/-- mpfss_reg.h:98-121, 140-160: the ranges `[start, end)` of trees handled by the `threads - 1` pool tasks and by the
calling thread, in the order of their creation. The arithmetic is `uint32_t`; overflow cannot occur as all values are at most
`tree_n`. -/
def mpfssTasks (treeN threads : Nat) : List (Nat × Nat) :=
  let width := treeN / threads
  (List.range (threads - 1)).map (fun i => (i * width, i * width + width)) ++ [((threads - 1) * width, treeN)]

/-- mpfss_reg.h:107-115, 126-131, 148-152, 163-167: index into `ios` (and `seed`) used by pool task `i < threads - 1` that starts at `start`
(`start / width`), evaluated only for trees of the task; `none` is a division by zero. -/
def mpfssChannel (treeN threads i : Nat) : Option Nat :=
  let width := treeN / threads
  if i < threads - 1 then (if width = 0 then none else some (i * width / width)) else some (threads - 1)

/-- mpfss_reg.h:103-110, 121-126, sender: trees `0 .. tree_n-1`, each with its leaves, OT messages and sum. -/
def mpfssSend (G0 G1 : U128 → U128) (levels treeN : Nat) (seed : Nat → U128) (mem0 : Nat → Mem) (key : Nat → U128) :
    Option (List (List U128 × List (U128 × U128) × W)) :=
  (List.range treeN).mapM (fun i => spfssSend G0 G1 levels (seed i) (mem0 i) (key i))

/-- mpfss_reg.h:111-115, 127-132, receiver: the leaves of each tree. -/
def mpfssRecv (G0 G1 : U128 → U128) (levels treeN : Nat) (b : Nat → Nat → Bool) (m : Nat → Nat → U128) (mem0 : Nat → Mem)
    (share : Nat → W) (mac : Nat → U128) : Option (List (List U128)) :=
  (List.range treeN).mapM (fun i => spfssRecv G0 G1 levels (b i) (m i) (mem0 i) (share i) (mac i))

/-- mpfss_reg.h:201-209: the value hashed by the sender. `V` are the words of `check_VW_buf`. -/
def mpfssVb (delta : U128) (y : U128) (xStar : W) (V : List W) : W :=
  let tmp := multMod (low64 delta) xStar
  let tmp := addMod (low64 y) tmp
  V.foldl addMod (PR - tmp)

/-- mpfss_reg.h:217-224: `x_star`; `bc` are the pairs `delta2[i]`, `check_chialpha_buf[i]`. -/
def mpfssXStar (bc : List (U128 × W)) (z : U128) : W :=
  let s := bc.foldl (fun acc p => addMod acc (multMod (high64 p.1) p.2)) 0
  addMod (high64 z) (PR - s)

/-- mpfss_reg.h:228-230: the value hashed by the receiver. -/
def mpfssVa (z : U128) (Ws : List W) : W :=
  Ws.foldl (fun va w => low64 (mod128 (va.setWidth 128 + w.setWidth 128) PR128)) (PR - low64 z)

/-- mpfss_reg.h:145-149, 160-164, 177, 201-209, sender: check values of all trees, then the hashed word. -/
def mpfssCheckSend (digest : Nat → W) (treeN : Nat) (delta : U128) (y : U128) (trees : List (List U128)) (xStar : W) :
    Option W := do
  let V ← (List.range treeN).mapM (fun i => do let l ← trees[i]?; spfssCheckSend (mod64 (digest i)) l)
  some (mpfssVb delta y xStar V)

/-- mpfss_reg.h:150-153, 165-168, 179, 216-230, receiver: `x_star`, the hashed word, and the leaves with the noise values written. -/
def mpfssCheckRecv (digest : Nat → W) (levels treeN : Nat) (b : Nat → Nat → Bool) (mac : Nat → U128) (trees : List (List U128)) :
    Option (W × W × List (List U128)) := do
  let R ← (List.range treeN).mapM (fun i => do
    let l ← trees[i]?
    spfssCheckRecv (mod64 (digest i)) l (getIndex (b i) levels) (mac i))
  let bc := List.zipWith (fun i r => (mac i, r.1)) (List.range treeN) R
  some (mpfssXStar bc (mac treeN), mpfssVa (mac treeN) (R.map (fun r => r.2.1)), R.map (fun r => r.2.2))

end EmpZk
