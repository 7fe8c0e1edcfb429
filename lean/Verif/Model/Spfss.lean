/-
Model of emp-zk/emp-vole/spfss_sender.h and emp-zk/emp-vole/spfss_recver.h : single-point function sharing over F_p by a
GGM tree.

`G0`, `G1` are the two children of a node: emp-tool's `TwoKeyPRP` (external, an arbitrary pair of functions here), whose
`node_expand_1to2` writes `G0 x, G1 x` and whose `node_expand_2to4` reads two nodes and writes the four children.
The tree memory is a function from indices (`ggm_tree[k]`); `levels` is `depth - 1`, the number of OTs; `int` indices are
natural numbers.
-/
import Verif.Model.Word

namespace EmpZk

/-- The tree memory `ggm_tree`, spfss_sender.h:14, spfss_recver.h:12. -/
abbrev Mem := Nat → U128

/-- assignment `ggm_tree[i] = x`, e.g. spfss_recver.h:92. -/
def Mem.set (mem : Mem) (i : Nat) (x : U128) : Mem := fun k => if k = i then x else mem k

/-- spfss_sender.h:61, spfss_recver.h:96 `node_expand_2to4(&ggm_tree[i*2], &ggm_tree[i])`: both nodes are read before the four
children are written. -/
def expand2to4 (G0 G1 : U128 → U128) (mem : Mem) (i : Nat) : Mem :=
  let a := mem i
  let b := mem (i + 1)
  (((mem.set (2 * i) (G0 a)).set (2 * i + 1) (G1 a)).set (2 * i + 2) (G0 b)).set (2 * i + 3) (G1 b)

/-- spfss_recver.h:95-96: the loop `for (i = item_n - 2; i >= 0; i -= 2)` over `n = item_n / 2` pairs. -/
def expandLoop (G0 G1 : U128 → U128) : Nat → Mem → Mem
  | 0, mem => mem
  | j + 1, mem => expandLoop G0 G1 j (expand2to4 G0 G1 mem (2 * j))

/-- spfss_sender.h:58-66: the same loop with the two accumulated OT messages. -/
def expandAcc (G0 G1 : U128 → U128) : Nat → Mem → U128 → U128 → Mem × U128 × U128
  | 0, mem, a, b => (mem, a, b)
  | j + 1, mem, a, b =>
    let mem := expand2to4 G0 G1 mem (2 * j)
    expandAcc G0 G1 j mem (a ^^^ mem (4 * j) ^^^ mem (4 * j + 2)) (b ^^^ mem (4 * j + 1) ^^^ mem (4 * j + 3))

/-- spfss_sender.h:52-67: memory and OT messages of levels `0 .. h`. -/
def ggmGen (G0 G1 : U128 → U128) (seed : U128) (mem0 : Mem) : Nat → Mem × List (U128 × U128)
  | 0 =>
    let mem := (mem0.set 0 (G0 seed)).set 1 (G1 seed)
    (mem, [(mem 0, mem 1)])
  | h + 1 =>
    let (mem, msgs) := ggmGen G0 G1 seed mem0 h
    let (mem, a, b) := expandAcc G0 G1 (2 ^ h) mem 0 0
    (mem, msgs ++ [(a, b)])

/-- spfss_sender.h:69-73, spfss_recver.h:58-62: sum of the (reduced) leaves. -/
def leafSum : W → List U128 → W
  | acc, [] => acc
  | acc, x :: xs => leafSum (addMod acc (low64 (extractFp x))) xs

/-- spfss_sender.h:50-76 `ggm_tree_gen`, 36-40 `compute`: leaves, OT messages and `secret_sum`. For `depth < 2` the code writes
outside its arrays (`none`). -/
def spfssSend (G0 G1 : U128 → U128) (levels : Nat) (seed : U128) (mem0 : Mem) (gamma : U128) :
    Option (List U128 × List (U128 × U128) × W) :=
  if levels = 0 then none
  else
    let (mem, msgs) := ggmGen G0 G1 seed mem0 (levels - 1)
    let raw := (List.range (2 ^ levels)).map mem
    some (raw.map extractFp, msgs, addMod (low64 gamma) (PR - leafSum 0 raw))

/-- spfss_recver.h:32-40 `get_index`, after the first `n` choice bits. -/
def getIndex (b : Nat → Bool) : Nat → Nat
  | 0 => 0
  | n + 1 => 2 * getIndex b n + (if !b n then 1 else 0)

/-- spfss_recver.h:86-91: the loop `for (i = lr_start; i < item_n; i += 2)` over `n = item_n / 2` nodes. -/
def xorStride (mem : Mem) (lr : Nat) : Nat → U128
  | 0 => 0
  | n + 1 => xorStride mem lr n ^^^ mem (lr + 2 * n)

/-- spfss_recver.h:83-97 `layer_recover(depth, lr, to_fill_idx, sum)` for layer `i >= 1`. -/
def layerRecover (G0 G1 : U128 → U128) (levels i lr fill : Nat) (sum : U128) (mem : Mem) : Mem :=
  let mem := mem.set fill (xorStride mem lr (2 ^ (i - 1)) ^^^ sum)
  if i = levels then mem else expandLoop G0 G1 (2 ^ (i - 1)) mem

/-- spfss_recver.h:69-81 `ggm_tree_reconstruction`: `to_fill_idx` and memory after the first `i` layers. -/
def ggmRecon (G0 G1 : U128 → U128) (levels : Nat) (b : Nat → Bool) (m : Nat → U128) (mem0 : Mem) : Nat → Nat × Mem
  | 0 => (0, mem0)
  | i + 1 =>
    let (fill, mem) := ggmRecon G0 G1 levels b m mem0 i
    let fill := fill * 2
    let mem := (mem.set (fill + 1) 0).set fill 0
    if b i = false then (fill + 1, layerRecover G0 G1 levels (i + 1) 0 fill (m i) mem)
    else (fill, layerRecover G0 G1 levels (i + 1) 1 (fill + 1) (m i) mem)

/-- spfss_recver.h:52-67 `compute`: `share` is the received `secret_sum`, `delta2` the own correlation; result: the leaves. -/
def spfssRecv (G0 G1 : U128 → U128) (levels : Nat) (b : Nat → Bool) (m : Nat → U128) (mem0 : Mem) (share : W)
    (delta2 : U128) : Option (List U128) :=
  if levels = 0 then none
  else
    let pos := getIndex b levels
    let mem := (ggmRecon G0 G1 levels b m mem0 levels).2.set pos 0
    let raw := (List.range (2 ^ levels)).map mem
    let nodesSum := addMod share (leafSum 0 raw)
    some ((raw.map extractFp).set pos ((addMod (low64 delta2) (PR - nodesSum)).setWidth 128))

/-- spfss_sender.h:108-120 `consistency_check_msg_gen`, with `digest` the reduced hash of the seed. -/
def spfssCheckSend (digest : W) (leaves : List U128) : Option W := do
  let chi ← uniHashCoeffGen digest leaves.length
  some (innPrdtSumRed chi (leaves.map low64))

/-- spfss_recver.h:142-160 `consistency_check_msg_gen`: `chi_alpha`, `W` and the leaves with `beta` in the upper half. -/
def spfssCheckRecv (digest : W) (leaves : List U128) (pos : Nat) (beta : U128) : Option (W × W × List U128) := do
  let chi ← uniHashCoeffGen digest leaves.length
  let chiAlpha ← chi[pos]?
  let x ← leaves[pos]?
  some (chiAlpha, innPrdtSumRed chi (leaves.map low64), leaves.set pos (((high64 beta).setWidth 128 <<< 64) ^^^ x))

end EmpZk
