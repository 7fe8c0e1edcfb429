/-
`ZkRamExt` (emp-zk/extensions/ram-zk/zk-mem-ext.h) as a program of a mixed session: the boolean gates, packed blocks, combinations and
products that its calls make, for both parties.

Simplifications as in `Model/RamNet.lean`: wires are numbered in the order in which they are created; the bits the prover inputs are computed
from the plain values of the wires; comparisons are circuits given from outside; the operands of `&`, `|` and the arguments of `pack` (115, 144)
are evaluated from left to right.
-/
import Verif.Model.RamNet
import Verif.Model.RamExt

namespace EmpZk

/-- The members of `ZkRamExt` (zk-mem-ext.h:7-20): plain values of all wires, number of committed blocks, the prover's state, the blocks of the
rows in `check_MAC`. -/
structure XNet where
  bits : List Bool
  nf : Nat
  st : ExtState
  macs : List (List Nat)

/-- A program with a memory of several words per cell: boolean instructions, and calls whose arguments are wires (zk-mem-ext.h:105-148). -/
inductive XOp where
  | bool (o : BOp)
  | read (ix : List Nat)
  | write (ix : List Nat) (vs : List (List Nat))

/-- zk-mem-ext.h:60-76: the loop of `pack` with its tail: the pieces of each block. -/
def xPackLoop (val : List (List Nat)) (rows : Nat) (dummy : Bool) : Nat → Nat → Nat → Option (List (List (Nat × List Nat)))
  | 0, _, _ => none
  | fuel + 1, i, j =>
    if i < rows - 1 then do
      let a ← val[j]?
      let b ← val[j + 1]?
      let rest ← xPackLoop val rows dummy fuel (i + 1) (j + 2)
      some ([(64, a), (0, b)] :: rest)
    else if i < rows then do
      let a ← val[j]?
      if dummy then some [[(64, a)]]
      else do
        let b ← val[j + 1]?
        some [[(64, a), (0, b)]]
    else some []

/-- zk-mem-ext.h:44-77 `pack`: the pieces of the blocks of a row; whole integers are packed. -/
def xPack (ix : List Nat) (val : List (List Nat)) (st : List Nat) (op : Nat) : Option (List (List (Nat × List Nat))) := do
  let v0 ← val[0]?
  let rest ← xPackLoop val (val.length / 2 + 1) (val.length % 2 == 0) (val.length + 1) 1 1
  some ([(0, v0), (64, [op]), (65, st), (96, ix)] :: rest)

/-- The wires of `k` integers of 64 bits, the first wire being `n` (zk-mem-ext.h:116-118, 196-218). -/
def wordWires (n k : Nat) : List (List Nat) := (List.range k).map (fun j => List.range' (n + 64 * j) 64)

/-- One call of the program (zk-mem-ext.h:105-148): the instructions it makes and the members afterwards. -/
def xGen (c : RxCfg) (g : XNet) : XOp → Option (List MOp × XNet)
  | .bool o => do
      let p ← plainStep ⟨g.bits, [], []⟩ o
      some ([MOp.bool o], { g with bits := p.wires })
  | .read ix => do
      let ib ← pick g.bits ix
      let (st, vs) ← extRead c g.st (bitsNum ib)
      let n := g.bits.length
      let ps ← xPack ix (wordWires n c.words) (List.range' (n + 64 * c.words) c.ssz) (n + 64 * c.words + c.ssz)
      some (vs.flatMap (inInt 64) ++ (pubInt c.ssz g.st.step ++ (MOp.bool (.pub false) :: ps.map MOp.packAt)),
        ⟨g.bits ++ (vs.flatMap (bitsOf 64) ++ (bitsOf c.ssz g.st.step ++ [false])), g.nf + ps.length, st,
          g.macs ++ [List.range' g.nf ps.length]⟩)
  | .write ix vs => do
      let ib ← pick g.bits ix
      let vbs ← vs.mapM (pick g.bits)
      let st ← extWrite c g.st (bitsNum ib) (vbs.map bitsNum)
      let n := g.bits.length
      let ps ← xPack ix vs (List.range' n c.ssz) (n + c.ssz)
      some (pubInt c.ssz g.st.step ++ (MOp.bool (.pub true) :: ps.map MOp.packAt),
        ⟨g.bits ++ (bitsOf c.ssz g.st.step ++ [true]), g.nf + ps.length, st, g.macs ++ [List.range' g.nf ps.length]⟩)

/-- The calls of a program one after the other (zk-mem-ext.h:105-148). -/
def xGens (c : RxCfg) : XNet → List XOp → Option (List MOp × XNet)
  | g, [] => some ([], g)
  | g, u :: us => do
      let (a, g1) ← xGen c g u
      let (b, g2) ← xGens c g1 us
      some (a ++ b, g2)

/-- Number of wires of one sorted row (zk-mem-ext.h:192-225). -/
def xRowW (c : RxCfg) : Nat := 64 * c.words + (1 + (c.ssz + c.isz))

/-- Wires of the words of the `k`-th sorted row, the first wire of the first row being `n` (zk-mem-ext.h:196-218). -/
def xRowVal (c : RxCfg) (n k : Nat) : List (List Nat) := wordWires (n + k * xRowW c) c.words

/-- See `xRowVal` (zk-mem-ext.h:220). -/
def xRowOp (c : RxCfg) (n k : Nat) : Nat := n + k * xRowW c + 64 * c.words

/-- See `xRowVal` (zk-mem-ext.h:222). -/
def xRowStep (c : RxCfg) (n k : Nat) : List Nat := List.range' (n + k * xRowW c + 64 * c.words + 1) c.ssz

/-- See `xRowVal` (zk-mem-ext.h:224). -/
def xRowIdx (c : RxCfg) (n k : Nat) : List Nat := List.range' (n + k * xRowW c + 64 * c.words + 1 + c.ssz) c.isz

/-- zk-mem-ext.h:192-225: the bits of a sorted row in the order of the inputs. -/
def xRowBits (c : RxCfg) (e : ExtEnt) : List Bool :=
  e.val.flatMap (bitsOf 64) ++ (e.op :: (bitsOf c.ssz e.step ++ bitsOf c.isz e.idx))

/-- zk-mem-ext.h:233-235: the comparison of the further words, with `n` wires and the result so far in wire `acc`; the gates, the number of
wires and the result afterwards. -/
def xValEq (lib : CmpLib) : Nat → Nat → List (List Nat × List Nat) → List BOp × Nat × Nat
  | n, acc, [] => ([], n, acc)
  | n, acc, (u, v) :: l =>
      let e := lib.eq n u v
      let n1 := n + e.length
      let q := xValEq lib (n1 + 1) n1 l
      (e ++ (BOp.and acc (n1 - 1) :: q.1), q.2)

/-- zk-mem-ext.h:230-238: one round of the condition for rows `i` and `i + 1`, with `n` wires and the condition in wire `cw`; the gates, the
number of wires and the condition afterwards. `none`: a cell without words. -/
def xRound (lib : CmpLib) (c : RxCfg) (base i n cw : Nat) : Option (List BOp × Nat × Nat) := do
  let u0 ← (xRowVal c base i)[0]?
  let v0 ← (xRowVal c base (i + 1))[0]?
  let e := lib.eq n (xRowIdx c base i) (xRowIdx c base (i + 1))
  let n1 := n + e.length
  let s := lib.lt (n1 + 1) (xRowStep c base i) (xRowStep c base (i + 1))
  let n2 := n1 + 1 + s.length
  let v := lib.eq n2 u0 v0
  let n3 := n2 + v.length
  let q := xValEq lib n3 (n3 - 1) ((xRowVal c base i).tail.zip (xRowVal c base (i + 1)).tail)
  let n4 := q.2.1
  let op := xRowOp c base (i + 1)
  some (e ++ (BOp.not (n1 - 1) :: (s ++ (v ++ (q.1 ++ (BOp.not n1 :: BOp.and n4 (n2 - 1) :: BOp.not op :: BOp.and (n4 + 2) q.2.2 ::
    (orOps (n4 + 4) (n4 + 3) op ++ (BOp.and (n4 + 1) (n4 + 6) :: (orOps (n4 + 8) n1 (n4 + 7) ++ [BOp.and cw (n4 + 10)])))))))),
    n4 + 12, n4 + 11)

/-- zk-mem-ext.h:229-244: all rounds. -/
def xRounds (lib : CmpLib) (c : RxCfg) (base : Nat) : List Nat → Nat → Nat → Option (List BOp × Nat)
  | [], _, cw => some ([], cw)
  | i :: is, n, cw => do
      let r ← xRound lib c base i n cw
      let q ← xRounds lib c base is r.2.1 r.2.2
      some (r.1 ++ q.1, q.2)

/-- zk-mem-ext.h:286-297, one row of `compress_rows`: pairs (coefficient, block) from coefficient `j` on, `n` of them; `none`: the row is too
short. -/
def xLin : Nat → Nat → List Nat → Option (List (Nat × Nat))
  | _, 0, _ => some []
  | j, n + 1, i :: b => (xLin (j + 1) n b).map ((j, i) :: ·)
  | _, _ + 1, [] => none

/-- zk-mem-ext.h:163-276 `check`; `none` also if it throws (245-247). -/
def xCheckGen (lib : CmpLib) (c : RxCfg) (g : XNet) : Option (List MOp) := do
  let (_, chk) ← extCheck c g.st
  let n := g.bits.length
  let m := g.st.step
  let n1 := n + m * xRowW c
  let q ← xRounds lib c n (List.range (m - 1)) (n1 + 1) n1
  if chk.cond = false then none else
  let packs ← (List.range m).mapM (fun k => xPack (xRowIdx c n k) (xRowVal c n k) (xRowStep c n k) (xRowOp c n k))
  let bsz := (c.words + 2) / 2
  let sorted := (List.range m).map (fun k => List.range' (g.nf + k * (c.words / 2 + 1)) (c.words / 2 + 1))
  let la ← (List.range m).mapM (fun i => (g.macs[i]?).bind (xLin 0 bsz))
  let lb ← (List.range m).mapM (fun i => (sorted[i]?).bind (xLin 0 bsz))
  let n2 := g.nf + m * (c.words / 2 + 1)
  let se ← setEqOps (n2 + m + m) bsz m (List.range' (n2 + m) m) (List.range' n2 m)
  some ((chk.rows.flatMap (xRowBits c)).map (fun b => MOp.bool (.input b)) ++ (MOp.bool (.pub true) :: (q.1.map MOp.bool ++
    (MOp.bool (.reveal q.2) :: MOp.sync :: (packs.flatten.map MOp.packAt ++ (MOp.chals bsz ::
      (la.map MOp.lin ++ (lb.map MOp.lin ++ se))))))))

/-- A whole program with one memory: its calls and the check, when `bits` are the wires before (zk-mem-ext.h:22-37, 105-148, 163-276). -/
def extGen (lib : CmpLib) (c : RxCfg) (bits : List Bool) (us : List XOp) : Option (List MOp) := do
  let (a, g) ← xGens c ⟨bits, 0, extInit c, []⟩ us
  let b ← xCheckGen lib c g
  some (a ++ b)

end EmpZk
