/-
`ROZKRAM` (emp-zk/extensions/ram-zk/ro-zk-mem.h) as a program of a mixed session: the boolean gates, packed words and products that its calls
make, for both parties; with the automatic checks inside the program.

Wires of the session are numbered in the order in which they are created; the wires of the program (not those a check makes for itself) have
numbers of their own, and a list says which wire of the session each of them is. Simplifications as in `Verif.Model.RamNet`: the bits the
prover inputs are computed from plain values; `equal`, `geq` (emp-tool) are circuits given from outside; operands of `&` and `|` from left to
right.
-/
import Verif.Model.RamNet
import Verif.Model.RoRam

namespace EmpZk

/-- The members of `ROZKRAM` (ro-zk-mem.h:8-16): plain values of all wires, the wires of the program, number of committed blocks and of
challenges so far, the prover's state, the blocks in `check_MAC`. -/
structure RoNet where
  bits : List Bool
  uw : List Nat
  nf : Nat
  nr : Nat
  st : RoState
  macs : List Nat

/-- A program with a read-only memory: boolean instructions, reads at the number in some wires, checks (ro-zk-mem.h:44-121). -/
inductive VOp where
  | bool (o : BOp)
  | read (ix : List Nat)
  | check

/-- An instruction with the program's wires replaced by wires of the session (the operands a caller holds, ro-zk-mem.h:31-62). -/
def BOp.rename (uw : List Nat) : BOp → Option BOp
  | .input b => some (.input b)
  | .pub b => some (.pub b)
  | .xor i j => do
      let a ← uw[i]?
      let b ← uw[j]?
      some (.xor a b)
  | .not i => do
      let a ← uw[i]?
      some (.not a)
  | .and i j => do
      let a ← uw[i]?
      let b ← uw[j]?
      some (.and a b)
  | .reveal i => do
      let a ← uw[i]?
      some (.reveal a)
  | .poly s => do
      let t ← s.lookup uw
      some (.poly t)

/-- A boolean instruction of the program (ro-zk-mem.h:31-62, the calls in between). -/
def vBool (g : RoNet) (o : BOp) : Option (BOp × RoNet) := do
  let o' ← o.rename g.uw
  let p ← plainStep ⟨g.bits, [], []⟩ o'
  some (o', { g with bits := p.wires, uw := g.uw ++ List.range' g.bits.length (p.wires.length - g.bits.length) })

/-- ro-zk-mem.h:64-70: the wires packed, value first; reading past the end of an `Integer` is undefined. -/
def roPackWires (c : RoCfg) (ix vs : List Nat) : Option (List Nat) :=
  if c.isz ≤ ix.length ∧ c.vsz ≤ vs.length then some (vs.take c.vsz ++ ix.take c.isz) else none

/-- ro-zk-mem.h:31-42 `init` for the elements `data`, the first one having number `i`; `none`: also a failed assertion (line 40). -/
def vInit (c : RoCfg) : Nat → RoNet → List (List Nat) → Option (List MOp × RoNet)
  | _, g, [] => some ([], g)
  | i, g, d :: ds => do
      let vs ← pick g.uw d
      let vb ← pick g.bits vs
      if vs.length ≠ c.vsz then none
      let st ← roInitFrom c i g.st [bitsNum vb]
      let ws ← roPackWires c (List.range' g.bits.length (c.isz + 1)) vs
      let (b, g1) ← vInit c (i + 1)
        { g with bits := g.bits ++ bitsOf (c.isz + 1) i, nf := g.nf + 1, st := st, macs := g.macs ++ [g.nf] } ds
      some (pubInt (c.isz + 1) i ++ MOp.pack ws :: b, g1)

/-- Number of wires of one sorted row (ro-zk-mem.h:92-94). -/
def roW (c : RoCfg) : Nat := c.vsz + (c.isz + 1)

/-- Wires of the value of the `k`-th sorted row, the first wire of the first row being `n` (ro-zk-mem.h:92). -/
def roValW (c : RoCfg) (n k : Nat) : List Nat := List.range' (n + k * roW c) c.vsz

/-- See `roValW`: the index (ro-zk-mem.h:94). -/
def roIdxW (c : RoCfg) (n k : Nat) : List Nat := List.range' (n + k * roW c + c.vsz) (c.isz + 1)

/-- ro-zk-mem.h:86-97: the rows from number `k` on: value and index are input, then packed. -/
def roRowsOps (c : RoCfg) (n : Nat) : Nat → List RoEnt → Option (List MOp)
  | _, [] => some []
  | k, e :: es => do
      let ws ← roPackWires c (roIdxW c n k) (roValW c n k)
      let r ← roRowsOps c n (k + 1) es
      some (inInt c.vsz e.val ++ (inInt (c.isz + 1) e.idx ++ MOp.pack ws :: r))

/-- The bits of a row in the order of the inputs (ro-zk-mem.h:92-94). -/
def roRowBits (c : RoCfg) (e : RoEnt) : List Bool := bitsOf c.vsz e.val ++ bitsOf (c.isz + 1) e.idx

/-- ro-zk-mem.h:103-106: one round of the condition for rows `i` and `i + 1`, with `n` wires before; the gates and the number of wires
afterwards. `!(x.geq(y))` is `x < y`. -/
def roRound (lib : CmpLib) (c : RoCfg) (base i n : Nat) : List BOp × Nat :=
  let l := lib.lt n (roIdxW c base i) (roIdxW c base (i + 1))
  let n1 := n + l.length
  let e := lib.eq n1 (roIdxW c base i) (roIdxW c base (i + 1))
  let n2 := n1 + e.length
  let v := lib.eq n2 (roValW c base i) (roValW c base (i + 1))
  let n3 := n2 + v.length
  (l ++ (e ++ (v ++ (BOp.and (n2 - 1) (n3 - 1) :: (orOps (n3 + 1) (n1 - 1) n3 ++ [BOp.reveal (n3 + 3)])))), n3 + 4)

/-- ro-zk-mem.h:102-108: all rounds. -/
def roRounds (lib : CmpLib) (c : RoCfg) (base : Nat) : List Nat → Nat → List BOp
  | [], _ => []
  | i :: is, n => (roRound lib c base i n).1 ++ roRounds lib c base is (roRound lib c base i n).2

/-- ro-zk-mem.h:198-199, 204: the product has the running product as last factor (first one in zk-mem.h). -/
def MOp.accLast : MOp → MOp
  | .mulN (a :: l) => .mulN (l ++ [a])
  | o => o

/-- Instructions that make a committed block (ro-zk-mem.h:64-70, 186-207). -/
def MOp.makes : MOp → Bool
  | .pack _ => true
  | .addc _ _ => true
  | .mul _ _ => true
  | .mulN _ => true
  | .packAt _ => true
  | .lin _ => true
  | _ => false

/-- ro-zk-mem.h:76-121 `check`. `none`: also `error("cheat!")` (line 111), which both parties call when a revealed bit is false. -/
def roCheckGen (lib : CmpLib) (c : RoCfg) (g : RoNet) : Option (List MOp × RoNet) := do
  let (st, chk) ← roCheck c g.st
  if chk.cond = false then none
  let n := g.bits.length
  let m := g.st.list.length
  let q := roRounds lib c n (List.range (m - 1)) (n + m * roW c)
  let rows ← roRowsOps c n 0 chk.rows
  let se ← setEqOps (g.nf + m) g.nr m (List.range' g.nf m) g.macs
  let b ← q.foldlM plainStep ⟨g.bits ++ chk.rows.flatMap (roRowBits c), [], []⟩
  some (rows ++ (q.map MOp.bool ++ MOp.sync :: se.map MOp.accLast),
    ⟨b.wires, g.uw, g.nf + m + se.countP MOp.makes, g.nr + 1, st, g.macs.take g.st.mem.length⟩)

/-- ro-zk-mem.h:44-58: `read` up to the automatic check. -/
def vPush (c : RoCfg) (g : RoNet) (ix : List Nat) : Option (List MOp × RoNet) := do
  let iw ← pick g.uw ix
  let ib ← pick g.bits iw
  let (st, v) ← roPush c g.st (bitsNum ib)
  let n := g.bits.length
  let ws ← roPackWires c iw (List.range' n c.vsz)
  some (inInt c.vsz v ++ [MOp.pack ws], ⟨g.bits ++ bitsOf c.vsz v, g.uw ++ List.range' n c.vsz, g.nf + 1, g.nr, st, g.macs ++ [g.nf]⟩)

/-- One call of the program (ro-zk-mem.h:44-121). -/
def vGen (lib : CmpLib) (c : RoCfg) (g : RoNet) : VOp → Option (List MOp × RoNet)
  | .bool o => do
      let (o', g1) ← vBool g o
      some ([MOp.bool o'], g1)
  | .read ix => do
      let (a, g1) ← vPush c g ix
      if g1.st.step = g1.st.mem.length * 8 then do
        let (b, g2) ← roCheckGen lib c g1
        some (a ++ b, g2)
      else some (a, g1)
  | .check => roCheckGen lib c g

/-- The calls of a program one after the other (ro-zk-mem.h:44-121). -/
def vGens (lib : CmpLib) (c : RoCfg) : RoNet → List VOp → Option (List MOp × RoNet)
  | g, [] => some ([], g)
  | g, u :: us => do
      let (a, g1) ← vGen lib c g u
      let (b, g2) ← vGens lib c g1 us
      some (a ++ b, g2)

/-- The boolean instructions after the memory is destroyed (ro-zk-mem.h:29). -/
def vBools : RoNet → List BOp → Option (List BOp)
  | _, [] => some []
  | g, o :: os => do
      let (o', g1) ← vBool g o
      let r ← vBools g1 os
      some (o' :: r)

/-- A whole program with one read-only memory when `bits` are the wires before: `init` with the wires `data`, the calls `us`, and after the
memory is destroyed the instructions `post` (ro-zk-mem.h:18-121). -/
def roProg (lib : CmpLib) (c : RoCfg) (bits : List Bool) (data : List (List Nat)) (us : List VOp) (post : List BOp) :
    Option (List MOp × List BOp) := do
  let (a, g) ← vInit c 0 ⟨bits, List.range bits.length, 0, 0, ⟨[], [], [], 0⟩, []⟩ data
  let (b, g1) ← vGens lib c g us
  let p ← vBools g1 post
  some (a ++ b, p)

end EmpZk
