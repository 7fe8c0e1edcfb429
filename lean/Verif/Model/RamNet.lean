/-
`ZKRAM` (emp-zk/extensions/ram-zk/zk-mem.h) as a program of a mixed session: the boolean gates, packed words and products that its calls
make, for both parties.

Wires are numbered in the order in which they are created. Simplification: the bits the prover inputs are computed from the plain values of the
wires (`getLSB` of its labels in the code; equal by C06); `Integer::operator==`, `<` (emp-tool) are circuits given from outside; the
operands of `&` and `|` are evaluated from left to right.
-/
import Verif.Model.MixNet
import Verif.Model.ZkRam

namespace EmpZk

/-- Bits of an `Integer(w, x, …)`, lowest first (emp-tool external; zk-mem.h:72-77). -/
def bitsOf (w x : Nat) : List Bool := (List.range w).map (fun i => x.testBit i)

/-- emp-tool `Integer::reveal<uint64_t>` (external; zk-mem.h:59, 84, 101-102): the number with these bits. -/
def bitsNum (bs : List Bool) : Nat := bs.foldr (fun b v => b.toNat + 2 * v) 0

/-- Circuits of emp-tool (external; zk-mem.h:157-162): given the number of wires so far and the wires of the operands, gates whose last output
is the result. -/
structure CmpLib where
  eq : Nat → List Nat → List Nat → List BOp
  lt : Nat → List Nat → List Nat → List BOp

/-- emp-tool `Integer::equal` (external; zk-mem.h:157, 161): the conjunction over the bits, starting from `acc`. -/
def empEqOps : Nat → Nat → List (Nat × Nat) → List BOp
  | _, _, [] => []
  | n, acc, (a, b) :: l => [.xor a b, .not n, .and acc (n + 1)] ++ empEqOps (n + 3) (n + 2) l

/-- emp-tool `sub_full` and `Integer::operator<` (external; zk-mem.h:158-159): the difference with the borrow in wire `br`; the top bit,
negated twice. -/
def empSubOps : Nat → Nat → List (Nat × Nat) → List BOp
  | _, _, [] => []
  | n, br, [(a, b)] => [.xor a b, .xor n br, .not (n + 1), .not (n + 2)]
  | n, br, (a, b) :: p :: l => [.xor a b, .xor br b, .and n (n + 1), .xor n br, .xor br (n + 2)] ++ empSubOps (n + 5) (n + 4) (p :: l)

/-- The comparisons of emp-tool as far as they are documented (external; zk-mem.h:157-162). -/
def empLib : CmpLib where
  eq := fun n us vs => .pub true :: empEqOps (n + 1) n (us.zip vs)
  lt := fun n us vs => .pub false :: empSubOps (n + 1) n (us.zip vs)

/-- The members of `ZKRAM` (zk-mem.h:7-16): plain values of all wires, number of committed blocks, the prover's state, the blocks in
`check_MAC`. -/
structure RNet where
  bits : List Bool
  nf : Nat
  ram : RamState
  macs : List Nat

/-- A program with a memory: boolean instructions, and calls whose arguments are wires (zk-mem.h:57-113). -/
inductive UOp where
  | bool (o : BOp)
  | read (ix : List Nat)
  | write (ix vs : List Nat)
  | access (op : Nat) (ix vs : List Nat)

/-- `Integer(w, x, ALICE)` (zk-mem.h:72, 91, 141-152). -/
def inInt (w x : Nat) : List MOp := (bitsOf w x).map (fun b => MOp.bool (.input b))

/-- `Integer(w, x, PUBLIC)` (zk-mem.h:75, 93, 109). -/
def pubInt (w x : Nat) : List MOp := (bitsOf w x).map (fun b => MOp.bool (.pub b))

/-- zk-mem.h:33-47: the wires packed, value first; reading past the end of an `Integer` is undefined. -/
def packWires (c : RamCfg) (ix vs st : List Nat) (op : Nat) : Option (List Nat) :=
  if c.isz ≤ ix.length ∧ c.vsz ≤ vs.length ∧ c.ssz ≤ st.length then
    some (vs.take c.vsz ++ op :: (st.take c.ssz ++ ix.take c.isz))
  else none

/-- One call of the program (zk-mem.h:57-113): the instructions it makes and the members afterwards. -/
def uGen (c : RamCfg) (g : RNet) : UOp → Option (List MOp × RNet)
  | .bool o => do
      let p ← plainStep ⟨g.bits, [], []⟩ o
      some ([MOp.bool o], { g with bits := p.wires })
  | .read ix => do
      let ib ← pick g.bits ix
      let (ram, v) ← ramRead c g.ram (bitsNum ib)
      let n := g.bits.length
      let ws ← packWires c ix (List.range' n c.vsz) (List.range' (n + c.vsz) c.ssz) (n + c.vsz + c.ssz)
      some (inInt c.vsz v ++ (pubInt c.ssz g.ram.step ++ [MOp.bool (.pub false), MOp.pack ws]),
        ⟨g.bits ++ (bitsOf c.vsz v ++ (bitsOf c.ssz g.ram.step ++ [false])), g.nf + 1, ram, g.macs ++ [g.nf]⟩)
  | .write ix vs => do
      let ib ← pick g.bits ix
      let vb ← pick g.bits vs
      let ram ← ramWrite c g.ram (bitsNum ib) (bitsNum vb)
      let n := g.bits.length
      let ws ← packWires c ix vs (List.range' n c.ssz) (n + c.ssz)
      some (pubInt c.ssz g.ram.step ++ [MOp.bool (.pub true), MOp.pack ws],
        ⟨g.bits ++ (bitsOf c.ssz g.ram.step ++ [true]), g.nf + 1, ram, g.macs ++ [g.nf]⟩)
  | .access op ix vs => do
      let ib ← pick g.bits ix
      let ob ← g.bits[op]?
      let vb ← pick g.bits vs
      let (ram, v) ← ramAccess c g.ram ob (bitsNum ib) (bitsNum vb)
      let n := g.bits.length
      let ws ← packWires c ix (List.range' n c.vsz) (List.range' (n + c.vsz) c.ssz) op
      some (inInt c.vsz v ++ (pubInt c.ssz g.ram.step ++ [MOp.pack ws]),
        ⟨g.bits ++ (bitsOf c.vsz v ++ bitsOf c.ssz g.ram.step), g.nf + 1, ram, g.macs ++ [g.nf]⟩)

/-- The calls of a program one after the other (zk-mem.h:57-113). -/
def uGens (c : RamCfg) : RNet → List UOp → Option (List MOp × RNet)
  | g, [] => some ([], g)
  | g, u :: us => do
      let (a, g1) ← uGen c g u
      let (b, g2) ← uGens c g1 us
      some (a ++ b, g2)

/-- Number of wires of one sorted row (zk-mem.h:141-152). -/
def rowW (c : RamCfg) : Nat := c.vsz + (1 + (c.ssz + (c.isz + 1)))

/-- Wires of the value, the flag, the step and the index of the `k`-th sorted row, the first wire of the first row being `n`
(zk-mem.h:141-152). -/
def rowVal (c : RamCfg) (n k : Nat) : List Nat := List.range' (n + k * rowW c) c.vsz

/-- See `rowVal` (zk-mem.h:145). -/
def rowOp (c : RamCfg) (n k : Nat) : Nat := n + k * rowW c + c.vsz

/-- See `rowVal` (zk-mem.h:147). -/
def rowStep (c : RamCfg) (n k : Nat) : List Nat := List.range' (n + k * rowW c + c.vsz + 1) c.ssz

/-- See `rowVal` (zk-mem.h:149). -/
def rowIdx (c : RamCfg) (n k : Nat) : List Nat := List.range' (n + k * rowW c + c.vsz + 1 + c.ssz) (c.isz + 1)

/-- zk-mem.h:138-150: the bits of a sorted row in the order of the inputs. -/
def rowBits (c : RamCfg) (e : RamEnt) : List Bool :=
  bitsOf c.vsz e.val ++ (e.op :: (bitsOf c.ssz e.step ++ bitsOf (c.isz + 1) e.idx))

/-- emp-tool `Bit::operator|` (external; zk-mem.h:155-159): three gates, the last one is the result. -/
def orOps (n a b : Nat) : List BOp := [.xor a b, .and a b, .xor n (n + 1)]

/-- zk-mem.h:155-160: one round of the condition for rows `i` and `i + 1`, with `n` wires and the condition in wire `cw`; the gates, the
number of wires and the condition afterwards. -/
def condRound (lib : CmpLib) (c : RamCfg) (base i n cw : Nat) : List BOp × Nat × Nat :=
  let e := lib.eq n (rowIdx c base i) (rowIdx c base (i + 1))
  let n1 := n + e.length
  let l := lib.lt n1 (rowIdx c base i) (rowIdx c base (i + 1))
  let n2 := n1 + l.length
  let s := lib.lt n2 (rowStep c base i) (rowStep c base (i + 1))
  let n3 := n2 + s.length
  let v := lib.eq (n3 + 5) (rowVal c base i) (rowVal c base (i + 1))
  let n4 := n3 + 5 + v.length
  (e ++ (l ++ (s ++ (BOp.and (n1 - 1) (n3 - 1) :: (orOps (n3 + 1) (n2 - 1) n3 ++ (BOp.and cw (n3 + 3) ::
    (v ++ (orOps n4 (n4 - 1) (rowOp c base (i + 1)) ++ (BOp.and (n3 + 4) (n4 + 2) ::
      (orOps (n4 + 4) (n1 - 1) (rowOp c base (i + 1)) ++ [BOp.and (n4 + 3) (n4 + 6)]))))))))), n4 + 8, n4 + 7)

/-- zk-mem.h:154-160: all rounds. -/
def condRounds (lib : CmpLib) (c : RamCfg) (base : Nat) : List Nat → Nat → Nat → List BOp × Nat
  | [], _, cw => ([], cw)
  | i :: is, n, cw =>
      let r := condRound lib c base i n cw
      let q := condRounds lib c base is r.2.1 r.2.2
      (r.1 ++ q.1, q.2)

/-- zk-mem.h:128-183 `check`. -/
def checkGen (lib : CmpLib) (c : RamCfg) (g : RNet) : Option (List MOp) := do
  let (_, chk) ← ramCheck c g.ram
  let n := g.bits.length
  let m := g.ram.step
  let n1 := n + m * rowW c
  let q := condRounds lib c n (List.range (m - 1)) (n1 + 1) n1
  let packs ← (List.range m).mapM (fun k => packWires c (rowIdx c n k) (rowVal c n k) (rowStep c n k) (rowOp c n k))
  let se ← setEqOps (g.nf + m) 0 m (List.range' g.nf m) g.macs
  some ((chk.rows.flatMap (rowBits c)).map (fun b => MOp.bool (.input b)) ++ (MOp.bool (.pub true) :: (q.1.map MOp.bool ++
    (MOp.bool (.reveal q.2) :: MOp.sync :: (packs.map MOp.pack ++ se)))))

/-- A whole program with one memory: its calls and the check, when `bits` are the wires before (zk-mem.h:18-30, 57-183). -/
def ramGen (lib : CmpLib) (c : RamCfg) (bits : List Bool) (us : List UOp) : Option (List MOp) := do
  let (a, g) ← uGens c ⟨bits, 0, ramInit c, []⟩ us
  let b ← checkGen lib c g
  some (a ++ b)

end EmpZk
