import Verif.Model.F2kGate
import Verif.Spec.Memory
/-!
emp-zk/extensions/ram-zk/zk-mem.h: `ZKRAM`. Committed integers are given by their values (the commitments themselves are the
subject of C03-C09); `Integer(n, x, …)` keeps the low `n` bits of `x`. `none` = undefined behaviour.
-/
namespace EmpZk

/-- zk-mem.h:11, 18-21: widths given to the constructor. -/
structure RamCfg where
  isz : Nat
  ssz : Nat
  vsz : Nat

/-- One committed row: index, step, op, value (zk-mem.h:34-47 and 135-136, 141-153). -/
structure RowOf (α : Type) where
  idx : Nat
  step : Nat
  op : Bool
  val : α
deriving DecidableEq, Repr

/-- Rows of `ZKRAM`: the value is one integer (zk-mem.h:135-136). -/
abbrev RamEnt := RowOf Nat

/-- The access of a row, without its step (zk-mem.h:49-55). -/
def RowOf.acc {α : Type} (e : RowOf α) : Acc α := ⟨e.idx, e.op, e.val⟩

/-- emp-tool `Integer::operator<` (external) as used at zk-mem.h:159-160 on `n`-bit integers: the top bit of the difference. -/
def ltW (n a b : Nat) : Bool := ((a + 2 ^ n - b) % 2 ^ n).testBit (n - 1)

/-- zk-mem.h:50-55 `pack(index, value, step, op)`: shifts of 64-bit words, then of a 128-bit word; a shift by the width or more
is undefined. -/
def packU (c : RamCfg) (index value step : Nat) (op : Bool) : Option Nat :=
  if c.ssz + 1 < 64 ∧ c.vsz < 128 then
    some (((((index <<< (c.ssz + 1)) % 2 ^ 64) ||| ((step <<< 1) % 2 ^ 64) ||| (op.toNat &&& 1)) <<< c.vsz) % 2 ^ 128 ||| value)
  else none

/-- zk-mem.h:138-153: a packed word taken apart again; the index is stored in `index_sz + 1` bits. -/
def unpackU (c : RamCfg) (w : Nat) : RamEnt :=
  let high := (w >>> c.vsz) % 2 ^ 64
  { val := w &&& (2 ^ c.vsz - 1)
    op := high.testBit 0
    step := (high >>> 1) &&& (2 ^ c.ssz - 1)
    idx := (w >>> c.vsz >>> (c.ssz + 1)) &&& (2 ^ c.isz - 1) }

/-- zk-mem.h:157-163: the condition on two neighbouring rows of the sorted list. -/
def ramCond2 (c : RamCfg) (p e : RamEnt) : Bool :=
  (ltW (c.isz + 1) p.idx e.idx || (p.idx == e.idx && ltW c.ssz p.step e.step)) &&
    (p.val == e.val || e.op) && (p.idx == e.idx || e.op)

/-- zk-mem.h:155-163: the whole condition. -/
def ramCond (c : RamCfg) : List RamEnt → Bool
  | p :: e :: l => ramCond2 c p e && ramCond c (e :: l)
  | _ => true

/-- zk-mem.h:34-47 and 171-174: the value packed into the MAC of a row, index bits `index_sz` and above being left out. The sum
over the packing basis is modelled in `packMac`. -/
def ramPacked (c : RamCfg) (e : RamEnt) : Nat :=
  e.val % 2 ^ c.vsz + 2 ^ c.vsz * (e.op.toNat + 2 * (e.step % 2 ^ c.ssz + 2 ^ c.ssz * (e.idx % 2 ^ c.isz)))

section
variable {F : Type} [Field F] [BlockField F]

/-- emp-tool `vector_inn_prdt_sum_red` with `gfp.base + off` (external): combination of blocks with powers of `X` (zk-mem.h:37-44). -/
def innFrom (off : Nat) : List F → F
  | [] => 0
  | b :: bs => b * gX ^ off + innFrom (off + 1) bs

/-- One call of `vector_inn_prdt_sum_red(&res, bits, gfp.base + off, n)`: reads `n` blocks of bits and of the 128 in `base`
(zk-mem.h:37-44). -/
def innBase (off : Nat) (bs : List F) (n : Nat) : Option F :=
  if n ≤ bs.length ∧ off + n ≤ 128 then some (innFrom off (bs.take n)) else none

/-- zk-mem.h:34-47 `pack(mac, index, val, step, op)` on blocks (MACs for ALICE, keys for BOB). -/
def packMac (c : RamCfg) (index val step : List F) (op : F) : Option F := do
  let v ← innBase 0 val c.vsz
  let o ← innBase c.vsz [op] 1
  let s ← innBase (c.vsz + 1) step c.ssz
  let i ← innBase (c.vsz + 1 + c.ssz) index c.isz
  some (v + o + s + i)

/-- A 128-bit word as a block, in the packing basis (zk-mem.h:177-178: `(block *)list.data()`; emp-tool external: bit `i` of a
block is the coefficient of `X^i`). -/
def wordF (w : Nat) : F := innFrom 0 ((List.range 128).map (fun i => bit (w.testBit i)))

end

/-- ALICE's state (zk-mem.h:7-10) with, in `log`, the rows committed through `check_MAC`. -/
structure RamState where
  mem : List Nat
  list : List Nat
  log : List RamEnt
  step : Nat

/-- zk-mem.h:18-30: the constructor; `vector<uint64_t>::resize` fills with zeros. -/
def ramInit (c : RamCfg) : RamState := ⟨List.replicate (2 ^ c.isz) 0, [], [], 0⟩

/-- zk-mem.h:57-113: the end of each access: packing, recording, counting. `clear` is what ALICE packs, `val` what is committed. -/
def ramPush (c : RamCfg) (st : RamState) (mem : List Nat) (idx clear val : Nat) (op : Bool) : Option RamState := do
  let w ← packU c idx clear st.step op
  some { mem := mem, list := st.list ++ [w], step := st.step + 1,
         log := st.log ++ [⟨idx % 2 ^ c.isz, st.step % 2 ^ c.ssz, op, val % 2 ^ c.vsz⟩] }

/-- zk-mem.h:82-97 `read`, ALICE: the returned committed integer. -/
def ramRead (c : RamCfg) (st : RamState) (idx : Nat) : Option (RamState × Nat) := do
  let v ← st.mem[idx]?
  let st ← ramPush c st st.mem idx v v false
  some (st, v % 2 ^ c.vsz)

/-- zk-mem.h:99-113 `write`, ALICE: the committed value is the caller's integer. -/
def ramWrite (c : RamCfg) (st : RamState) (idx v : Nat) : Option RamState := do
  let _ ← st.mem[idx]?
  ramPush c st (st.mem.set idx v) idx v v true

/-- zk-mem.h:57-80 `access`, ALICE: read (`op = false`) or write. -/
def ramAccess (c : RamCfg) (st : RamState) (op : Bool) (idx v : Nat) : Option (RamState × Nat) := do
  let old ← st.mem[idx]?
  let w := if op then v else old
  let st ← ramPush c st (if op then st.mem.set idx v else st.mem) idx w w op
  some (st, w % 2 ^ c.vsz)

/-- A call of the interface (zk-mem.h:57-113). -/
inductive RamOp where
  | read (idx : Nat)
  | write (idx v : Nat)
  | access (op : Bool) (idx v : Nat)

/-- One call with its result (zk-mem.h:57-113). -/
def ramStep (c : RamCfg) (st : RamState) : RamOp → Option (RamState × Option Nat)
  | .read i => (ramRead c st i).map (fun p => (p.1, some p.2))
  | .write i v => (ramWrite c st i v).map (fun p => (p, none))
  | .access op i v => (ramAccess c st op i v).map (fun p => (p.1, some p.2))

/-- A sequence of calls (zk-mem.h:57-113). -/
def ramRun (c : RamCfg) : RamState → List RamOp → Option (RamState × List (Option Nat))
  | st, [] => some (st, [])
  | st, o :: os => do
    let (st, r) ← ramStep c st o
    let (st, rs) ← ramRun c st os
    some (st, r :: rs)

/-- What `check` computes at ALICE: the condition revealed to both parties, the words fed to the two product loops (zk-mem.h:128-183). -/
structure RamChk where
  cond : Bool
  rows : List RamEnt
  sorted : List Nat
  orig : List Nat

/-- zk-mem.h:128-183 `check`, ALICE. `std::sort` on integers is `mergeSort`. The product loops need at least three rows
(`bchGroups 4`). Afterwards everything is cleared, `mem` included. -/
def ramCheck (c : RamCfg) (st : RamState) : Option (RamState × RamChk) := do
  let sorted := st.list.mergeSort (fun a b => decide (a ≤ b))
  let rows ← (List.range st.step).mapM (fun i => (sorted[i]?).map (unpackU c))
  let _ ← bchGroups 4 st.step st.list.length
  some (⟨[], [], [], 0⟩, ⟨ramCond c rows, rows, sorted, st.list⟩)

/-- The reads of `refresh` (zk-mem.h:116-120). -/
def ramReadAll (c : RamCfg) : RamState → List Nat → Option (RamState × List Nat)
  | st, [] => some (st, [])
  | st, i :: is => do
    let (st, v) ← ramRead c st (i % 2 ^ c.isz)
    let (st, vs) ← ramReadAll c st is
    some (st, v :: vs)

/-- The writes of `refresh` (zk-mem.h:122-124). -/
def ramWriteAll (c : RamCfg) : RamState → List (Nat × Nat) → Option RamState
  | st, [] => some st
  | st, (i, v) :: l => do
    let st ← ramWrite c st (i % 2 ^ c.isz) v
    ramWriteAll c st l

/-- zk-mem.h:114-126 `refresh`, ALICE. -/
def ramRefresh (c : RamCfg) (st : RamState) : Option RamState :=
  if st.step + 2 ^ c.isz = 2 ^ (c.ssz - 1) then do
    let (st, vs) ← ramReadAll c st (List.range (2 ^ c.isz))
    let (st, _) ← ramCheck c st
    ramWriteAll c st ((List.range (2 ^ c.isz)).zip vs)
  else some st

/-- What a failed or passed check does to BOB's program (zk-mem.h:164-165, 328-330). -/
inductive Visible where
  /-- nothing, or text on the standard output: the program goes on and no cheating is recorded -/
  | quiet
  /-- `error(...)` or an exception: the program stops -/
  | abort
deriving DecidableEq

/-- zk-mem.h:164-165: the revealed condition of `ZKRAM`. -/
def ramCondVisible (_cond : Bool) : Visible := .quiet

/-- zk-mem.h:328-330, ro-zk-mem.h:223-225, zk-mem-ext.h:353-355: the comparison of the two products. -/
def setEqVisible (eq : Bool) : Visible := if eq then .quiet else .abort

/-- ram-zk/ostriple.h:262-264: the check of two-operand products (`CheatRecord::put` is commented out). -/
def mulVisible (_ok : Bool) : Visible := .quiet

/-- poly_prdt.h:87-88: the batch check of products of three to five operands. -/
def polyVisible (ok : Bool) : Visible := if ok then .quiet else .abort

/-- ro-zk-mem.h:109-110: the revealed condition of `ROZKRAM`. -/
def roCondVisible (cond : Bool) : Visible := if cond then .quiet else .abort

/-- zk-mem-ext.h:244-246: the revealed condition of `ZkRamExt`. -/
def extCondVisible (cond : Bool) : Visible := if cond then .quiet else .abort

/-- Several checks in sequence (zk-mem.h:164-178). -/
def Visible.seq (a b : Visible) : Visible := if a = .abort then .abort else b

/-- zk-mem.h:128-183 with ram-zk/ostriple.h:57-69 (destructor): what BOB's program does on the four checks of one `ZKRAM`
proof. -/
def ramVisible (cond setEq poly mul : Bool) : Visible :=
  ((ramCondVisible cond).seq (setEqVisible setEq)).seq ((polyVisible poly).seq (mulVisible mul))

end EmpZk
