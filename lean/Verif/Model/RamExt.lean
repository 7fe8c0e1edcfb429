import Verif.Model.ZkRam
/-!
emp-zk/extensions/ram-zk/zk-mem-ext.h: `ZkRamExt`, the RAM whose cells hold several 64-bit words. Committed integers are given by
their values, as in `Model/ZkRam.lean`; `none` = undefined behaviour. `size_t` values are below `2^64`.
-/
namespace EmpZk

/-- zk-mem-ext.h:15-16, 23-28: widths given to the constructor and the number of words of a cell. -/
structure RxCfg where
  isz : Nat
  ssz : Nat
  vsz : Nat

/-- zk-mem-ext.h:28 `val_uint64_sz`. -/
def RxCfg.words (c : RxCfg) : Nat := (c.vsz + 63) / 64

/-- zk-mem-ext.h:44-77, 105-148: rows of `ZkRamExt`: the value is a vector of words. -/
abbrev ExtEnt := RowOf (List Nat)

/-- zk-mem-ext.h:89-102: the loop of `pack` on words with its tail; `rows` is `packed_row.size()`. The result lists
`packed_row[i], …`. -/
def extPackLoop (value : List Nat) (rows : Nat) (dummy : Bool) : Nat → Nat → Nat → Option (List Nat)
  | 0, _, _ => none
  | fuel + 1, i, j =>
    if i < rows - 1 then do
      let a ← value[j]?
      let b ← value[j + 1]?
      let rest ← extPackLoop value rows dummy fuel (i + 1) (j + 2)
      some (((a <<< 64) % 2 ^ 128 ||| b) :: rest)
    else if i < rows then do
      let a ← value[j]?
      if dummy then some [(a <<< 64) % 2 ^ 128]
      else do
        let b ← value[j + 1]?
        some [(a <<< 64) % 2 ^ 128 ||| b]
    else some []

/-- zk-mem-ext.h:80-103 `pack` on words. `index << 32` and `step << 1` are shifts of 64-bit words. -/
def extPack (index : Nat) (value : List Nat) (step : Nat) (op : Bool) : Option (List Nat) := do
  let rows := value.length / 2 + 1
  let dummy := value.length % 2 == 0
  let v0 ← value[0]?
  let high := (index <<< 32) % 2 ^ 64 ||| (step <<< 1) % 2 ^ 64 ||| (op.toNat &&& 1)
  let rest ← extPackLoop value rows dummy (value.length + 1) 1 1
  some (((high <<< 64) % 2 ^ 128 ||| v0) :: rest)

/-- zk-mem-ext.h:197-211: the loop of `check` that takes the words of a row apart, from word `j` on. The bound
`val_uint64_sz - 2` wraps around below two words. -/
def extUnpackLoop (row : List Nat) (n : Nat) (dummy : Bool) : Nat → Nat → Option (List Nat)
  | 0, _ => none
  | fuel + 1, j =>
    if j < (n + 2 ^ 64 - 2) % 2 ^ 64 then do
      let w ← row[(j + 1) / 2]?
      if j + 1 < n then do
        let rest ← extUnpackLoop row n dummy fuel (j + 2)
        some ((w >>> 64) % 2 ^ 64 :: w % 2 ^ 64 :: rest)
      else none
    else do
      let w ← row[(j + 1) / 2]?
      if dummy then
        if j < n then some [(w >>> 64) % 2 ^ 64] else none
      else
        if j + 1 < n then some [(w >>> 64) % 2 ^ 64, w % 2 ^ 64] else none

/-- zk-mem-ext.h:192-224: one row taken apart by `check`. -/
def extUnpack (c : RxCfg) (row : List Nat) : Option ExtEnt := do
  let n := c.words
  let dummy := n % 2 == 0
  let w0 ← row[0]?
  let rest ← extUnpackLoop row n dummy (n + 1) 1
  let high := (w0 >>> 64) % 2 ^ 64
  some { val := (w0 % 2 ^ 64) :: rest
         op := high.testBit 0
         step := ((high >>> 1) &&& (2 ^ c.ssz - 1)) % 2 ^ c.ssz
         idx := ((high >>> 1 >>> 31) &&& (2 ^ c.isz - 1)) % 2 ^ c.isz }

/-- zk-mem-ext.h:230-238: the condition on two neighbouring rows. -/
def extCond2 (c : RxCfg) (p e : ExtEnt) : Bool :=
  let neq := p.idx != e.idx
  let less := ltW c.ssz p.step e.step
  let veq := p.val == e.val
  neq || (!neq && less && ((!e.op && veq) || e.op))

/-- zk-mem-ext.h:228-243: the whole condition. -/
def extCond (c : RxCfg) : List ExtEnt → Bool
  | p :: e :: l => extCond2 c p e && extCond c (e :: l)
  | _ => true

section
variable {F : Type} [Field F] [BlockField F]

/-- zk-mem-ext.h:60-76: the loop of `pack` on blocks with its tail; whole integers are packed. -/
def extPackMacLoop (val : List (List F)) (rows : Nat) (dummy : Bool) : Nat → Nat → Nat → Option (List F)
  | 0, _, _ => none
  | fuel + 1, i, j =>
    if i < rows - 1 then do
      let a ← val[j]?
      let b ← val[j + 1]?
      let r1 ← innBase 64 a a.length
      let r2 ← innBase 0 b b.length
      let rest ← extPackMacLoop val rows dummy fuel (i + 1) (j + 2)
      some ((r1 + r2) :: rest)
    else if i < rows then do
      let a ← val[j]?
      let r1 ← innBase 64 a a.length
      if dummy then some [r1 + 0]
      else do
        let b ← val[j + 1]?
        let r2 ← innBase 0 b b.length
        some [r1 + r2]
    else some []

/-- zk-mem-ext.h:44-77 `pack` on blocks (MACs for ALICE, keys for BOB). -/
def extPackMac (index : List F) (val : List (List F)) (step : List F) (op : F) : Option (List F) := do
  let rows := val.length / 2 + 1
  let dummy := val.length % 2 == 0
  let v0 ← val[0]?
  let r ← innBase 0 v0 v0.length
  let o ← innBase 64 [op] 1
  let s ← innBase 65 step step.length
  let i ← innBase 96 index index.length
  let rest ← extPackMacLoop val rows dummy (val.length + 1) 1 1
  some ((r + o + s + i) :: rest)

/-- zk-mem-ext.h:287-297, one row of `compress_rows`: the combination of `dim2` blocks. -/
def compressRow (coef row : List F) : Nat → Option F
  | 0 => some 0
  | k + 1 => do
    let s ← compressRow coef row k
    let a ← coef[k]?
    let b ← row[k]?
    some (s + a * b)

/-- zk-mem-ext.h:278-299 `compress_rows`: `dim1` rows of `dim2` blocks. -/
def compressRows (coef : List F) (rows : List (List F)) (dim1 dim2 : Nat) : Option (List F) :=
  (List.range dim1).mapM (fun i => (rows[i]?).bind (fun r => compressRow coef r dim2))

end

/-- ALICE's state (zk-mem-ext.h:10-13) with, in `log`, the rows committed through `check_MAC`. -/
structure ExtState where
  mem : List (List Nat)
  list : List (List Nat)
  log : List ExtEnt
  step : Nat

/-- zk-mem-ext.h:22-37: the constructor; every cell is an empty vector. -/
def extInit (c : RxCfg) : ExtState := ⟨List.replicate (2 ^ c.isz) [], [], [], 0⟩

/-- zk-mem-ext.h:105-128 `read`, ALICE: the returned committed words. -/
def extRead (c : RxCfg) (st : ExtState) (idx : Nat) : Option (ExtState × List Nat) := do
  let cell ← st.mem[idx]?
  let w ← extPack idx cell st.step false
  let vals ← (List.range c.words).mapM (fun i => (cell[i]?).map (· % 2 ^ 64))
  some ({ st with list := st.list ++ [w], step := st.step + 1,
                  log := st.log ++ [⟨idx % 2 ^ c.isz, st.step % 2 ^ c.ssz, false, vals⟩] }, vals)

/-- zk-mem-ext.h:130-148 `write`, ALICE: `value` are the words of the caller's integers. -/
def extWrite (c : RxCfg) (st : ExtState) (idx : Nat) (value : List Nat) : Option ExtState := do
  let clear ← (List.range c.words).mapM (fun i => value[i]?)
  let _ ← st.mem[idx]?
  let w ← extPack idx clear st.step true
  some { mem := st.mem.set idx clear, list := st.list ++ [w], step := st.step + 1,
         log := st.log ++ [⟨idx % 2 ^ c.isz, st.step % 2 ^ c.ssz, true, value.map (· % 2 ^ 64)⟩] }

/-- A call of the interface (zk-mem-ext.h:105-148). -/
inductive ExtOp where
  | read (idx : Nat)
  | write (idx : Nat) (v : List Nat)

/-- One call with its result (zk-mem-ext.h:105-148). -/
def extStep (c : RxCfg) (st : ExtState) : ExtOp → Option (ExtState × Option (List Nat))
  | .read i => (extRead c st i).map (fun p => (p.1, some p.2))
  | .write i v => (extWrite c st i v).map (fun p => (p, none))

/-- A sequence of calls (zk-mem-ext.h:105-148). -/
def extRun (c : RxCfg) : ExtState → List ExtOp → Option (ExtState × List (Option (List Nat)))
  | st, [] => some (st, [])
  | st, o :: os => do
    let (st, r) ← extStep c st o
    let (st, rs) ← extRun c st os
    some (st, r :: rs)

/-- What `check` computes at ALICE: the condition, the committed sorted rows, the words of the two lists (zk-mem-ext.h:163-240). -/
structure ExtChk where
  cond : Bool
  rows : List ExtEnt
  sorted : List (List Nat)
  orig : List (List Nat)

/-- zk-mem-ext.h:169-178: order of the sort: the first word only. Rows are never empty (`packed_row.resize` at 83). -/
def extLe (a b : List Nat) : Bool :=
  match a, b with
  | [], _ => true
  | _ :: _, [] => false
  | x :: _, y :: _ => decide (x ≤ y)

/-- zk-mem-ext.h:163-276 `check`, ALICE, when the condition holds or not (`cond`); `std::sort` is `mergeSort`. The coefficients
and the product loops are functions of the words returned here (`compressRows`, `bchGroups`). -/
def extCheck (c : RxCfg) (st : ExtState) : Option (ExtState × ExtChk) := do
  let sorted := st.list.mergeSort extLe
  let rows ← (List.range st.step).mapM (fun i => (sorted[i]?).bind (extUnpack c))
  let _ ← bchGroups 4 st.step st.list.length
  some (⟨[], [], [], 0⟩, ⟨extCond c rows, rows, sorted, st.list⟩)

/-- The reads of `refresh` (zk-mem-ext.h:153-155). -/
def extReadAll (c : RxCfg) : ExtState → List Nat → Option (ExtState × List (List Nat))
  | st, [] => some (st, [])
  | st, i :: is => do
    let (st, v) ← extRead c st (i % 2 ^ c.isz)
    let (st, vs) ← extReadAll c st is
    some (st, v :: vs)

/-- The writes of `refresh` (zk-mem-ext.h:157-159). -/
def extWriteAll (c : RxCfg) : ExtState → List (Nat × List Nat) → Option ExtState
  | st, [] => some st
  | st, (i, v) :: l => do
    let st ← extWrite c st (i % 2 ^ c.isz) v
    extWriteAll c st l

/-- zk-mem-ext.h:150-161 `refresh`, ALICE. -/
def extRefresh (c : RxCfg) (st : ExtState) : Option ExtState :=
  if st.step + 2 ^ c.isz = 2 ^ (c.ssz - 1) then do
    let (st, vs) ← extReadAll c st (List.range (2 ^ c.isz))
    let (st, _) ← extCheck c st
    extWriteAll c st ((List.range (2 ^ c.isz)).zip vs)
  else some st

end EmpZk
