import Verif.Model.ZkRam
/-!
emp-zk/extensions/ram-zk/ro-zk-mem.h: `ROZKRAM`, on values as in `Verif.Model.ZkRam`.
-/
namespace EmpZk

/-- ro-zk-mem.h:18-19: widths given to the constructor. -/
structure RoCfg where
  isz : Nat
  vsz : Nat

/-- One committed row: index and value (ro-zk-mem.h:64-70, 91-96). -/
structure RoEnt where
  idx : Nat
  val : Nat
deriving DecidableEq, Repr

/-- ro-zk-mem.h:72-74 `pack(index, value)`. -/
def roPackU (c : RoCfg) (index value : Nat) : Option Nat :=
  if c.vsz < 128 then some ((index <<< c.vsz) % 2 ^ 128 ||| value) else none

/-- ro-zk-mem.h:84, 91-94: a packed word taken apart; both parts pass through a `uint64_t`. -/
def roUnpackU (c : RoCfg) (w : Nat) : RoEnt :=
  { val := (w &&& (2 ^ c.vsz - 1)) % 2 ^ 64 % 2 ^ c.vsz
    idx := (w >>> c.vsz) % 2 ^ 64 % 2 ^ (c.isz + 1) }

/-- ro-zk-mem.h:103-105: the condition on two neighbouring rows; `geq` (external) as for `ltW`. -/
def roCond2 (c : RoCfg) (p e : RoEnt) : Bool :=
  ltW (c.isz + 1) p.idx e.idx || (p.idx == e.idx && p.val == e.val)

/-- ro-zk-mem.h:101-110: all of them hold. -/
def roCond (c : RoCfg) : List RoEnt → Bool
  | p :: e :: l => roCond2 c p e && roCond c (e :: l)
  | _ => true

/-- ro-zk-mem.h:64-70: the value packed into the MAC of a row; only `index_sz` index bits are used. -/
def roPacked (c : RoCfg) (e : RoEnt) : Nat := e.val % 2 ^ c.vsz + 2 ^ c.vsz * (e.idx % 2 ^ c.isz)

section
variable {F : Type} [Field F] [BlockField F]

/-- ro-zk-mem.h:64-70 `pack(mac, index, val)` on blocks. -/
def roPackMac (c : RoCfg) (index val : List F) : Option F := do
  let v ← innBase 0 val c.vsz
  let i ← innBase c.vsz index c.isz
  some (v + i)

end

/-- ALICE's state (ro-zk-mem.h:10-13) with, in `log`, the rows committed through `check_MAC`. -/
structure RoState where
  mem : List Nat
  list : List Nat
  log : List RoEnt
  step : Nat

/-- ro-zk-mem.h:31-42 `init`, ALICE: one row per element, the index as a public integer of `index_sz + 1` bits. -/
def roInitFrom (c : RoCfg) : Nat → RoState → List Nat → Option RoState
  | _, st, [] => some st
  | i, st, v :: vs => do
    let w ← roPackU c i v
    roInitFrom c (i + 1) ⟨st.mem ++ [v], st.list ++ [w], st.log ++ [⟨i % 2 ^ (c.isz + 1), v % 2 ^ c.vsz⟩], st.step⟩ vs

/-- A fresh object after `init(data)` (ro-zk-mem.h:15-42). -/
def roInit (c : RoCfg) (data : List Nat) : Option RoState := roInitFrom c 0 ⟨[], [], [], 0⟩ data

/-- What `check` computes at ALICE (ro-zk-mem.h:76-120). -/
structure RoChk where
  cond : Bool
  rows : List RoEnt
  sorted : List Nat
  orig : List Nat

/-- ro-zk-mem.h:76-120 `check`, ALICE; an empty list makes `list.size() - 1` wrap around. `resize` only ever shortens, as `list`
starts with one row per element of `clear_mem`; were it shorter the new elements would be zeros (`none` here). -/
def roCheck (c : RoCfg) (st : RoState) : Option (RoState × RoChk) := do
  let sorted := st.list.mergeSort (fun a b => decide (a ≤ b))
  let rows := sorted.map (roUnpackU c)
  if st.list = [] then none
  let _ ← bchGroups 4 st.list.length st.list.length
  if st.list.length < st.mem.length then none
  some (⟨st.mem, st.list.take st.mem.length, st.log.take st.mem.length, 0⟩, ⟨roCond c rows, rows, sorted, st.list⟩)

/-- ro-zk-mem.h:44-58: the first part of `read`, ALICE: the row is recorded, one more step. -/
def roPush (c : RoCfg) (st : RoState) (idx : Nat) : Option (RoState × Nat) := do
  let v ← st.mem[idx]?
  let w ← roPackU c idx v
  some (⟨st.mem, st.list ++ [w], st.log ++ [⟨idx % 2 ^ c.isz, v % 2 ^ c.vsz⟩], st.step + 1⟩, v % 2 ^ c.vsz)

/-- ro-zk-mem.h:44-62 `read`, ALICE, with the automatic check. -/
def roRead (c : RoCfg) (st : RoState) (idx : Nat) : Option (RoState × Nat × List RoChk) := do
  let (st, v) ← roPush c st idx
  if st.step = st.mem.length * 8 then do
    let (st, chk) ← roCheck c st
    some (st, v, [chk])
  else some (st, v, [])

/-- A sequence of reads, with all automatic checks (ro-zk-mem.h:44-62). -/
def roRun (c : RoCfg) : RoState → List Nat → Option (RoState × List Nat × List RoChk)
  | st, [] => some (st, [], [])
  | st, i :: is => do
    let (st, v, ch) ← roRead c st i
    let (st, vs, chs) ← roRun c st is
    some (st, v :: vs, ch ++ chs)

end EmpZk
