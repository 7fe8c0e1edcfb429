import Verif.Spec.Lifetime
/-!
Lifetimes of the objects behind the global pointers of a session: emp-zk-bool.h (`setup_zk_bool`, `finalize_zk_bool`), emp-zk-arith.h
(`setup_zk_arith`, `finalize_zk_arith`), the constructors and destructors they run, and the pointers that operations of a session go
through. An object is a number with a kind and its pointer members; using or deleting an object that was already deleted (or
using a null pointer) is undefined behaviour (`LErr.ub`); `error` ends the process (`LErr.exit`).
Not modelled: the contents of the objects; failed allocations; `FerretCOT` and `VoleTriple` are single objects (the pieces they own are
not followed).
-/
namespace EmpZk

/-- The classes (and arrays) allocated by a session
(allocated at emp-zk-bool.h:8-24, emp-zk-arith.h:11-44, zk_prover.h:27-57, zk_verifier.h:38-66). -/
inductive LKind
  | circ | prot | triple | poly | ferret | pool | buf | auth
  | fpExec | fpTriple | fpPoly | vole | fpAuth | fpPool | eda | doubAuth
  deriving DecidableEq, Repr

/-- An object: class and pointer members, in the order given at its constructor below (emp-zk-bool.h:8-24, emp-zk-arith.h:11-44). -/
structure LObj where
  kind : LKind
  ptr : List Nat
  deriving DecidableEq, Repr

/-- Ends of an execution other than a normal return (`exit`: `error(...)` at emp-zk-arith.h:17). -/
inductive LErr
  | ub | exit
  deriving DecidableEq, Repr

/-- Memory, the global pointers (`none` = null) `CircuitExecution::circ_exec`, `ProtocolExecution::prot_exec` (emp-tool), `ZKFpExec::zk_exec`
(emp-zk-arith.cpp:3), `FpPolyProof<IO>::fppolyproof` (emp-zk-arith/polynomial.h:160), `EdaBits<IO>::conv` (edabits.h:394), the number of
messages in `CheatRecord::message` (emp-zk-bool.cpp:3) and the values returned by `finalize_zk_bool` so far. -/
structure LSt where
  heap : Nat → Option LObj
  next : Nat
  circ : Option Nat
  prot : Option Nat
  zk : Option Nat
  fppoly : Option Nat
  conv : Option Nat
  msgs : Nat
  rets : List Bool

/-- The program start: no objects, all global pointers null (emp-zk-arith.cpp:3, polynomial.h:160, edabits.h:394). -/
def LSt.init : LSt := ⟨fun _ => none, 0, none, none, none, none, none, 0, []⟩

/-- sequencing of statements. -/
abbrev LM := StateT LSt (Except LErr)

/-- `new` (emp-zk-bool.h:20-22, emp-zk-arith.h:22-30). -/
def lNew (k : LKind) (ptr : List Nat) : LM Nat := fun s =>
  .ok (s.next, { s with heap := fun x => if x = s.next then some ⟨k, ptr⟩ else s.heap x, next := s.next + 1 })

/-- Use of an object through a pointer (for instance emp-zk-bool.h:28, 34, 45). -/
def lGet (p : Nat) : LM LObj := fun s =>
  match s.heap p with
  | some o => .ok (o, s)
  | none => .error .ub

/-- Use of an object through a global pointer: null is undefined behaviour too (emp-zk-bool.h:28, 34, 45, emp-zk-arith.h:25, 41). -/
def lGlob (p : Option Nat) : LM LObj :=
  match p with
  | some p => lGet p
  | none => throw .ub

/-- Pointer member `i` (an object without that member is a type error of the model, never reached)
(emp-zk-bool.h:28, 46, emp-zk-arith.h:25, 30). -/
def lMem (o : LObj) (i : Nat) : LM Nat :=
  match o.ptr[i]? with
  | some p => pure p
  | none => throw .ub

/-- Assignment of the pointer members (assignments to members, zk_prover.h:21-23, 34-50). -/
def lSet (p : Nat) (ptr : List Nat) : LM Unit := fun s =>
  match s.heap p with
  | some o => .ok ((), { s with heap := fun x => if x = p then some ⟨o.kind, ptr⟩ else s.heap x })
  | none => .error .ub

/-- Release of the memory of an object, at the end of `delete` (emp-zk-bool.h:38-39, emp-zk-arith.h:48-50). -/
def lFree (p : Nat) : LM Unit := fun s =>
  match s.heap p with
  | some _ => .ok ((), { s with heap := fun x => if x = p then none else s.heap x })
  | none => .error .ub

/-- cheat_record.h:12, `n` times. -/
def lPut (n : Nat) : LM Unit := fun s => .ok ((), { s with msgs := s.msgs + n })

/-- emp-zk-bool/ostriple.h:33-66: `OSTriple` (members: ferret, pool, out, left, right, auth_helper). -/
def newTriple : LM Nat := do
  let f ← lNew .ferret []
  let p ← lNew .pool []
  let o ← lNew .buf []
  let l ← lNew .buf []
  let r ← lNew .buf []
  let _ ← lGet f
  let a ← lNew .auth []
  lNew .triple [f, p, o, l, r, a]

/-- emp-zk-bool/ostriple.h:68-82 `~OSTriple`; `pend`: `check_cnt != 0`; `n`: cheat messages recorded. -/
def delTriple (t : Nat) (pend : Bool) (n : Nat) : LM Unit := do
  let o ← lGet t
  let f ← lMem o 0
  let p ← lMem o 1
  let b0 ← lMem o 2
  let b1 ← lMem o 3
  let b2 ← lMem o 4
  let a ← lMem o 5
  if pend then
    let _ ← lGet f
    let _ ← lGet p
    let _ ← lGet b0
    let _ ← lGet b1
    let _ ← lGet b2
  let _ ← lGet a
  lPut n
  lFree f
  lFree b0
  lFree b1
  lFree b2
  lFree a
  lFree p
  lFree t

/-- emp-zk-bool/polynomial.h:20-32: `PolyProof` (members: ferret, buffer, and `buffer1` at ALICE). -/
def newPoly (alice : Bool) (f : Nat) : LM Nat := do
  let _ ← lGet f
  let b ← lNew .buf []
  if alice then
    let b1 ← lNew .buf []
    lNew .poly [f, b, b1]
  else
    lNew .poly [f, b]

/-- emp-zk-bool/polynomial.h:34-40 `~PolyProof`; `pend`: `num != 0`; `n`: cheat messages recorded. -/
def delPoly (p : Nat) (alice pend : Bool) (n : Nat) : LM Unit := do
  let o ← lGet p
  let f ← lMem o 0
  if pend then
    let _ ← lGet f
    lPut n
  let b ← lMem o 1
  lFree b
  if alice then
    let b1 ← lMem o 2
    lFree b1
  lFree p

/-- emp-zk-bool.h:12-24 `setup_zk_bool` with zk_prover.h:34-42 / zk_verifier.h:45-54 (members of the protocol object: ostriple, polyproof,
the circuit object; of the circuit object: ostriple, polyproof). -/
def setupBool (alice : Bool) : LM Unit := do
  modify (fun s => { s with msgs := 0 })
  let t ← lNew .circ []
  modify (fun s => { s with circ := some t })
  let os ← newTriple
  let o ← lGet os
  let f ← lMem o 0
  let po ← newPoly alice f
  lSet t [os, po]
  let pr ← lNew .prot [os, po, t]
  modify (fun s => { s with prot := some pr })

/-- emp-zk-bool.h:37-41 `finalize_zk_bool` with zk_prover.h:43-46 / zk_verifier.h:55-58. Deleting a null pointer does nothing. The circuit object
has an empty destructor. -/
def finBool (alice pendA pendP : Bool) (nA nP : Nat) : LM Unit := do
  let s ← get
  match s.circ with
  | some c => lFree c
  | none => pure ()
  match s.prot with
  | some p => do
    let o ← lGet p
    let po ← lMem o 1
    delPoly po alice pendP nP
    let os ← lMem o 0
    delTriple os pendA nA
    lFree p
  | none => pure ()
  modify (fun s => { s with rets := s.rets ++ [decide (s.msgs ≠ 0)] })

/-- emp-zk-arith/ostriple.h:31-52: `FpOSTriple` (members: pool, vole, out, left, right, auth_helper). -/
def newFpTriple : LM Nat := do
  let p ← lNew .fpPool []
  let v ← lNew .vole []
  let o ← lNew .buf []
  let l ← lNew .buf []
  let r ← lNew .buf []
  let _ ← lGet v
  let a ← lNew .fpAuth []
  lNew .fpTriple [p, v, o, l, r, a]

/-- emp-zk-arith/ostriple.h:54-63 `~FpOSTriple`; `pend`: `check_cnt != 0`. The thread pool is not deleted. -/
def delFpTriple (t : Nat) (pend : Bool) : LM Unit := do
  let o ← lGet t
  let p ← lMem o 0
  let v ← lMem o 1
  let b0 ← lMem o 2
  let b1 ← lMem o 3
  let b2 ← lMem o 4
  let a ← lMem o 5
  if pend then
    let _ ← lGet p
    let _ ← lGet v
    let _ ← lGet b0
    let _ ← lGet b1
    let _ ← lGet b2
  let _ ← lGet a
  lFree a
  lFree v
  lFree b0
  lFree b1
  lFree b2
  lFree t

/-- emp-zk-arith/polynomial.h:20-32: `FpPolyProof` (members: ostriple, buffer, and `buffer1` at ALICE; BOB reads `ostriple->delta`). -/
def newFpPoly (alice : Bool) (os : Nat) : LM Nat := do
  let b ← lNew .buf []
  if alice then
    let b1 ← lNew .buf []
    lNew .fpPoly [os, b, b1]
  else
    let _ ← lGet os
    lNew .fpPoly [os, b]

/-- emp-zk-arith/polynomial.h:34-42 `~FpPolyProof`; `pend`: `num != 0`; `n`: cheat messages recorded. -/
def delFpPoly (p : Nat) (alice pend : Bool) (n : Nat) : LM Unit := do
  let o ← lGet p
  let os ← lMem o 0
  if pend then
    let t ← lGet os
    let v ← lMem t 1
    let _ ← lGet v
    lPut n
  let b ← lMem o 1
  lFree b
  if alice then
    let b1 ← lMem o 2
    lFree b1
  lFree p

/-- `Integer(62, …, PUBLIC)`: emp-tool calls `prot_exec->feed`, which asks the circuit object (zk_prover.h:57-60, zk_verifier.h:68-71). -/
def pubFeed : LM Unit := do
  let s ← get
  let o ← lGlob s.prot
  let c ← lMem o 2
  let _ ← lGet c
  pure ()

/-- edabits.h:36-63: `EdaBits` (members: cot_fp, arith_candidate, bool_candidate, auth_helper). -/
def newEda (v : Nat) : LM Nat := do
  let _ ← lGet v
  let a ← lNew .buf []
  let b ← lNew .buf []
  let h ← lNew .doubAuth []
  pubFeed
  lNew .eda [v, a, b, h]

/-- edabits.h:66-75 `~EdaBits`. (A failed check calls `error`; such ends are not followed.) -/
def delEda (e : Nat) : LM Unit := do
  let o ← lGet e
  let h ← lMem o 3
  let _ ← lGet h
  let b ← lMem o 2
  lFree b
  let a ← lMem o 1
  lFree a
  lFree h
  lFree e

/-- emp-zk-arith.h:12-44 `setup_zk_arith`, with zk_fp_exec_prover.h:10-16 / zk_fp_exec_verifier.h:11-18 (member: ostriple). -/
def setupArith (alice conv : Bool) : LM Unit := do
  let s ← get
  if conv then
    if s.circ = none then
      throw .exit
  let os ← newFpTriple
  let z ← lNew .fpExec [os]
  modify (fun s => { s with zk := some z })
  let po ← newFpPoly alice os
  modify (fun s => { s with fppoly := some po })
  if conv then
    let t ← lGet os
    let v ← lMem t 1
    let e ← newEda v
    modify (fun s => { s with conv := some e })
    if alice then
      pure ()
    else
      let _ ← lGlob s.circ
      let o ← lGet e
      let h ← lMem o 3
      let _ ← lGet h
      pure ()

/-- emp-zk-arith.h:46-51 `finalize_zk_arith`. -/
def finArith (alice pendM pendP : Bool) (nP : Nat) : LM Unit := do
  let s ← get
  match s.conv with
  | some e => delEda e
  | none => pure ()
  match s.fppoly with
  | some p => delFpPoly p alice pendP nP
  | none => pure ()
  match s.zk with
  | some z => do
    let o ← lGet z
    let os ← lMem o 0
    delFpTriple os pendM
    lFree z
  | none => pure ()

/-- A boolean operation: gates go through `circ_exec` to the triple generator, the polynomial proofs and the correlations
(zk_bool_circuit_exec.h:14-17, emp-zk-bool.h:43-77), inputs and outputs through `prot_exec` (zk_prover.h:54-80); `n` cheat messages. -/
def boolOp (n : Nat) : LM Unit := do
  let s ← get
  let c ← lGlob s.circ
  let os ← lMem c 0
  let t ← lGet os
  let po ← lMem c 1
  let _ ← lGet po
  let f ← lMem t 0
  let _ ← lGet f
  let a ← lMem t 5
  let _ ← lGet a
  pubFeed
  lPut n

/-- An arithmetic operation: `zk_exec` to the triple generator, the correlations and the MAC check (int_fp.h, zk_fp_exec_prover.h:26-70),
and `fppolyproof` (int_fp.h:84-97); `n` cheat messages. -/
def arithOp (n : Nat) : LM Unit := do
  let s ← get
  let z ← lGlob s.zk
  let os ← lMem z 0
  let t ← lGet os
  let v ← lMem t 1
  let _ ← lGet v
  let a ← lMem t 5
  let _ ← lGet a
  let _ ← lGlob s.fppoly
  lPut n

/-- A conversion (conversion.h:7-23): `conv` to the correlations and the helper, and boolean gates and inputs. -/
def convOp : LM Unit := do
  let s ← get
  let e ← lGlob s.conv
  let v ← lMem e 0
  let _ ← lGet v
  let h ← lMem e 3
  let _ ← lGet h
  boolOp 0

/-- One call (`alice`: the party running the program) (emp-zk-bool.h:8-41, emp-zk-arith.h:11-51). -/
def lStep (alice : Bool) : LEv → LM Unit
  | .setupBool => setupBool alice
  | .finBool a b n m => finBool alice a b n m
  | .setupArith c => setupArith alice c
  | .finArith a b n => finArith alice a b n
  | .boolOp n => boolOp n
  | .arithOp n => arithOp n
  | .convOp => convOp

/-- A program: its calls, from the start (calls of emp-zk-bool.h:8-77 and emp-zk-arith.h:11-51 by the user). -/
def lRun (alice : Bool) : List LEv → LSt → Except LErr LSt
  | [], s => .ok s
  | e :: es, s => (lStep alice e s).bind (fun r => lRun alice es r.2)

end EmpZk
