/-
Model of emp-zk/emp-zk-arith: gates, multiplication check and polynomial statements, on machine words.
A wire of the prover is a 128-bit word (value in the high half, MAC in the low half), a wire of the verifier is a
128-bit word whose low half is the key.
-/
import Verif.Model.Word
import Verif.Model.BoolGate
import Verif.Spec.ArithCircuit

namespace EmpZk

/-- A verifier's key: a 64-bit word stored in a `__uint128_t` (zk_fp_exec_verifier.h:28, ostriple.h:93,100). -/
def keyWord (k : W) : U128 := k.setWidth 128

/-- ostriple.h:69-77 and 79-90, prover: `c` is the next VOLE output, result is (label, correction `lam`). -/
def feedA (c : U128) (w : W) : U128 × W :=
  (makeBlock w (low64 c), addMod (high64 c) (PR - w))

/-- ostriple.h:92-103 and 105-117, verifier: `k` is the next VOLE output, `lam` the received word. -/
def feedB (delta : W) (k : U128) (lam : W) : U128 :=
  keyWord (addMod (low64 k) (multMod lam delta))

/-- ostriple.h:122-142, prover: `c` is the next VOLE output; result is (label, correction `s`). -/
def mulSend (c ma mb : U128) : U128 × W :=
  let d := multMod (high64 ma) (high64 mb)
  (makeBlock d (low64 c), addMod (high64 c) (PR - d))

/-- ostriple.h:144-162, verifier. -/
def mulRecv (delta : W) (k : U128) (d : W) : U128 :=
  keyWord (addMod (low64 k) (multMod d delta))

/-- zk_fp_exec_prover.h:50-55 `add_gate`. -/
def addGateA (a b : U128) : U128 :=
  let val := mod128 ((a >>> 64) + (b >>> 64)) PR128
  let mac := mod128 ((a &&& 0xFFFFFFFFFFFFFFFF#128) + (b &&& 0xFFFFFFFFFFFFFFFF#128)) PR128
  (val <<< 64) ^^^ mac

/-- zk_fp_exec_verifier.h:51-53 `add_gate`. -/
def addGateB (a b : U128) : U128 := mod128 (a + b) PR128

/-- zk_fp_exec_prover.h:62-64, ostriple.h:436-438 `auth_mac_mul_const`. -/
def mulConstA (a : U128) (c : W) : U128 := multModV a c

/-- zk_fp_exec_verifier.h:60-62, ostriple.h:463-465 `auth_key_mul_const`: `mult_mod(uint64_t, uint64_t)` on the low
halves (both arguments are converted to `uint64_t`). -/
def mulConstB (a : U128) (c : W) : U128 := keyWord (multMod (low64 a) c)

/-- zk_fp_exec_prover.h:66-68 `pub_label`. -/
def pubA (pubMac a : W) : U128 := makeBlock a pubMac

/-- zk_fp_exec_verifier.h:64-68 `pub_label`. -/
def pubB (delta pubMac a : W) : U128 := keyWord (addMod (PR - multMod delta a) pubMac)

/-- zk_fp_exec_prover.h:11-13, zk_fp_exec_verifier.h:12-14: `pub_mac` from the fixed-key PRG output `x`. -/
def pubMacOf (x : U128) : U128 := mod128 (x &&& 0xFFFFFFFFFFFFFFFF#128) PR128

/-! ### multiplication check -/

/-- One buffered gate: `andgate_left_buffer`, `andgate_right_buffer`, `andgate_out_buffer` (ostriple.h:18-20). -/
structure AGate where
  left : U128
  right : U128
  out : U128

/-- ostriple.h:259-267, prover: `A0`, `A1` of one gate. -/
def agateA (g : AGate) : W × W :=
  let a := high64 g.left
  let ma := low64 g.left
  let b := high64 g.right
  let mb := low64 g.right
  let mc := low64 g.out
  let A1 := addMod (multMod a mb) (multMod b ma)
  (multMod ma mb, addMod A1 (PR - mc))

/-- ostriple.h:258-270, prover: the loop over the gates of a task with coefficients `chi`. -/
def taskLoopA : W × W → List AGate → List W → W × W
  | uv, g :: gs, c :: cs =>
      taskLoopA (addMod uv.1 (multMod (agateA g).1 c), addMod uv.2 (multMod (agateA g).2 c)) gs cs
  | uv, _, _ => uv

/-- ostriple.h:278-281, verifier: `B` of one gate. -/
def agateB (delta : W) (g : AGate) : W :=
  addMod (multMod (low64 g.left) (low64 g.right)) (multMod (low64 g.out) delta)

/-- ostriple.h:277-283, verifier: the loop over the gates of a task. -/
def taskLoopB (delta : W) : W → List AGate → List W → W
  | w, g :: gs, c :: cs => taskLoopB delta (addMod w (multMod (agateB delta g) c)) gs cs
  | w, _, _ => w

/-- ostriple.h:243-272, prover, one task.  `none`: `task_n == 0`, then `ret` stays uninitialised (245-246). -/
def taskA (gs : List AGate) (seedBlock : U128) : Option (W × W) := do
  let chi ← uniHashCoeffGen (mod64 (low64 seedBlock)) gs.length
  some (taskLoopA (0, 0) gs chi)

/-- ostriple.h:243-285, verifier, one task. -/
def taskB (delta : W) (gs : List AGate) (seedBlock : U128) : Option W := do
  let chi ← uniHashCoeffGen (mod64 (low64 seedBlock)) gs.length
  some (taskLoopB delta 0 gs chi)

/-- ostriple.h:195-212, prover: the sums of the tasks, numbered from `i`. -/
def tasksA (buf : List AGate) (seeds : Nat → U128) : List (Nat × Nat) → Nat → W × W → Option (W × W)
  | [], _, acc => some acc
  | t :: ts, i, acc => do
      let s ← taskA (taskSlice buf t) (seeds i)
      tasksA buf seeds ts (i + 1) (addMod acc.1 s.1, addMod acc.2 s.2)

/-- ostriple.h:195-203, 213-216, verifier. -/
def tasksB (delta : W) (buf : List AGate) (seeds : Nat → U128) : List (Nat × Nat) → Nat → W → Option W
  | [], _, acc => some acc
  | t :: ts, i, acc => do
      let s ← taskB delta (taskSlice buf t) (seeds i)
      tasksB delta buf seeds ts (i + 1) (addMod acc s)

/-- ostriple.h:166-217, prover: `U`, `V`.  One task below 32 gates, otherwise the split of `splitTasks` (189-202 is the
same code as emp-zk-bool/ostriple.h:153-166). -/
def mulSumsA (buf : List AGate) (threads : Nat) (seeds : Nat → U128) : Option (W × W) :=
  if buf.length < 32 then taskA buf (seeds 0)
  else do
    let tasks ← splitTasks buf.length threads
    tasksA buf seeds tasks 0 (0, 0)

/-- ostriple.h:166-217, verifier: `W`. -/
def mulSumsB (delta : W) (buf : List AGate) (threads : Nat) (seeds : Nat → U128) : Option W :=
  if buf.length < 32 then taskB delta buf (seeds 0)
  else do
    let tasks ← splitTasks buf.length threads
    tasksB delta buf seeds tasks 0 0

/-- ostriple.h:219-227, prover: `check_sum`; `ope` is the next VOLE output. -/
def mulCheckA (buf : List AGate) (threads : Nat) (seeds : Nat → U128) (ope : U128) : Option (W × W) := do
  let s ← mulSumsA buf threads seeds
  some (addMod s.1 (low64 ope), addMod s.2 (high64 ope))

/-- ostriple.h:228-239, verifier: `true` if the check passes, `false` if `error` stops the process. -/
def mulCheckB (delta : W) (buf : List AGate) (threads : Nat) (seeds : Nat → U128) (ope : U128) (ans : W × W) :
    Option Bool := do
  let s ← mulSumsB delta buf threads seeds
  some (ans.1 == addMod (multMod ans.2 delta) (addMod s (low64 ope)))

/-! ### polynomial statements -/

/-- polynomial.h:91-104, prover: one term. -/
def termA (A : W × W) (t : W × U128 × U128) : W × W :=
  let w0 := high64 t.2.1
  let m0 := low64 t.2.1
  let w1 := high64 t.2.2
  let m1 := low64 t.2.2
  (addMod A.1 (multMod t.1 (multMod m0 m1)),
   addMod A.2 (multMod t.1 (addMod (multMod m0 w1) (multMod m1 w0))))

/-- polynomial.h:110-114, verifier: one term. -/
def termB (B : W) (t : W × U128 × U128) : W :=
  addMod B (multMod t.1 (multMod (low64 t.2.1) (low64 t.2.2)))

/-- polynomial.h:131-142, prover: one term without coefficient. -/
def innerA (A : W × W) (t : U128 × U128) : W × W :=
  let w0 := high64 t.1
  let m0 := low64 t.1
  let w1 := high64 t.2
  let m1 := low64 t.2
  (addMod A.1 (multMod m0 m1), addMod A.2 (addMod (multMod m0 w1) (multMod m1 w0)))

/-- polynomial.h:148-151, verifier. -/
def innerB (B : W) (t : U128 × U128) : W := addMod B (multMod (low64 t.1) (low64 t.2))

/-- polynomial.h:88-106 and 128-144, prover: (`buffer[num]`, `buffer1[num]`). -/
def apolyA : APoly U128 → W × W
  | .deg2 _ terms => terms.foldl termA (0, 0)
  | .inner _ terms => terms.foldl innerA (0, 0)

/-- polynomial.h:107-119 and 145-156, verifier: `buffer[num]`. -/
def apolyB (delta : W) : APoly U128 → W
  | .deg2 c0 terms => addMod (terms.foldl termB 0) (multMod c0 (multMod delta delta))
  | .inner c terms => addMod (terms.foldl innerB 0) (multMod c (multMod delta delta))

/-- polynomial.h:50-61, prover: `check_sum` of the batch check. `none`: empty batch (not reached, 43-44). -/
def apolyCheckA (buf : List (W × W)) (seed : W) (ope : U128) : Option (W × W) := do
  let chi ← uniHashCoeffGen seed buf.length
  some (addMod (innPrdtSumRed chi (buf.map Prod.fst)) (low64 ope),
    addMod (innPrdtSumRed chi (buf.map Prod.snd)) (high64 ope))

/-- polynomial.h:62-78, verifier: `true` = nothing recorded. -/
def apolyCheckB (delta : W) (buf : List W) (seed : W) (ope : U128) (ans : W × W) : Option Bool := do
  let chi ← uniHashCoeffGen seed buf.length
  let B := addMod (innPrdtSumRed chi buf) (low64 ope)
  some (addMod B (multMod ans.2 delta) == ans.1)

end EmpZk
