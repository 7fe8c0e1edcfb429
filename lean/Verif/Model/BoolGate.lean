/-
Model of the per-gate label computations of the boolean protocol:
emp-zk/emp-zk-bool/ostriple.h, zk_prover.h, zk_verifier.h, zk_bool_circuit_exec.h, and of the statements of
emp-zk/emp-zk-bool/polynomial.h.

Blocks are elements of a field `F` with `BlockField F` (XOR = addition, `gfmul` = multiplication, `getLSB` = `lsb`,
`makeBlock(0,1)` = 1).  `Verif.Lemmas.GF128` shows that 128-bit strings are an instance.
-/
import Verif.Model.Chi
import Verif.Spec.BlockField
import Verif.Spec.BoolCircuit

namespace EmpZk

section
variable {F : Type} [Field F] [BlockField F]

/-- ostriple.h:277 `set_zero_bit`: clear bit 0 (`b & minusone`, line 59). -/
def setZeroBit (b : F) : F := b + sel (lsb b) 1

/-- ostriple.h:279-282 `set_value_in_block`. -/
def setValueInBlock (b : F) (v : Bool) : F := setZeroBit b + sel v 1

/-- ostriple.h:98-103: prover's side of one authenticated input: (label, bit sent). -/
def inputPrv (auth : F) (inp : Bool) : F × Bool :=
  let buff := lsb auth ^^ inp
  (setValueInBlock auth inp, buff)

/-- ostriple.h:104-110: verifier's side of one authenticated input. -/
def inputVer (delta auth : F) (buff : Bool) : F := setZeroBit (auth + sel buff delta)

/-- ostriple.h:127-131: prover's side of an AND gate: (label, bit sent). -/
def andPrv (a b auth : F) : F × Bool :=
  let s := lsb a && lsb b
  let d := s ^^ lsb auth
  (setValueInBlock auth s, d)

/-- ostriple.h:132-136: verifier's side of an AND gate. -/
def andVer (delta auth : F) (d : Bool) : F := setZeroBit (auth + sel d delta)

/-- zk_prover.h:13-21 and zk_bool_circuit_exec.h:20: public label on the prover's side; `p0 p1` are the two
blocks of `PRG(fix_key)`. -/
def pubPrv (p0 p1 : F) (b : Bool) : F := if b then setZeroBit p1 + 1 else setZeroBit p0

/-- zk_verifier.h:19-24, 30-35: public label on the verifier's side (`zdelta = delta ^ 1`). -/
def pubVer (delta p0 p1 : F) (b : Bool) : F :=
  if b then setZeroBit p1 + (delta + 1) else setZeroBit p0

/-- zk_bool_circuit_exec.h:18 `xor_gate`. -/
def xorGate (a b : F) : F := a + b

/-- zk_prover.h:22 `not_gate`. -/
def notPrv (a : F) : F := a + 1

/-- zk_verifier.h:36 `not_gate`. -/
def notVer (delta a : F) : F := a + (delta + 1)

/-- triple_auth.h:29: block hashed by the verifier for an opened bit. -/
def openVer (delta key : F) (b : Bool) : F := key + sel b delta

/-! ### 128 masking correlations -/

/-- `GaloisFieldPacking::packing` (emp-tool, external; ostriple.h:187,197, polynomial.h:59,85): sum of `data[i] * X^i`. -/
def packBlocks (f : Nat → F) : F := ∑ i : Fin 128, f i * gX ^ (i : Nat)

/-- ostriple.h:173-186 / polynomial.h:60-70: the block whose bit `i` is the low bit of `ope_data[i]`.
Simplification: the two 64-bit words and `makeBlock` are written as the sum of `bit_i * X^i`; see `chBits` in
`Verif.Model.BlockWords` for the word-level loop. -/
def packLsbs (f : Nat → F) : F := ∑ i : Fin 128, bit (lsb (f i)) * gX ^ (i : Nat)

/-! ### the AND-gate check -/

/-- One buffered AND gate: `andgate_left_buffer`, `andgate_right_buffer`, `andgate_out_buffer` (ostriple.h:16-18). -/
structure Gate (F : Type) where
  left : F
  right : F
  out : F

/-- ostriple.h:225-233: `A0`, `A1` of one gate (prover). -/
def gatePrv (g : Gate F) : F × F :=
  (g.left * g.right, sel (lsb g.left) g.right + sel (lsb g.right) g.left + g.out)

/-- ostriple.h:236-243: `B` of one gate (verifier). -/
def gateVer (delta : F) (g : Gate F) : F := g.left * g.right + g.out * delta

/-- ostriple.h:153-166: the ranges (start, length) handed to the worker tasks.  `none` is undefined behaviour:
division by zero in `check_cnt / threads` or in `check_cnt % task_base`.
Simplification: `int`/`uint32_t` are natural numbers (check_cnt ≤ CHECK_SZ = 2^20). -/
def splitTasks (checkCnt threads : Nat) : Option (List (Nat × Nat)) :=
  if threads = 0 then none
  else
    let taskBase := checkCnt / threads
    if taskBase = 0 then none
    else
      let leftover := taskBase + checkCnt % taskBase
      some ((List.range (threads - 1)).map (fun i => (i * taskBase, taskBase)) ++
        [((threads - 1) * taskBase, leftover)])

/-- The buffer entries of one task, ostriple.h:224,236: `i` from `start` to `start + task_n - 1`. -/
def taskSlice {α : Type} (buf : List α) (t : Nat × Nat) : List α := (buf.drop t.1).take t.2

/-- ostriple.h:213-255 on the prover's side, summed over the tasks (188-191); `seeds i` is `share_seed[i]`. -/
def checkSumPrv (buf : List (Gate F)) (seeds : Nat → F) (tasks : List (Nat × Nat)) (i : Nat) : F × F :=
  match tasks with
  | [] => (0, 0)
  | t :: ts =>
    let rest := checkSumPrv buf seeds ts (i + 1)
    (chiSum (seeds i) ((taskSlice buf t).map (fun g => (gatePrv g).1)) + rest.1,
     chiSum (seeds i) ((taskSlice buf t).map (fun g => (gatePrv g).2)) + rest.2)

/-- ostriple.h:213-255 on the verifier's side, summed over the tasks (198-199). -/
def checkSumVer (delta : F) (buf : List (Gate F)) (seeds : Nat → F) (tasks : List (Nat × Nat)) (i : Nat) : F :=
  match tasks with
  | [] => 0
  | t :: ts =>
    chiSum (seeds i) ((taskSlice buf t).map (gateVer delta)) + checkSumVer delta buf seeds ts (i + 1)

/-- ostriple.h:144-192: message `A_star` of the prover; `ope i` are the 128 masking blocks. -/
def andCheckPrv (buf : List (Gate F)) (threads : Nat) (seeds : Nat → F) (ope : Nat → F) : Option (F × F) :=
  match splitTasks buf.length threads with
  | none => none
  | some tasks =>
    let s := checkSumPrv buf seeds tasks 0
    some (packBlocks ope + s.1, packLsbs ope + s.2)

/-- ostriple.h:193-207: the verifier's decision on the received `A_star`; `true` = no cheating recorded. -/
def andCheckVer [DecidableEq F] (delta : F) (buf : List (Gate F)) (threads : Nat) (seeds : Nat → F)
    (ope : Nat → F) (aStar : F × F) : Option Bool :=
  match splitTasks buf.length threads with
  | none => none
  | some tasks =>
    let bStar := packBlocks ope + checkSumVer delta buf seeds tasks 0
    let w := aStar.2 * delta + aStar.1
    some (decide (w = bStar))

/-! ### polynomial statements -/

/-- polynomial.h:115-127: one term with coefficient, prover. -/
def termPrvC (A : F × F) (t : Bool × F × F) : F × F :=
  (A.1 + sel t.1 (t.2.1 * t.2.2),
   A.2 + sel t.1 (sel (lsb t.2.2) t.2.1 + sel (lsb t.2.1) t.2.2))

/-- polynomial.h:161-174 (also 206-219, 222-235, 305-318, 361-374, 377-390): one term, prover. -/
def termPrv (A : F × F) (t : F × F) : F × F :=
  (A.1 + t.1 * t.2, A.2 + (sel (lsb t.2) t.1 + sel (lsb t.1) t.2))

/-- polynomial.h:135-138: one term with coefficient, verifier. -/
def termVerC (B : F) (t : Bool × F × F) : F := B + sel t.1 (t.2.1 * t.2.2)

/-- polynomial.h:182-183 (also 244-245, 248-249, 335-336, 399-400, 403-404): one term, verifier. -/
def termVer (B : F) (t : F × F) : F := B + t.1 * t.2

/-- Prover's buffered pair (`buffer[num]`, `buffer1[num]`) for a statement on labels
(emp-zk-bool/polynomial.h:98-130, 149-178, 194-240, 261-323, 349-395). -/
def stmtPrv : PolyStmt F → F × F
  | .deg2 _ terms => terms.foldl termPrvC (0, 0)
  | .inner _ xy => xy.foldl termPrv (0, 0)
  | .innerEq xy rs => rs.foldl termPrv (xy.foldl termPrv (0, 0))
  | .innerEqOne xy rs rr ss => termPrv (rs.foldl termPrv (xy.foldl termPrv (0, 0))) (rr, ss)
  | .multiOne xy r s => termPrv (xy.foldl termPrv (0, 0)) (r, s)

/-- Verifier's buffered value for a statement on keys (emp-zk-bool/polynomial.h:131-146, 179-191, 241-258, 324-345, 396-412). -/
def stmtVer (delta : F) : PolyStmt F → F
  | .deg2 c0 terms => terms.foldl termVerC 0 + sel c0 (delta * delta)
  | .inner c xy => xy.foldl termVer 0 + sel c (delta * delta)
  | .innerEq xy rs => rs.foldl termVer (xy.foldl termVer 0) + sel false (delta * delta)
  | .innerEqOne xy rs rr ss =>
      termVer (rs.foldl termVer (xy.foldl termVer 0)) (rr, ss) + sel false (delta * delta)
  | .multiOne xy r s => termVer (xy.foldl termVer 0) (r, s) + sel false (delta * delta)

/-- polynomial.h:50-72: prover's message of the batch check. -/
def polyCheckPrv (buf : List (F × F)) (seed : F) (ope : Nat → F) : F × F :=
  (chiSum seed (buf.map Prod.fst) + packBlocks ope, chiSum seed (buf.map Prod.snd) + packLsbs ope)

/-- polynomial.h:74-93: verifier's decision of the batch check; `true` = no cheating recorded. -/
def polyCheckVer [DecidableEq F] (delta : F) (buf : List F) (seed : F) (ope : Nat → F) (sum : F × F) : Bool :=
  decide (sum.1 = chiSum seed buf + packBlocks ope + sum.2 * delta)

end
end EmpZk
