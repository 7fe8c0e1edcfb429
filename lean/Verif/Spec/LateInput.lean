/-
Specification side of C92: a program with two batches of AND gates whose second batch works on inputs given and opened before the
first check, and the bits sent by a prover that has fixed the second batch before it chooses its inputs.
-/
import Verif.Spec.BoolCommit

namespace EmpZk

/-- Is this instruction an AND gate? -/
def BOp.isAnd : BOp → Bool
  | .and _ _ => true
  | _ => false

/-- First part: `n` inputs, the public bit 1 (wire `n`), all inputs opened, `c` gates `1 AND 1`. -/
def earlyOps (n c : Nat) (x : Nat → Bool) : List BOp :=
  (List.range n).map (fun i => .input (x i)) ++ ([.pub true] ++
    ((List.range n).map (fun i => .reveal i) ++ (List.range c).map (fun _ => .and n n)))

/-- Second part: every input AND 1, all results opened. -/
def lateOps (n c : Nat) : List BOp :=
  (List.range n).map (fun i => .and i n) ++ (List.range n).map (fun i => .reveal (n + c + 2 + i))

/-- The program: after the first part one more gate `1 AND 1`, at which a batch of `c` gates is checked. -/
def lateProg (n c : Nat) (x : Nat → Bool) : List BOp := earlyOps n c x ++ ([.and n n] ++ lateOps n c)

section
variable {F : Type} [Field F] [BlockField F]

/-- Messages of the first part when the inputs are `a`; every other value is as it should be. -/
def earlyMsgs (v : BView F) (n c : Nat) (a : Nat → Bool) : List (BMsg F) :=
  (List.range n).map (fun i => ⟨a i ^^ lsb (v.mac (1 + i)), 0, 0⟩) ++ ([⟨false, 0, 0⟩] ++
    ((List.range n).map (fun i => ⟨a i, 0, 0⟩) ++ (List.range c).map (fun i => ⟨!lsb (v.mac (1 + n + i)), 0, 0⟩)))

/-- Message of the gate at which the batch is checked. -/
def turnMsg (v : BView F) (n c : Nat) (ans : F × F) : BMsg F := ⟨!lsb (v.mac (1 + n + c + 128)), ans⟩

/-- Messages of the second part: all results are claimed to be 0. -/
def lateMsgs (v : BView F) (n c : Nat) : List (BMsg F) :=
  (List.range n).map (fun i => ⟨lsb (v.mac (1 + n + c + 128 + 1 + i)), 0, 0⟩) ++ (List.range n).map (fun _ => ⟨false, 0, 0⟩)

end
end EmpZk
