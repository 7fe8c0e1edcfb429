/-
Specification side of C94: rows of wires, the field elements they stand for, and a program which gives two lists of rows, followed by more AND
gates than fit into one batch.
-/
import Verif.Model.RamChal
import Verif.Spec.Rom

namespace EmpZk

section
variable {F : Type} [Field F] [BlockField F]

/-- The block whose bits are the values of the given committed wires, the first one lowest. -/
def rowWord : List F → F
  | [] => 0
  | m :: l => bit (lsb m) + gX * rowWord l

/-- The rows given by indices of wires. -/
def rowVals (ws : List F) (rows : List (List Nat)) : Option (List F) :=
  rows.mapM (fun row => (row.mapM (fun i => ws[i]?)).map rowWord)

variable [DecidableEq F]

/-- With what its endpoint has returned the verifier reaches the challenge, computed from the string `x`, and the prover is committed to the
wires `ws`, whatever the secret. -/
def Committed (ne : NetEnv F) (v : BView F) (ops : List BOp) (bits : List Bool) (datas digs : List (List Byte)) (x : List Byte) (ws : List F) : Prop :=
  ∀ d, lsb d = true → ∃ V, chalV (ne.at v d) ops bits datas digs = some (x, V) ∧ V.st.wires = ws.map (keyOf d)

/-- The lists of rows `A` and `B` differ, but their products at the challenge `r` do not. -/
def Confused (A B : List F) (r : F) : Prop :=
  ¬ A.Perm B ∧ (A.map (· + r)).prod = (B.map (· + r)).prod

/-- The prover `P` succeeds: with the function `H` the rows of the two lists to which its bytes commit it differ, but this is not noticed. -/
def RamCheats {L : Nat} (P : OTree (Str L) F (List Byte)) (ne : NetEnv F) (v : BView F) (ops : List BOp) (rows1 rows2 : List (List Nat)) (S : Nat)
    (junk : List Byte) (H : Str L → F) : Prop :=
  ∃ r rest x ws A B, rcvRun S (rcvInit S junk) (P.run H) (chalCallsV (ne.at v 0) ops) = .ok (r, rest) ∧
    Committed ne v ops r.bits r.datas r.digests x.1 ws ∧ rowVals ws rows1 = some A ∧ rowVals ws rows2 = some B ∧ Confused A B (H x)

end

/-- `2 m` inputs, the public bits 0 and 1 (wires `2 m` and `2 m + 1`), `c` gates `1 AND 1`. -/
def rowEarly (m c : Nat) : List BOp :=
  (List.range (2 * m)).map (fun _ => .input false) ++ ([.pub false, .pub true] ++ (List.range c).map (fun _ => .and (2 * m + 1) (2 * m + 1)))

/-- One more gate, at which a batch of `c` gates is checked. -/
def rowProg (m c : Nat) : List BOp := rowEarly m c ++ [.and (2 * m + 1) (2 * m + 1)]

/-- The row "address `i` holds the bit of wire `off + i`": the bit, and the 127 bits of the address. -/
def addrRow (m off i : Nat) : List Nat := (off + i) :: (List.range 127).map (fun j => if i.testBit j then 2 * m + 1 else 2 * m)

/-- The contents of all addresses, given by the inputs from `off` on. -/
def addrRows (m off : Nat) : List (List Nat) := (List.range m).map (addrRow m off)

end EmpZk
