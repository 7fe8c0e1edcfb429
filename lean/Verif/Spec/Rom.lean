/-
Specification side of C93: a prover that may ask a random function before it sends its bytes.
-/
import Verif.Model.BoolNetAdv
import Verif.Spec.LateInput
import Verif.Lemmas.BoolSound
import Verif.Lemmas.NetMsgs
import Mathlib.Data.Fintype.Vector

namespace EmpZk

/-- A program that asks a function `X → A` at points of its choice, each depending on the answers so far, and returns a result. -/
inductive OTree (X A R : Type) where
  | out (r : R)
  | ask (x : X) (k : A → OTree X A R)

section
variable {X A R : Type}

/-- Its result when the function is `H`. -/
def OTree.run (H : X → A) : OTree X A R → R
  | .out r => r
  | .ask x k => (k (H x)).run H

/-- It asks at most `q` questions, whatever the answers. -/
def OTree.Asks : Nat → OTree X A R → Prop
  | _, .out _ => True
  | 0, .ask _ _ => False
  | q + 1, .ask _ k => ∀ a, (k a).Asks q

end

/-- Byte strings of length `L`: what the endpoint has hashed when the check begins. -/
abbrev Str (L : Nat) : Type := List.Vector Byte L

section
variable {F : Type} [Field F] [BlockField F]

/-- The session in which the seeds of the check, one per thread, are the value of the function `H` at the hashed string. -/
def romNet {L T : Nat} (ne : NetEnv F) (H : Str L → Fin T → F) : NetEnv F :=
  { ne with seeds := fun dg => if h : dg.length = L then extendSeeds (H ⟨dg, h⟩) else fun _ => 0 }

/-- No inputs lead to the outputs `outs`. -/
def Impossible (ops : List BOp) (outs : List Bool) : Prop :=
  ∀ ops' pl, List.Forall₂ BOp.same ops ops' → plainRun ops' = some pl → pl.outs ≠ outs

variable [DecidableEq F]

/-- The verifier with secret `d`, having received the bytes `W`, accepts in the state `V`. -/
def Accepts (ne : NetEnv F) (v : BView F) (ops : List BOp) (S : Nat) (junk W : List Byte) (d : F) (V : VerNet F) : Prop :=
  ∃ r rest, rcvRun S (rcvInit S junk) W (sessionCallsV (ne.at v d) ops) = .ok (r, rest) ∧
    netSessionV (ne.at v d) ops r.bits r.datas r.digests = some V ∧ cheated V.st = false

/-- The prover `P` succeeds in cheating: with the function `q.1` and the secret `q.2` the verifier accepts its bytes and sees outputs that no
inputs produce, and the hash of the opened blocks does not collide for two secrets. -/
def RomCheats {L T : Nat} (P : OTree (Str L) (Fin T → F) (List Byte)) (ne : NetEnv F) (v : BView F) (ops : List BOp) (S : Nat) (junk : List Byte)
    (q : (Str L → Fin T → F) × {d : F // lsb d = true}) : Prop :=
  (∀ (d1 d2 : F) V1 V2, lsb d1 = true → lsb d2 = true → Accepts (romNet ne q.1) v ops S junk (P.run q.1) d1 V1 →
    Accepts (romNet ne q.1) v ops S junk (P.run q.1) d2 V2 → v.hash V1.st.digest = v.hash V2.st.digest → V1.st.digest = V2.st.digest) ∧
  ∃ V, Accepts (romNet ne q.1) v ops S junk (P.run q.1) q.2.1 V ∧ Impossible ops V.st.outs

end
end EmpZk
