/-
Specification: a prover process against the verifier's random choices, in the arithmetic protocol over the network.

The verifier's random choices are: a 128-bit block for every multiplication check, a 64-bit word for every check of polynomial
statements, and the 64-bit word whose residue is `Delta`. The prover is any program that sends and receives bytes; it is connected to the
verifier's process.
-/
import Mathlib.Data.BitVec
import Mathlib.Data.Fintype.Card
import Verif.Model.ArithNet
import Verif.Spec.ArithGame
import Verif.Spec.ArithWire
import Verif.Lemmas.ArithSession

namespace EmpZk

/-- There are finitely many words. -/
instance fintypeBitVec (n : Nat) : Fintype (BitVec n) := Fintype.ofEquiv (Fin (2 ^ n)) BitVec.equivFin.symm.toEquiv

/-- The program `P`, returning also the bytes it has received (appended to `l`). -/
def Proc.log {α : Type} : Proc α → List Byte → Proc (α × List Byte)
  | .done a, l => .done (a, l)
  | .fail, _ => .fail
  | .send bs k, l => .send bs (k.log l)
  | .recv n k, l => .recv n (fun bs => (k bs).log (l ++ bs))

/-- The verifier, connected to the prover process `A`, returns `V` under some schedule, having received the bytes `bs`. -/
def RunsTo {α : Type} (A : Proc α) (ne : ANetEnv) (ops : List AOp) (V : AVer) (bs : List Byte) : Prop :=
  ∃ n A' pq qp, Duo.Reach n ⟨A, (averNet ne ops).log [], [], []⟩ ⟨A', .done (V, bs), pq, qp⟩

/-- A finite sequence continued by `z`. -/
def drawAt {X : Type} (z : X) {n : Nat} (s : Fin n → X) (i : Nat) : X := if h : i < n then s ⟨i, h⟩ else z

/-- What the prover knows in a session in which the verifier has drawn `σ` for the multiplication checks and `τ` for the statements. -/
def AView.drawn (v : AView) (expand : U128 → Nat → U128) {B Q : Nat} (σ : Fin B → U128) (τ : Fin Q → W) : AView :=
  { v with seed := fun b => expand (drawAt 0 σ b), polySeed := drawAt 0 τ }

/-- The session in which the verifier has drawn `σ`, `τ`, and `w` for `Delta`. -/
def AView.drawnNet (v : AView) (expand : U128 → Nat → U128) (ext : Nat → List (Bool × List Byte)) {B Q : Nat} (σ : Fin B → U128)
    (τ : Fin Q → W) (w : W) : ANetEnv :=
  ⟨(v.drawn expand σ τ).env (fp w), drawAt 0 σ, expand, ext⟩

/-- The form of the messages of a session: the same for all random choices. -/
def AView.wireOf (v : AView) (ext : Nat → List (Bool × List Byte)) : AWire := ⟨ext, v.checkSz, v.polySz⟩

/-- The hash function tells the lists apart that accepting verifiers hash for different `Delta`. -/
def NoCollision {α : Type} (A : Proc α) (v : AView) (expand : U128 → Nat → U128) (ext : Nat → List (Bool × List Byte)) (ops : List AOp)
    {B Q : Nat} (σ : Fin B → U128) (τ : Fin Q → W) : Prop :=
  ∀ w1 w2 V1 V2 b1 b2, RunsTo A (v.drawnNet expand ext σ τ w1) ops V1 b1 → RunsTo A (v.drawnNet expand ext σ τ w2) ops V2 b2 →
    V1.accepted = true → V2.accepted = true → v.hash V1.stored = v.hash V2.stored → V1.stored = V2.stored

/-- The prover process has cheated: the verifier has received canonical words and has accepted something no inputs explain, without a
collision of the hash. -/
def ProcCheats {α : Type} (A : Proc α) (v : AView) (expand : U128 → Nat → U128) (ext : Nat → List (Bool × List Byte)) (ops : List AOp)
    {B Q : Nat} (q : ((Fin B → U128) × (Fin Q → W)) × W) : Prop :=
  NoCollision A v expand ext ops q.1.1 q.1.2 ∧
  ∃ V bs ms fin, RunsTo A (v.drawnNet expand ext q.1.1 q.1.2 q.2) ops V bs ∧ (v.wireOf ext).session ops bs = some (ms, fin, []) ∧
    (∀ m ∈ ms, m.CanonM) ∧ V.accepted = true ∧ ¬ Explained ops V

/-- Quality of the expansion of a block into the coefficients of the tasks: whatever batch of gates of which some checked one is wrong,
at most `E` blocks per gate make the sum of the errors vanish. -/
def ExpandGood (expand : U128 → Nat → U128) (threads E : Nat) : Prop :=
  ∀ (buf : List CGate) (tasks : List (Nat × Nat)), mulTasks buf.length threads = some tasks →
    (∃ t ∈ tasks, ∃ g ∈ taskSlice buf t, ¬ g.Correct) →
    ∀ s : Finset U128, (∀ x ∈ s, mulErr buf (expand x) tasks = 0) → s.card ≤ buf.length * E

end EmpZk
