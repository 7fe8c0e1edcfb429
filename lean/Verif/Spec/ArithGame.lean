/-
Specification: a cheating prover against the random choices of the verifier, in the arithmetic protocol.

The verifier's randomness in a session is: one seed per task for every multiplication check, one seed for every check of
polynomial statements, and `Delta`.  The prover sees a seed when the check begins, never `Delta`; each of its messages may
depend on the seeds of all checks begun so far.
-/
import Verif.Spec.ArithCommit
import Verif.Spec.ArithCircuit

namespace EmpZk

/-- Number of polynomial statements of a program. -/
def stmtCount : List AOp → Nat
  | [] => 0
  | .poly _ :: os => stmtCount os + 1
  | _ :: os => stmtCount os

/-- Number of checks begun by the time the `n`-th object has been put into a buffer of `sz` places: the buffer is checked when
an object arrives and all places are taken. -/
def disclosed (n sz : Nat) : Nat := (n - 1) / sz

/-- A prover's strategy: the message of the `k`-th instruction from the seeds disclosed so far, and the messages at the end
from all seeds. -/
structure AStrategy (T : Nat) where
  msg : Nat → List (Fin T → Fp) → List Fp → AMsg
  fin : List (Fin T → Fp) → List Fp → AFin

/-- The messages of a strategy in a session with the seeds `σ` (multiplication checks) and `τ` (statements). -/
def AStrategy.msgs {T : Nat} (S : AStrategy T) (v : AView) (ops : List AOp) (σ : List (Fin T → Fp)) (τ : List Fp) : List AMsg :=
  (List.range ops.length).map fun k =>
    S.msg k (σ.take (disclosed (mulCount (ops.take (k + 1))) v.checkSz))
      (τ.take (disclosed (stmtCount (ops.take (k + 1))) v.polySz))

/-- A finite family continued by zero. -/
def famAt {X : Type} [Zero X] {n : Nat} (s : Fin n → X) (i : Nat) : X := if h : i < n then s ⟨i, h⟩ else 0

/-- The session with the given seeds; `block` is any choice of 128-bit blocks for the residues of the seeds. -/
def AView.seeded (v : AView) (block : Fp → U128) {B T Q : Nat} (σ : Fin B → Fin T → Fp) (τ : Fin Q → Fp) : AView :=
  { v with seed := fun b i => block (famAt (famAt σ b) i), polySeed := fun b => toW (famAt τ b) }

/-- Size of the `b`-th batch when `n` objects pass through a buffer of `sz` places. -/
def batchLen (n sz b : Nat) : Nat := min sz (n - b * sz)

/-- The verifier accepts, with the seeds `σ`, `τ` and the secret `d`, and with the values it returned. -/
def AcceptsGame (v : AView) (block : Fp → U128) (ops : List AOp) {B T Q : Nat} (S : AStrategy T)
    (σ : Fin B → Fin T → Fp) (τ : Fin Q → Fp) (d : Fp) (V : AVer) : Prop :=
  averSession ((v.seeded block σ τ).env d) ops (S.msgs v ops (List.ofFn σ) (List.ofFn τ)) (S.fin (List.ofFn σ) (List.ofFn τ)) = some V ∧
    V.accepted = true

/-- There are inputs for which the plain program returns the same values and all claims hold. -/
def Explained (ops : List AOp) (V : AVer) : Prop :=
  ∃ ops' pl, List.Forall₂ AOp.same ops ops' ∧ (∀ o ∈ ops', o.CanonC) ∧ aplainRun ops' = some pl ∧ (∀ x ∈ pl.claims, x = 0) ∧
    V.outs.map fp = pl.outs

/-- The hash function tells the lists apart that the verifier hashes for different `Delta`. -/
def HashSeparates (v : AView) (block : Fp → U128) (ops : List AOp) {B T Q : Nat} (S : AStrategy T)
    (σ : Fin B → Fin T → Fp) (τ : Fin Q → Fp) : Prop :=
  ∀ d1 d2 V1 V2, AcceptsGame v block ops S σ τ d1 V1 → AcceptsGame v block ops S σ τ d2 V2 →
    v.hash V1.stored = v.hash V2.stored → V1.stored = V2.stored

/-- The prover has cheated: the verifier has accepted something no inputs explain, without a collision of the hash. -/
def Cheated (v : AView) (block : Fp → U128) (ops : List AOp) {B T Q : Nat} (S : AStrategy T)
    (q : ((Fin B → Fin T → Fp) × (Fin Q → Fp)) × Fp) : Prop :=
  HashSeparates v block ops S q.1.1 q.1.2 ∧ ∃ V, AcceptsGame v block ops S q.1.1 q.1.2 q.2 V ∧ ¬ Explained ops V

end EmpZk
