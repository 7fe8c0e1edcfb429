/-
Specification: what a verifier that may do anything learns from an arithmetic proof. The prover's correlations come from an ideal VOLE: the
verifier has any `Delta` and any keys, the prover has a uniformly random value `u` per correlation and the MAC `key + Delta * u`.
-/
import Verif.Model.ArithFull
import Verif.Spec.ArithSim

namespace EmpZk

/-- The program with an ideal VOLE that delivers `c 0`, `c 1`, .. -/
def VProg.given {α : Type} : VProg α → (Nat → U128) → Proc α
  | .done a, _ => .done a
  | .fail, _ => .fail
  | .send bs k, c => .send bs (k.given c)
  | .recv n k, c => .recv n (fun b => (k b).given c)
  | .cor k, c => (k (c 0)).given (fun j => c (j + 1))

/-- The prover's correlation for the value `u`, when the verifier has `d` and `k`. -/
def corOf (d k u : Fp) : U128 := lab (u, k + d * u)

/-- A finite string of masks; what comes after it is never used. -/
def masks {m : Nat} (u : Fin m → Fp) (j : Nat) : Fp := if h : j < m then u ⟨j, h⟩ else 0

/-- The honest prover of an arithmetic proof with masks `u`, as a party on the network. -/
def viewProver {m : Nat} (ne : ANetEnv) (d : Fp) (key : Nat → Fp) (ops : List AOp) (u : Fin m → Fp) : Proc APrv :=
  (aprvProg ne ops).given (fun j => corOf d (key j) (masks u j))

/-- The second party can return `r`; by `Duo.reach_reach` no schedule can make it return anything else. -/
def Returns {α β : Type} (P : Proc α) (B : Proc β) (r : β) : Prop :=
  ∃ n p a b, Duo.Reach n ⟨P, B, [], []⟩ ⟨p, .done r, a, b⟩

/-- Whenever the prover takes a word from the verifier, the word is below `p` (the only words it takes are the seeds of polynomial checks;
the seeds of multiplication checks are blocks of 16 bytes). -/
def SeedsBelow {α β : Type} (P : Proc α) (B : Proc β) : Prop :=
  ∀ n c k, Duo.Reach n ⟨P, B, [], []⟩ c → c.p = .recv 8 k → 8 ≤ c.qp.length → Canon (decW (c.qp.take 8))

end EmpZk
