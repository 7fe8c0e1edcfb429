/-
C57: the messages of a boolean proof reveal nothing about the witness beyond the revealed values.
-/
import Verif.Lemmas.BoolHide
import Verif.Props.BoolProtocol
import Mathlib.Data.Fintype.EquivFin
import Mathlib.Data.Fintype.Pi

namespace EmpZk

/-- A finite string of bits continued by `false`. -/
def extBits {N : Nat} (c : Fin N → Bool) : Nat → Bool := fun n => if h : n < N then c ⟨n, h⟩ else false

section
variable {F : Type} [Field F] [PackField F] [DecidableEq F]

/-- Number of correlation bits that is enough for every program of `k` instructions. -/
def bitBudget (k : Nat) : Nat := 257 + 129 * k

/-- C57. Simulation: for every well-formed program whose claims hold, there is a bijection `psi` of the prover's
correlation bits such that the transcript (all messages of the honest prover, including the digest) with correlation bits
`c` is the transcript of the simulator with random bits `psi c`.  The simulator gets the verifier's keys, the shape of
the program and the revealed values only. -/
theorem C57_simulation (e : BEnv F) (he : e.Good) (ht : 0 < e.threads) (htc : e.threads ≤ e.checkSz)
    (hp : 0 < e.polySz) (ops : List BOp) (pl : Plain) (hpl : plainRun ops = some pl)
    (hcl : ∀ b ∈ pl.claims, b = false)
    (hlast : lastBatch (andTriples 0 ops).length e.checkSz = 0 ∨
      e.threads ≤ lastBatch (andTriples 0 ops).length e.checkSz) :
    ∃ psi : Equiv.Perm (Fin (bitBudget ops.length) → Bool), ∀ c, ∃ P ms fin,
      prvSession (e.withChoice (extBits c)) ops = some (P, ms, fin) ∧ P.used ≤ bitBudget ops.length ∧
      simSession e.blind (extBits (psi c)) pl.outs (ops.map BOp.erase) = some (ms, fin) := by
  classical
  have key : ∀ c : Fin (bitBudget ops.length) → Bool, ∃ u : Fin (bitBudget ops.length) → Bool, ∃ P ms fin,
      prvSession (e.withChoice (extBits c)) ops = some (P, ms, fin) ∧ P.used ≤ bitBudget ops.length ∧
      simSession e.blind (extBits u) pl.outs (ops.map BOp.erase) = some (ms, fin) ∧
      ∀ i : Fin (bitBudget ops.length), (i.1 = 0 ∨ P.used ≤ i) → u i = c i := by
    intro c
    have he' := he.withChoice (extBits c)
    have hsome := (C07_completes (e.withChoice (extBits c)) he' ht htc hp ops).2 ⟨by rw [hpl]; rfl, hlast⟩
    obtain ⟨⟨P, ms, fin⟩, h⟩ := Option.isSome_iff_exists.1 hsome
    obtain ⟨V, pl', h1, h2, h3, _, _, h4⟩ := C07_honest_session _ he' ops P ms fin h
    rw [hpl, Option.some.injEq] at h2
    subst h2
    have hc := h4 hcl
    have hc' : V.cheats = [] := by simpa [cheated] using hc
    have hb : P.used ≤ bitBudget ops.length := (prvSession_inj he h h rfl).2.1
    have h' := h
    rw [← he'.eta] at h' h1
    obtain ⟨u0, _, k1, k2⟩ := sim_session _ he'.lsb_delta h' h1 hc'
    rw [he'.eta, h3] at k2
    refine ⟨fun i => if i.1 = 0 ∨ P.used ≤ i then c i else u0 i, P, ms, fin, h, hb, ?_, fun i hi => if_pos hi⟩
    rw [BEnv.blind, simSession_public, ← simSession_public e (extBits c), simSession_public e, ← simSession_public e (extBits c)]
    rw [← k2 (extBits (fun i : Fin (bitBudget ops.length) => if i.1 = 0 ∨ P.used ≤ i then c i else u0 i))]
    · rw [simSession_public]
      have := simSession_public (e.withChoice (extBits c)) e.choice
        (extBits (fun i : Fin (bitBudget ops.length) => if i.1 = 0 ∨ P.used ≤ i then c i else u0 i)) pl.outs ops
      rw [← this]
      exact (simSession_public e e.choice _ _ _).symm
    · intro n hn hn'
      have : n < bitBudget ops.length := by omega
      simp only [extBits, this, dif_pos]
      rw [if_neg (by omega)]
  choose f hf using key
  have hinj : Function.Injective f := by
    intro c1 c2 h12
    obtain ⟨P1, m1, f1, a1, b1, s1, o1⟩ := hf c1
    obtain ⟨P2, m2, f2, a2, b2, s2, o2⟩ := hf c2
    rw [h12, s2, Option.some.injEq] at s1
    obtain ⟨k1, _, k3⟩ := prvSession_inj he a1 a2 s1.symm
    simp only at k1 k3
    funext i
    by_cases hi : i.1 = 0 ∨ P1.used ≤ i
    · rw [← o1 i hi, h12, o2 i (by rw [← k1]; exact hi)]
    · have := k3 i.1 (by omega) (by omega)
      simp only [extBits, i.2, dif_pos] at this
      exact this
  refine ⟨Equiv.ofBijective f (Finite.injective_iff_bijective.1 hinj), ?_⟩
  intro c
  obtain ⟨P, ms, fin, h1, h2, h3, _⟩ := hf c
  exact ⟨P, ms, fin, h1, h2, h3⟩

/-- C57. Two witnesses with the same revealed values: a bijection of the correlation bits makes the transcripts equal. -/
theorem C57_witness_hiding (e : BEnv F) (he : e.Good) (ht : 0 < e.threads) (htc : e.threads ≤ e.checkSz)
    (hp : 0 < e.polySz) (ops ops' : List BOp) (hsame : ops.map BOp.erase = ops'.map BOp.erase)
    (pl pl' : Plain) (hpl : plainRun ops = some pl) (hpl' : plainRun ops' = some pl')
    (hcl : ∀ b ∈ pl.claims, b = false) (hcl' : ∀ b ∈ pl'.claims, b = false) (hout : pl.outs = pl'.outs)
    (hlast : lastBatch (andTriples 0 ops).length e.checkSz = 0 ∨
      e.threads ≤ lastBatch (andTriples 0 ops).length e.checkSz) :
    ∃ phi : Equiv.Perm (Fin (bitBudget ops.length) → Bool), ∀ c, ∃ P P' ms fin,
      prvSession (e.withChoice (extBits c)) ops = some (P, ms, fin) ∧ P.used ≤ bitBudget ops.length ∧
      prvSession (e.withChoice (extBits (phi c))) ops' = some (P', ms, fin) := by
  have hlen : ops'.length = ops.length := by simpa using (congrArg List.length hsame).symm
  have htrip : ∀ (l : List BOp) (n : Nat), andTriples n (l.map BOp.erase) = andTriples n l := by
    intro l
    induction l with
    | nil => intro n; rfl
    | cons o os ih => intro n; cases o <;> simp only [List.map_cons, BOp.erase, andTriples, ih]
  have hlast' := hlast
  rw [← htrip ops, hsame, htrip] at hlast'
  obtain ⟨psi, h1⟩ := C57_simulation e he ht htc hp ops pl hpl hcl hlast
  have h2 := C57_simulation e he ht htc hp ops' pl' hpl' hcl' hlast'
  rw [hlen] at h2
  obtain ⟨psi', h2⟩ := h2
  refine ⟨psi.trans psi'.symm, fun c => ?_⟩
  obtain ⟨P, ms, fin, a1, a2, a3⟩ := h1 c
  obtain ⟨P', ms', fin', b1, b2, b3⟩ := h2 (psi'.symm (psi c))
  rw [Equiv.apply_symm_apply, ← hsame, ← hout, a3, Option.some.injEq, Prod.mk.injEq] at b3
  obtain ⟨rfl, rfl⟩ := b3
  exact ⟨P, P', ms, fin, a1, a2, b1⟩

/-- Two different witnesses of the same program (same shape, all claims true, same revealed value). -/
def exHideA : List BOp := [.input true, .input false, .xor 0 1, .and 0 1, .and 0 0, .poly (.deg2 false [(true, 0, 1)]), .reveal 2]
def exHideB : List BOp := [.input false, .input true, .xor 0 1, .and 0 1, .and 0 0, .poly (.deg2 false [(true, 0, 1)]), .reveal 2]

/-- C57: the hypotheses are met by two different witnesses with a full batch of AND gates, a statement and an opening. -/
example : ∃ phi : Equiv.Perm (Fin (bitBudget exHideA.length) → Bool), ∀ c, ∃ P P' ms fin,
    prvSession (exEnv.withChoice (extBits c)) exHideA = some (P, ms, fin) ∧ P.used ≤ bitBudget exHideA.length ∧
    prvSession (exEnv.withChoice (extBits (phi c))) exHideB = some (P', ms, fin) := by
  classical
  exact C57_witness_hiding exEnv exEnv_good (by decide) (by decide) (by decide) exHideA exHideB rfl
    ⟨[true, false, true, false, true], [true], [false]⟩ ⟨[false, true, true, false, false], [true], [false]⟩
    (by decide) (by decide) (by decide) (by decide) rfl (Or.inr (by decide))

example : exHideA ≠ exHideB := by simp [exHideA, exHideB]

end
end EmpZk
