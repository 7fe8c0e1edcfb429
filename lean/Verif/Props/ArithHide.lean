/-
C58: the messages of an arithmetic proof reveal nothing about the witness beyond the revealed values.
-/
import Verif.Lemmas.ArithHide
import Verif.Props.ArithProtocol
import Mathlib.Data.Fintype.EquivFin
import Mathlib.Data.Fintype.Pi

namespace EmpZk

/-- A finite string of field elements continued by 0. -/
def extFp {N : Nat} (c : Fin N → Fp) : Nat → Fp := fun n => if h : n < N then c ⟨n, h⟩ else 0

/-- Number of correlations that is enough for every program of `k` instructions. -/
def fpBudget (k : Nat) : Nat := 3 + 2 * k

/-- C58. Simulation: for every well-formed program whose claims hold, there is a bijection `psi` of the prover's
correlation values such that the transcript (all messages of the honest prover, including the digest) with correlation
values `u` is the transcript of the simulator with random field elements `psi u`.  The simulator gets the verifier's keys
and secret, the shape of the program and the revealed values only. -/
theorem C58_simulation (e : AEnv) (he : e.Good) (h0 : 0 < e.checkSz)
    (h1 : e.checkSz < 32 ∨ (0 < e.threads ∧ e.threads ≤ e.checkSz)) (hp : 0 < e.polySz) (ops : List AOp)
    (ho : ∀ o ∈ ops, o.CanonC) (pl : APlain) (hpl : aplainRun ops = some pl) (hcl : ∀ x ∈ pl.claims, x = 0)
    (hlast : lastBatch (mulCount ops) e.checkSz < 32 ∨
      (0 < e.threads ∧ e.threads ≤ lastBatch (mulCount ops) e.checkSz)) :
    ∃ psi : Equiv.Perm (Fin (fpBudget ops.length) → Fp), ∀ u, ∃ P ms fin,
      aprvSession (e.withU (extFp u)) ops = some (P, ms, fin) ∧ P.used ≤ fpBudget ops.length ∧
      simSessionA e.blind (extFp (psi u)) (pl.outs.map toW) (ops.map AOp.erase) = some (ms, fin) := by
  classical
  have key : ∀ u : Fin (fpBudget ops.length) → Fp, ∃ t : Fin (fpBudget ops.length) → Fp, ∃ P ms fin,
      aprvSession (e.withU (extFp u)) ops = some (P, ms, fin) ∧ P.used ≤ fpBudget ops.length ∧
      simSessionA e.blind (extFp t) (pl.outs.map toW) (ops.map AOp.erase) = some (ms, fin) ∧
      ∀ i : Fin (fpBudget ops.length), (i.1 = 0 ∨ P.used ≤ i) → t i = u i := by
    intro u
    have he' := withU_good he (extFp u)
    have hsome := (C17_completes (e.withU (extFp u)) he' h0 h1 hp ops ho).2 ⟨by rw [hpl]; rfl, hlast⟩
    obtain ⟨⟨P, ms, fin⟩, h⟩ := Option.isSome_iff_exists.1 hsome
    obtain ⟨V, pl', k1, k2, k3, k4, _, k5⟩ := C17_honest_session _ he' ops ho P ms fin h
    rw [hpl, Option.some.injEq] at k2
    subst k2
    have hacc := k5 hcl
    have hout : V.outs = pl.outs.map toW := by
      rw [← k3, List.map_map]
      have e1 : V.outs.map (toW ∘ fp) = V.outs.map id := List.map_congr_left (fun w hw => toW_fp (k4 w hw))
      rw [e1, List.map_id]
    have hb : P.used ≤ fpBudget ops.length := by
      have h' := h
      rw [withU_eq he] at h'
      exact (aprvSession_inj _ ho h' h' rfl).2.1
    have h' := h
    rw [withU_eq he] at h' k1
    obtain ⟨_, t0, l⟩ := asim_session _ _ ho h' k1 hacc
    rw [← withU_eq he, hout] at l
    refine ⟨fun i => if i.1 = 0 ∨ P.used ≤ i then u i else t0 i, P, ms, fin, h, hb, ?_, fun i hi => if_pos hi⟩
    rw [← simSessionA_withU e (extFp u)]
    refine l _ ?_
    intro n hn hn'
    have : n < fpBudget ops.length := by omega
    simp only [extFp, this, dif_pos]
    rw [if_neg (by omega)]
  choose f hf using key
  have hinj : Function.Injective f := by
    intro c1 c2 h12
    obtain ⟨P1, m1, f1, a1, b1, s1, o1⟩ := hf c1
    obtain ⟨P2, m2, f2, a2, b2, s2, o2⟩ := hf c2
    rw [h12, s2, Option.some.injEq] at s1
    rw [withU_eq he] at a1 a2
    obtain ⟨k1, _, k3⟩ := aprvSession_inj _ ho a1 a2 s1.symm
    simp only at k1 k3
    funext i
    by_cases hi : i.1 = 0 ∨ P1.used ≤ i
    · rw [← o1 i hi, h12, o2 i (by rw [← k1]; exact hi)]
    · have := k3 i.1 (by omega) (by omega)
      simp only [extFp, i.2, dif_pos] at this
      exact this
  refine ⟨Equiv.ofBijective f (Finite.injective_iff_bijective.1 hinj), ?_⟩
  intro c
  obtain ⟨P, ms, fin, h1, h2, h3, _⟩ := hf c
  exact ⟨P, ms, fin, h1, h2, h3⟩

/-- C58. Two witnesses with the same revealed values: a bijection of the correlation values makes the transcripts equal. -/
theorem C58_witness_hiding (e : AEnv) (he : e.Good) (h0 : 0 < e.checkSz)
    (h1 : e.checkSz < 32 ∨ (0 < e.threads ∧ e.threads ≤ e.checkSz)) (hp : 0 < e.polySz) (ops ops' : List AOp)
    (ho : ∀ o ∈ ops, o.CanonC) (ho' : ∀ o ∈ ops', o.CanonC) (hsame : ops.map AOp.erase = ops'.map AOp.erase)
    (pl pl' : APlain) (hpl : aplainRun ops = some pl) (hpl' : aplainRun ops' = some pl')
    (hcl : ∀ x ∈ pl.claims, x = 0) (hcl' : ∀ x ∈ pl'.claims, x = 0) (hout : pl.outs = pl'.outs)
    (hlast : lastBatch (mulCount ops) e.checkSz < 32 ∨
      (0 < e.threads ∧ e.threads ≤ lastBatch (mulCount ops) e.checkSz)) :
    ∃ phi : Equiv.Perm (Fin (fpBudget ops.length) → Fp), ∀ u, ∃ P P' ms fin,
      aprvSession (e.withU (extFp u)) ops = some (P, ms, fin) ∧ P.used ≤ fpBudget ops.length ∧
      aprvSession (e.withU (extFp (phi u))) ops' = some (P', ms, fin) := by
  have hlen : ops'.length = ops.length := by simpa using (congrArg List.length hsame).symm
  have hcnt : ∀ (l : List AOp), mulCount (l.map AOp.erase) = mulCount l := by
    intro l
    induction l with
    | nil => rfl
    | cons o os ih => cases o <;> simp only [List.map_cons, AOp.erase, mulCount, ih]
  have hlast' := hlast
  rw [← hcnt ops, hsame, hcnt] at hlast'
  obtain ⟨psi, g1⟩ := C58_simulation e he h0 h1 hp ops ho pl hpl hcl hlast
  have g2 := C58_simulation e he h0 h1 hp ops' ho' pl' hpl' hcl' hlast'
  rw [hlen] at g2
  obtain ⟨psi', g2⟩ := g2
  refine ⟨psi.trans psi'.symm, fun c => ?_⟩
  obtain ⟨P, ms, fin, a1, a2, a3⟩ := g1 c
  obtain ⟨P', ms', fin', b1, b2, b3⟩ := g2 (psi'.symm (psi c))
  rw [Equiv.apply_symm_apply, ← hsame, ← hout, a3, Option.some.injEq, Prod.mk.injEq] at b3
  obtain ⟨rfl, rfl⟩ := b3
  exact ⟨P, P', ms, fin, a1, a2, b1⟩

/-- Two different witnesses of the same program (same shape, all claims true, same revealed value). -/
def exHideA1 : List AOp :=
  [.input 4, .input 6, .add 0 1, .mul 0 1, .mul 2 2, .mul 3 3, .poly (.inner 2305843009213693927 [(0, 1)]), .reveal 2,
   .revealCheck 3 24]
def exHideA2 : List AOp :=
  [.input 6, .input 4, .add 0 1, .mul 0 1, .mul 2 2, .mul 3 3, .poly (.inner 2305843009213693927 [(0, 1)]), .reveal 2,
   .revealCheck 3 24]

/-- C58: the hypotheses are met by two different witnesses with a full batch, a statement and openings. -/
example : ∃ phi : Equiv.Perm (Fin (fpBudget exHideA1.length) → Fp), ∀ u, ∃ P P' ms fin,
    aprvSession (exEnvA.withU (extFp u)) exHideA1 = some (P, ms, fin) ∧ P.used ≤ fpBudget exHideA1.length ∧
    aprvSession (exEnvA.withU (extFp (phi u))) exHideA2 = some (P', ms, fin) := by
  have c1 : ∀ o ∈ exHideA1, o.CanonC := by
    simp only [exHideA1, List.forall_mem_cons, AOp.CanonC, APoly.CanonC, List.not_mem_nil, false_imp_iff, implies_true,
      true_and, and_true]
    decide
  have c2 : ∀ o ∈ exHideA2, o.CanonC := by
    simp only [exHideA2, List.forall_mem_cons, AOp.CanonC, APoly.CanonC, List.not_mem_nil, false_imp_iff, implies_true,
      true_and, and_true]
    decide
  have p1 : (aplainRun exHideA1).map (fun p => (p.outs, p.claims)) = some ([10], [0, 0]) := by decide +kernel
  have p2 : (aplainRun exHideA2).map (fun p => (p.outs, p.claims)) = some ([10], [0, 0]) := by decide +kernel
  obtain ⟨pl1, e1, f1⟩ := Option.map_eq_some_iff.1 p1
  obtain ⟨pl2, e2, f2⟩ := Option.map_eq_some_iff.1 p2
  rw [Prod.mk.injEq] at f1 f2
  exact C58_witness_hiding exEnvA exEnvA_good (by decide) (by decide) (by decide) exHideA1 exHideA2 c1 c2 rfl pl1 pl2 e1 e2
    (by rw [f1.2]; simp) (by rw [f2.2]; simp) (by rw [f1.1, f2.1]) (Or.inl (by decide))

end EmpZk
