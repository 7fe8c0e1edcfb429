/-
C111 for sessions with boolean gates only: such a session goes through with an honest peer under every schedule, and is safe with every other.
-/
import Verif.Model.BoolProg
import Verif.Props.RobustMem

namespace EmpZk

section
variable {F : Type} [Field F] [BlockField F] [DecidableEq F] {μ : Type}

/-- A boolean program whose statement holds, run by both parties: in every reachable state nothing undefined happens, nobody gives up, the
session can be carried on to the end, and at the end both hold the plain results and the verifier has noted no cheating. -/
theorem C111_boolean_honest (ne : NetEnv F) (hg : ne.Good) (ht : 0 < ne.e.threads) (htc : ne.e.threads ≤ ne.e.checkSz) (hp : 0 < ne.e.polySz)
    {ops : List BOp} {pl : Plain} (hrun : plainRun ops = some pl) (hcl : ∀ b ∈ pl.claims, b = false)
    (ha : lastBatch (ops.countP BOp.isAnd) ne.e.checkSz = 0 ∨ ne.e.threads ≤ lastBatch (ops.countP BOp.isAnd) ne.e.checkSz)
    {S : Nat} (hS : 0 < S) (junk : List Byte) {c : PNet (PrvSt F) (VerSt F)}
    (hc : PReach S (pnetInit S junk (boolProver ne ops) (boolVerifier ne ops)) c) :
    stepQ S c ≠ .ub ∧ (c.p ≠ .fail ∧ c.p ≠ .stop) ∧ (c.q ≠ .fail ∧ c.q ≠ .stop) ∧
    (∀ P V, c.p = .done P → c.q = .done V → (P.outs = pl.outs ∧ V.outs = pl.outs ∧ V.cheats = []) ∧ c.toR = [] ∧ c.toS = []) ∧
    (((∃ P, c.p = .done P) ∧ ∃ V, c.q = .done V) ∨ (∃ c', stepP S c = some c') ∨ ∃ c', stepQ S c = .ok c') ∧
    ∃ c' P V, PReach S c c' ∧ c'.p = .done P ∧ c'.q = .done V := by
  have hs : ne.Sane := ⟨hg, ht, htc, hp⟩
  have hcz : 0 < ne.e.checkSz := Nat.lt_of_lt_of_le ht htc
  refine lock_network hS (Lock.bind (lock_rcot hg 0 1) (fun _ _ _ => Lock.bind (lock_bops hs ops (BRel.init ne) hrun) ?_)) junk hc
  rintro p v ⟨k1, k2⟩
  have hand : p.gates.length = lastBatch (ops.countP BOp.isAnd) ne.e.checkSz := by
    have e0 : (0 : Nat) = lastBatch 0 ne.e.checkSz := rfl
    rw [k2, show (PrvSt.init : PrvSt F).gates.length = 0 from rfl, e0, nextBatches_eq hcz, List.countP_map, Nat.zero_add]
    rfl
  exact lock_bfin hs k1 (by rw [hand]; exact ha) hcl

/-- A boolean program whose statement holds for one witness `ops'`: a verifier of the program is safe with every prover, and a prover with any
witness is safe with every verifier, under every schedule. -/
theorem C111_boolean {ne nv np : NetEnv F} (hv : nv.SameV ne) (hs : np.Same ne) (hg : ne.Good) (ht : 0 < ne.e.threads)
    (htc : ne.e.threads ≤ ne.e.checkSz) (hp : 0 < ne.e.polySz) {ops ops' : List BOp} (ho : ops.map BOp.erase = ops'.map BOp.erase)
    {pl : Plain} (hrun : plainRun ops' = some pl) (hcl : ∀ b ∈ pl.claims, b = false)
    (ha : lastBatch (ops'.countP BOp.isAnd) ne.e.checkSz = 0 ∨ ne.e.threads ≤ lastBatch (ops'.countP BOp.isAnd) ne.e.checkSz)
    {S : Nat} (hS : 0 < S) (h8 : S % 8 = 0) :
    (∀ (p : SProg μ) junk c, PReach S (pnetInit S junk p (boolVerifier nv ops)) c → c.q ≠ .fail ∧ stepQ S c ≠ .ub) ∧
    (∀ (q : RProg μ) junk c, PReach S (pnetInit S junk (boolProver np ops) q) c → c.p ≠ .fail ∧ c.p ≠ .stop) := by
  obtain ⟨c', P, V, r1, r2, r3⟩ := (C111_boolean_honest ne hg ht htc hp hrun hcl ha hS [] PReach.init).2.2.2.2.2
  constructor
  · intro p junk c hc
    have h : RAlike False True (BVSame False) (boolVerifier nv ops) (boolVerifier ne ops') :=
      RAlike.bind ((rcotR_alike hv 0 1).bind (fun _ _ _ => (bopsR_alike hv ho vinit_same).bind (fun _ _ hb => bfinR_alike hv hb)))
        (fun _ _ hab => .call (fun _ _ _ _ _ => .done hab))
    exact ⟨fun hf => ralike_safe h (r3 ▸ reach_rpath r1) (hf ▸ reach_rpath hc), reach_no_ub hS h8 hc⟩
  · intro q junk c hc
    have h : Alike (fun _ _ _ => True) PSame (boolProver np ops) (boolProver ne ops') :=
      Alike.bind ((rcot_alike hs 0 1).bind (fun _ _ _ => (bopsS_alike hs ho init_same).bind (fun _ _ hb => bfinS_alike hs hb)))
        (fun _ _ hab => .call rfl (fun _ _ _ => .done hab))
    have h' := alike_safe h (r2 ▸ reach_spath r1)
    exact ⟨fun hf => h'.1 (hf ▸ reach_spath hc), fun hf => h'.2 (hf ▸ reach_spath hc)⟩

end

/-- Two inputs, their product with the second one negated, the claim that the product is 0 and its opening: it holds for the witness (1, 1), and
so the parties are safe with every peer also for the witness (1, 0), for which the claim is false. -/
example (p : SProg Unit) (q : RProg Unit) (x y : Bool) :
    (∀ c, PReach 32768 (pnetInit 32768 [] p (boolVerifier exNet [.input x, .input y, .not 1, .and 0 2, .reveal 3, .poly (.inner false [(3, 3)])])) c →
      c.q ≠ .fail ∧ stepQ 32768 c ≠ .ub) ∧
    (∀ c, PReach 32768 (pnetInit 32768 [] (boolProver exNet [.input x, .input y, .not 1, .and 0 2, .reveal 3, .poly (.inner false [(3, 3)])]) q) c →
      c.p ≠ .fail ∧ c.p ≠ .stop) := by
  have hv : exNet.SameV exNet := ⟨rfl, rfl, rfl, fun _ => rfl, fun _ _ => rfl⟩
  have h := C111_boolean (μ := Unit) (ne := exNet) (S := 32768) hv exMix_self.ne exNet_good (by decide) (by decide) (by decide)
    (ops := [.input x, .input y, .not 1, .and 0 2, .reveal 3, .poly (.inner false [(3, 3)])])
    (ops' := [.input true, .input true, .not 1, .and 0 2, .reveal 3, .poly (.inner false [(3, 3)])]) rfl
    (pl := ⟨[true, true, false, false], [false], [false]⟩) (by decide) (by decide) (by decide) (by decide) (by decide)
  exact ⟨fun c hc => h.1 p [] c hc, fun c hc => h.2 q [] c hc⟩

end EmpZk
