/-
C110: what the verifier sends does not depend on its secrets. Against any prover, two verifiers of one program with other values of `Delta`, other
keys and other hash functions send the same bytes; all the prover can learn is whether the verifier has stopped.
-/
import Verif.Lemmas.VerSilent
import Verif.Lemmas.ConvSilent
import Verif.Props.Traffic

namespace EmpZk

section
variable {F : Type} [Field F] [BlockField F] [DecidableEq F] {μ : Type}

/-- Bits, products over F_{2^128} and checks of equality, with any prover and any schedule. To each configuration of the network belongs one of
the network with the other verifier: with the same prover, the same endpoints and the same bytes in transit, and if one verifier has returned,
then the other one has returned the same opened bits or has stopped at its last check; or the other verifier has stopped earlier, and up
to there all was the same. -/
theorem C110_network {me me' : MixEnv F} (hm : me.SameV me') {S : Nat} {pre pre' post post' : List BOp} {ops ops' : List MOp}
    (h1 : pre.map BOp.erase = pre'.map BOp.erase) (h2 : ops.map MOp.erase = ops'.map MOp.erase)
    (h3 : post.map BOp.erase = post'.map BOp.erase) (p : SProg μ) {junk : List Byte} {c : PNet μ (MVer F)}
    (hc : PReach S (pnetInit S junk p (mixVerifier me pre ops post)) c) :
    ∃ c', PReach S (pnetInit S junk p (mixVerifier me' pre' ops' post')) c' ∧
      ((SameView c c' ∧ (∀ V, c.q = .done V → c'.q = .stop ∨ ∃ V', c'.q = .done V' ∧ V.b.outs = V'.b.outs) ∧
          (c.q = .fail → c'.q = .fail ∨ c'.q = .stop)) ∨
        (c'.q = .stop ∧ ∃ c1, PReach S (pnetInit S junk p (mixVerifier me pre ops post)) c1 ∧ PReach S c1 c ∧ SameView c1 c')) := by
  obtain ⟨c', r, h⟩ := ralike_network (mixVerifier_alike (W := True) (E := True) hm h1 h2 h3 (fun _ _ _ => trivial)) hc
  refine ⟨c', r, h.imp (fun h => ⟨h.1, fun V hV => ?_, fun hf => ?_⟩) (fun h => h.2)⟩
  · rcases (hV ▸ h.2).done_inv with h | ⟨V', h, h'⟩
    · exact .inl h.1
    · exact .inr ⟨V', h, h'.b.outs trivial⟩
  · exact (hf ▸ h.2).fail_inv.imp_right And.left

/-- Without products by `polyMul` and checks of equality the verifier stops nowhere before its end: the two networks agree step by step, and
the verifiers return together with the same opened bits. -/
theorem C110_silent {me me' : MixEnv F} (hm : me.SameV me') {S : Nat} {pre pre' post post' : List BOp} {ops ops' : List MOp}
    (h1 : pre.map BOp.erase = pre'.map BOp.erase) (h2 : ops.map MOp.erase = ops'.map MOp.erase)
    (h3 : post.map BOp.erase = post'.map BOp.erase) (hs : ∀ o ∈ ops, ¬ o.stops) (p : SProg μ) {junk : List Byte} {c : PNet μ (MVer F)}
    (hc : PReach S (pnetInit S junk p (mixVerifier me pre ops post)) c) :
    ∃ c', PReach S (pnetInit S junk p (mixVerifier me' pre' ops' post')) c' ∧ SameView c c' ∧
      (∀ V, c.q = .done V → ∃ V', c'.q = .done V' ∧ V.b.outs = V'.b.outs) ∧ (c.q = .fail → c'.q = .fail) := by
  obtain ⟨c', r, h⟩ := ralike_network (mixVerifier_alike (W := True) (E := False) hm h1 h2 h3 (fun o ho hh => hs o ho hh)) hc
  rcases h with h | h
  · refine ⟨c', r, h.1, fun V hV => ?_, fun hf => ?_⟩
    · rcases (hV ▸ h.2).done_inv with h | ⟨V', h, h'⟩
      · exact h.2.elim
      · exact ⟨V', h, h'.b.outs trivial⟩
    · exact (hf ▸ h.2).fail_inv.elim id (fun h => h.2.elim)
  · exact h.1.elim

/-- Programs that branch on revealed bits: as `C110_network`. The revealed bits, and with them the path, are the same for both verifiers. -/
theorem C110_branching {me me' : MixEnv F} (hm : me.SameV me') {S : Nat} {t t' : SessTree} (ht : t.Same t') (p : SProg μ) {junk : List Byte}
    {c : PNet μ (MVer F)} (hc : PReach S (pnetInit S junk p (branchVerifier me t)) c) :
    ∃ c', PReach S (pnetInit S junk p (branchVerifier me' t')) c' ∧
      ((SameView c c' ∧ (∀ V, c.q = .done V → c'.q = .stop ∨ ∃ V', c'.q = .done V' ∧ V.b.outs = V'.b.outs) ∧
          (c.q = .fail → c'.q = .fail ∨ c'.q = .stop)) ∨
        (c'.q = .stop ∧ ∃ c1, PReach S (pnetInit S junk p (branchVerifier me t)) c1 ∧ PReach S c1 c ∧ SameView c1 c')) := by
  obtain ⟨c', r, h⟩ := ralike_network (branchVerifier_ralike (E := True) hm trivial ht) hc
  refine ⟨c', r, h.imp (fun h => ⟨h.1, fun V hV => ?_, fun hf => ?_⟩) (fun h => h.2)⟩
  · rcases (hV ▸ h.2).done_inv with h | ⟨V', h, h'⟩
    · exact .inl h.1
    · exact .inr ⟨V', h, h'.b.outs trivial⟩
  · exact (hf ▸ h.2).fail_inv.imp_right And.left

/-- Programs of bits, field elements and conversions: as `C110_network`, for both values of `Delta`, all keys of edaBits and the hash of the
openings; opened words are the same too. -/
theorem C110_conversions {ce ce' : ConvEnv F} (hc : ce.SameV ce') {S : Nat} {ops ops' : List COp} (ho : ops.map COp.erase = ops'.map COp.erase)
    (p : SProg μ) {junk : List Byte} {c : PNet μ (CVer F)} (hr : PReach S (pnetInit S junk p (convVerifier ce ops)) c) :
    ∃ c', PReach S (pnetInit S junk p (convVerifier ce' ops')) c' ∧
      ((SameView c c' ∧ (∀ V, c.q = .done V → c'.q = .stop ∨ ∃ V', c'.q = .done V' ∧ V.outs = V'.outs ∧ V.a.outs = V'.a.outs) ∧
          (c.q = .fail → c'.q = .fail ∨ c'.q = .stop)) ∨
        (c'.q = .stop ∧ ∃ c1, PReach S (pnetInit S junk p (convVerifier ce ops)) c1 ∧ PReach S c1 c ∧ SameView c1 c')) := by
  obtain ⟨c', r, h⟩ := ralike_network (convVerifier_alike (Z := True) hc ho) hr
  refine ⟨c', r, h.imp (fun h => ⟨h.1, fun V hV => ?_, fun hf => ?_⟩) (fun h => h.2)⟩
  · rcases (hV ▸ h.2).done_inv with h | ⟨V', h, h'⟩
    · exact .inl h.1
    · exact .inr ⟨V', h, h'.outs trivial, h'.a.outs trivial⟩
  · exact (hf ▸ h.2).fail_inv.imp_right And.left

end

/-! ### concrete pairs of verifiers -/

theorem exOther_sameV : exMix.SameV { exOther with keys := fun k => (exMix.keys k).map (· + 1) } where
  ne := ⟨rfl, rfl, rfl, fun _ => rfl, fun _ _ => rfl⟩
  sz := rfl
  cap := rfl
  keys := fun _ => by rw [List.length_map]
  sv := fun _ => rfl
  svN := fun _ => rfl

theorem exOther_delta : exMix.ne.e.delta ≠ exOther.ne.e.delta := by
  show exEnv.delta ≠ 1
  decide

/-- A prover that sends nothing but the bit 1 again and again and an arbitrary number of bytes does not see which `Delta` the verifier has. -/
example (k : Bool → SProg Unit) {c : PNet Unit (MVer GF128)}
    (hc : PReach 32768 (pnetInit 32768 [] (.call (.bit true) (fun _ => .call (.back 16) (fun d => k (d.length = 16))))
      (mixVerifier exMix [.input true, .input false, .and 0 1] [.pack [0, 1], .mul 0 0] [.reveal 2])) c) :
    ∃ c', PReach 32768 (pnetInit 32768 [] (.call (.bit true) (fun _ => .call (.back 16) (fun d => k (d.length = 16))))
      (mixVerifier { exOther with keys := fun k => (exMix.keys k).map (· + 1) } [.input true, .input false, .and 0 1] [.pack [0, 1], .mul 0 0]
        [.reveal 2])) c' ∧ SameView c c' := by
  obtain ⟨c', h1, h2, _⟩ := C110_silent exOther_sameV rfl rfl rfl (by simp [MOp.stops]) _ hc
  exact ⟨c', h1, h2⟩

/-- A program that reveals a bit and then computes and reveals another one only if the first was set. -/
def exSilentTree (b : Bool) : SessTree := .ops [.input b, .input true, .reveal 0]
  (fun o => match o with
    | [true] => .ops [.and 0 1, .reveal 2] (fun _ => .fin (.ops [.pack [0, 1]] (fun _ => .fin (.fin ()))))
    | _ => .fin (.fin (.fin ())))

theorem exSilentTree_same : (exSilentTree true).Same (exSilentTree false) := by
  refine .ops rfl (fun o => ?_)
  split
  · exact .ops rfl (fun _ => .fin (.ops rfl (fun _ => .fin (.fin trivial))))
  · exact .fin (.fin (.fin trivial))

example (p : SProg Unit) {c : PNet Unit (MVer GF128)} (hc : PReach 32768 (pnetInit 32768 [] p (branchVerifier exMix (exSilentTree true))) c) :
    ∃ c', PReach 32768 (pnetInit 32768 [] p (branchVerifier { exOther with keys := fun k => (exMix.keys k).map (· + 1) } (exSilentTree false))) c' ∧
      (SameView c c' ∨ c'.q = .stop) := by
  obtain ⟨c', h1, h2⟩ := C110_branching exOther_sameV exSilentTree_same p hc
  exact ⟨c', h1, h2.imp And.left And.left⟩

theorem exConvOther_sameV : exConv.SameV { exConvOther with seed0 := exConv.seed0, candB := fun k => (exConv.candB k).map (· + 1) } where
  ne := exOther_sameV.ne
  threads := rfl
  checkSz := rfl
  polySz := rfl
  polySeed := fun _ => rfl
  seed0 := fun _ => rfl
  av := fun _ _ => rfl
  cfg := rfl
  npSz := rfl
  cand := fun _ => by rw [List.length_map]
  ed := fun _ _ => rfl
  rp := fun _ => rfl
  sum := rfl
  diff := rfl

example {c : PNet (CPrv GF128) (CVer GF128)}
    (hr : PReach 32768 (pnetInit 32768 [] (convProver exConv exConvProg) (convVerifier exConv exConvProg)) c) :
    ∃ c', PReach 32768 (pnetInit 32768 [] (convProver exConv exConvProg)
      (convVerifier { exConvOther with seed0 := exConv.seed0, candB := fun k => (exConv.candB k).map (· + 1) } exConvProg)) c' ∧
      (SameView c c' ∨ c'.q = .stop) := by
  obtain ⟨c', h1, h2⟩ := C110_conversions exConvOther_sameV rfl _ hr
  exact ⟨c', h1, h2.imp And.left And.left⟩

end EmpZk
