/-
C91: what a verifier that deviates from the protocol learns from a boolean proof.
-/
import Verif.Lemmas.BoolView
import Verif.Lemmas.BoolSame
import Verif.Props.BoolHide
import Verif.Props.BoolNet
import Mathlib.Data.Set.Card

namespace EmpZk

section
variable {F : Type} [Field F] [PackField F]

/-- C91. Two witnesses of the same program, the same revealed values, all claims true: against every second party `B` whatsoever there is a
bijection of the prover's correlation bits under which `B` returns the same, whatever the schedule. `B` knows `Delta` and all keys; the
seeds it sends and the seeds derived from the transcript are arbitrary. -/
theorem C91_view {β : Type} (ne : NetEnv F) (he : ne.e.Good) (S : Nat) (ops ops' : List BOp)
    (hsame : ops.map BOp.erase = ops'.map BOp.erase) (pl pl' : Plain) (hpl : plainRun ops = some pl) (hpl' : plainRun ops' = some pl')
    (hcl : ∀ b ∈ pl.claims, b = false) (hcl' : ∀ b ∈ pl'.claims, b = false) (hout : pl.outs = pl'.outs) (B : Proc β) :
    ∃ φ : Equiv.Perm (Fin (bitBudget ops.length) → Bool), ∀ u r,
      Returns (viewProverB ne S ops u) B r ↔ Returns (viewProverB ne S ops' (φ u)) B r := by
  have hE := session_viewB (ne := ne) (S := S) (d := ne.e.delta) (key := ne.e.key) he.lsb_delta he.lsb_key hsame hpl hpl' hcl hcl' hout
  have hlen : ops'.length = ops.length := by simpa using (congrArg List.length hsame).symm
  have a1 : (bprvProg ne S ops).Asks (bitBudget ops.length) := asks_bprog ops
  have a2 : (bprvProg ne S ops').Asks (bitBudget ops.length) := by rw [← hlen]; exact asks_bprog ops'
  have e : ∀ (o : List BOp) (u : Fin (bitBudget ops.length) → Bool),
      viewProverB ne S o u = (bprvProg ne S o).given (corsC (fun j => cotOf ne.e.delta (ne.e.key j)) 0 u) := by
    intro o u
    unfold viewProverB
    congr 1
    funext j
    simp only [corsC, Nat.zero_add]
  obtain ⟨φ, hφ⟩ := cequi_ret hE a1 a2 B [] []
  refine ⟨φ, fun u r => ?_⟩
  rw [e, e]
  exact hφ u r

/-- C91. The number of correlation bits for which the verifier returns something with the property `T` does not depend on the witness: a
verifier facing a prover with random correlation bits has exactly the same chance for every conclusion about the witness. -/
theorem C91_count {β : Type} (ne : NetEnv F) (he : ne.e.Good) (S : Nat) (ops ops' : List BOp)
    (hsame : ops.map BOp.erase = ops'.map BOp.erase) (pl pl' : Plain) (hpl : plainRun ops = some pl) (hpl' : plainRun ops' = some pl')
    (hcl : ∀ b ∈ pl.claims, b = false) (hcl' : ∀ b ∈ pl'.claims, b = false) (hout : pl.outs = pl'.outs) (B : Proc β) (T : β → Prop) :
    {u : Fin (bitBudget ops.length) → Bool | ∃ r, T r ∧ Returns (viewProverB ne S ops u) B r}.ncard =
      {u : Fin (bitBudget ops.length) → Bool | ∃ r, T r ∧ Returns (viewProverB ne S ops' u) B r}.ncard := by
  obtain ⟨φ, hφ⟩ := C91_view ne he S ops ops' hsame pl pl' hpl hpl' hcl hcl' hout B
  rw [← Set.ncard_image_of_injective _ φ.injective]
  congr 1
  ext v
  simp only [Set.mem_image, Set.mem_ofPred_eq]
  constructor
  · rintro ⟨u, ⟨r, h1, h2⟩, rfl⟩
    exact ⟨r, h1, (hφ u r).1 h2⟩
  · rintro ⟨r, h1, h2⟩
    exact ⟨φ.symm v, ⟨r, h1, (hφ _ r).2 (by rwa [Equiv.apply_symm_apply])⟩, φ.apply_symm_apply v⟩

/-- C91. The prover of these theorems is the prover of the sessions over the network (C76): with the correlations of the environment and
the same strings returned by its receives it puts the same bytes on the wire and ends in the same state. -/
theorem C91_same_prover (ne : NetEnv F) (S : Nat) (ops : List BOp) (got : List (List Byte)) (P : PrvNet F)
    (h : netSessionP ne S ops got = some P) :
    ((bprvProg ne S ops).given ne.e.mac).Does got P.got (sndWire S ⟨[], [], [], []⟩ P.calls) ⟨P.st, P.io⟩ := same_session h

end

/-! ### a concrete case -/

/-- A verifier that sends a seed of its own and returns what it has seen. -/
def nosyV (k : Nat) : Proc (List Byte) := .send (List.replicate 40 7#8) (.recv k .done)

/-- C91: two different witnesses with AND gates, a statement and an opening; whatever byte string `x` a verifier that sends seeds of its own
may see, it sees it for the same number of correlation bits. -/
example (k : Nat) (x : List Byte) :
    {u : Fin (bitBudget exHideA.length) → Bool | ∃ r, r = x ∧ Returns (viewProverB exNet 32768 exHideA u) (nosyV k) r}.ncard =
      {u : Fin (bitBudget exHideA.length) → Bool | ∃ r, r = x ∧ Returns (viewProverB exNet 32768 exHideB u) (nosyV k) r}.ncard :=
  C91_count exNet exNet_good.e 32768 exHideA exHideB rfl
    ⟨[true, false, true, false, true], [true], [false]⟩ ⟨[false, true, true, false, false], [true], [false]⟩
    (by decide) (by decide) (by decide) (by decide) rfl (nosyV k) (fun r => r = x)

/-- A verifier that returns the first byte with input bits. -/
def byteV : Proc (List Byte) := .send [0, 0, 0] (.recv 2 fun _ => .recv 1 .done)

/-- A prover with one input, step by step. -/
theorem one_input {F : Type} [Field F] [PackField F] (ne : NetEnv F) (h0 : ne.extP 0 1 = [.data [1#8, 2#8], .back 3]) (h1 : ne.extP 1 1 = [])
    (b : Bool) (c : Nat → F) : ∃ K : List Byte → Proc (BPrv F), (bprvProg ne 8 [.input b]).given c = .send [1, 2] (.send [] (.recv 3 fun x => .send [] (.send
      (encBools ((inputPrv ((ne.e.withMacs 1 [c 1]).mac 1) b).2 :: List.replicate 7 true) ++ ne.encD (ne.e.hash [])) (K x)))) := by
  unfold bprvProg brcot
  rw [show PrvSt.used ({ PrvSt.init with used := 0 } : PrvSt F) = 0 from rfl, h0]
  simp only [bprvRun, bprvStep, brcot]
  rw [show PrvSt.used (PrvSt.init : PrvSt F) = 1 from rfl, h1]
  simp only [prvStep]
  exact ⟨_, rfl⟩

/-- What it returns when the prover has one input: the input bit masked by the second correlation bit, and padding. -/
theorem byteV_returns (b : Bool) {m : Nat} (u : Fin m → Bool) :
    Returns (viewProverB exNet 8 [.input b] u) byteV (encBools ((maskBits u 1 ^^ b) :: List.replicate 7 true)) := by
  obtain ⟨K, hK⟩ := one_input exNet rfl rfl b (fun j => cotOf exNet.e.delta (exNet.e.key j) (maskBits u j))
  have e1 : (exNet.e.withMacs 1 [cotOf exNet.e.delta (exNet.e.key 1) (maskBits u 1)]).mac 1 = cotOf exNet.e.delta (exNet.e.key 1) (maskBits u 1) :=
    withMacs_mac exNet.e 1 1 (fun j => cotOf exNet.e.delta (exNet.e.key (1 + j)) (maskBits u (1 + j))) 0 (by omega)
  have hl : lsb (cotOf exNet.e.delta (exNet.e.key 1) (maskBits u 1)) = maskBits u 1 :=
    lsb_cotOf exNet_good.e.lsb_delta (exNet_good.e.lsb_key 1) _
  unfold viewProverB
  rw [hK, e1]
  simp only [inputPrv, hl]
  show Ret _ _
  unfold byteV
  rw [Ret.step (.inl rfl), Ret.step (.inl rfl), Ret.step (.inr rfl), Ret.step (.inl rfl), Ret.step (.inl rfl), Ret.step (.inl rfl)]
  rw [Ret.step (.inr (by simp only [Duo.stepQ]; rw [if_pos (by simp)]))]
  rw [Ret.step (.inr (by simp only [Duo.stepQ]; rw [if_pos (by simp [encBools])]))]
  rw [Ret.done_iff]
  simp [encBools]

/-- C91: the hypothesis of `C91_same_prover` for an input and an opening, and the party of the theorem. -/
example : ∃ P, netSessionP exNet 8 [.input true, .reveal 0] [[0, 0, 0]] = some P ∧
    ((bprvProg exNet 8 [.input true, .reveal 0]).given exNet.e.mac).Does [[0, 0, 0]] P.got (sndWire 8 ⟨[], [], [], []⟩ P.calls) ⟨P.st, P.io⟩ := by
  obtain ⟨P, hP⟩ : ∃ P, netSessionP exNet 8 [.input true, .reveal 0] [[0, 0, 0]] = some P := ⟨_, rfl⟩
  exact ⟨P, hP, C91_same_prover _ _ _ _ P hP⟩

end EmpZk
