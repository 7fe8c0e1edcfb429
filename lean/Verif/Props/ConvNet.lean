/-
C98: a session that mixes boolean gates, field arithmetic and conversions, over the byte channel, under every interleaving of the two parties.
-/
import Verif.Lemmas.ConvProg
import Verif.Lemmas.IntCircuit
import Verif.Props.BoolNet
import Verif.Props.ArithProtocol

namespace EmpZk

section
variable {F : Type} [Field F] [BlockField F] [DecidableEq F]

/-- What holds in a configuration `c` of the two parties: no undefined behaviour, nobody stops, no deadlock, the schedule can be carried on to
the end; and at the end both have the bits and the field elements that the plain computation opens, no check failed, the field elements are
authenticated with the plain values, and nothing is left in the channel. -/
def ConvFine (S : Nat) (ce : ConvEnv F) (cp : CPlain) (c : PNet (CPrv F) (CVer F)) : Prop :=
  stepQ S c ≠ .ub ∧ (c.p ≠ .fail ∧ c.p ≠ .stop) ∧ (c.q ≠ .fail ∧ c.q ≠ .stop) ∧
  (∀ P V, c.p = .done P → c.q = .done V →
    (P.outs = cp.b.outs ∧ V.outs = cp.b.outs ∧ V.b.cheats = [] ∧ P.a.outs = cp.a.outs.map toW ∧ V.a.outs = cp.a.outs.map toW ∧
      V.a.accepted = true ∧ P.a.wires.map (fun w => fp (high64 w)) = cp.a.wires ∧
      List.Forall₂ (Auth ce.base.delta) P.a.wires V.a.wires) ∧ c.toR = [] ∧ c.toS = []) ∧
  (((∃ P, c.p = .done P) ∧ ∃ V, c.q = .done V) ∨ (∃ c', stepP S c = some c') ∨ ∃ c', stepQ S c = .ok c') ∧
  ∃ c' P V, PReach S c c' ∧ c'.p = .done P ∧ c'.q = .done V

/-- C98. If the plain computation succeeds (operands exist, converted integers are below `p`) and its claims are true, then every
configuration that any interleaving of the two parties can reach is fine, provided the two defects of the generation do not show (`Lucky`)
and the last batches are empty or large enough. -/
theorem C98_session (ce : ConvEnv F) (hg : ce.Good) (hl : ce.Lucky) (ht : 0 < ce.ne.e.threads) (htc : ce.ne.e.threads ≤ ce.ne.e.checkSz)
    (hp : 0 < ce.ne.e.polySz) (hat : 0 < ce.base.threads) (hac : ce.base.threads ≤ ce.base.checkSz) (hap : 0 < ce.base.polySz)
    {S : Nat} (hS : 0 < S) (ops : List COp) (hc : ∀ o ∈ ops, o.CanonC) {cp : CPlain} (hrun : cplainRun ce ops = some cp)
    (hcb : ∀ b ∈ cp.b.claims, b = false) (hca : ∀ x ∈ cp.a.claims, x = 0)
    (ha : lastBatch cp.ands ce.ne.e.checkSz = 0 ∨ ce.ne.e.threads ≤ lastBatch cp.ands ce.ne.e.checkSz)
    (hm : lastBatch cp.muls ce.base.checkSz < 32 ∨ ce.base.threads ≤ lastBatch cp.muls ce.base.checkSz)
    (junk : List Byte) {c : PNet (CPrv F) (CVer F)}
    (hreach : PReach S (pnetInit S junk (convProver ce ops) (convVerifier ce ops)) c) : ConvFine S ce cp c := by
  have hs : ce.ne.Sane := ⟨hg.ne, ht, htc, hp⟩
  have hsa : ce.env.Sane := ⟨hg.env, (mulTasks_isSome _ _).2 ⟨Nat.lt_of_lt_of_le hat hac, Or.inr ⟨hat, hac⟩⟩, hap⟩
  refine lock_network hS (lock_conv hs hsa hg hl hc hrun hcb hca ha ?_) junk hreach
  by_cases h0 : lastBatch cp.muls ce.base.checkSz = 0
  · exact Or.inl h0
  · exact Or.inr ((mulTasks_isSome _ _).2 ⟨by omega, hm.imp id (fun h => ⟨hat, h⟩)⟩)

/-- C98. The circuits built at edabits.h:127-129 and 157-158 from ripple-carry adders are correct on all pairs of integers, so the
assumption on circuits can be met. -/
theorem C98_circuits : sumCirc.Computes f2Sum ∧ diffCirc.Computes f2Diff := ⟨sumCirc_ok, diffCirc_ok⟩

end

/-! ### a concrete session -/

/-- All candidates hold the value 3. `N = 2`, buckets of two, one opened candidate; filling up makes calls. -/
noncomputable def exConv : ConvEnv GF128 where
  ne := exNet
  base := exEnvA
  seed0 := fun b => BitVec.ofNat 128 (b + 9)
  expand := fun s i => s + BitVec.ofNat 128 i
  avP := fun n k => if (n + k) % 4 = 0 then [.data [1#8], .back 2] else []
  avV := fun n k => if (n + k) % 4 = 0 then [.data 1, .back [7#8, 8#8]] else []
  cfg := ⟨2, 1, 1⟩
  npSz := 11
  candA := fun _ => List.replicate 11 (makeBlock 3 22)
  candB := fun _ => List.replicate 11 (makeBlock 0 7)
  edP := fun k n => [.data [5#8], .back (k + n + 1)]
  edV := fun k n => [.data 1, .back (List.replicate (k + n + 1) 6#8)]
  rp := fun g => g % 3
  dig := fun l => leBytes 32 l.length
  sum := sumCirc
  diff := diffCirc

theorem exConv_good : exConv.Good where
  ne := exNet_good
  env := ⟨exEnvA_good.delta, exEnvA_good.key, exEnvA_good.u, exEnvA_good.mac, exEnvA_good.pub, exEnvA_good.cor⟩
  av := by
    intro n k
    show List.Forall₂ Mirror (if (n + k) % 4 = 0 then [.data [1#8], .back 2] else []) (if (n + k) % 4 = 0 then [.data 1, .back [7#8, 8#8]] else [])
    split
    · exact .cons ⟨rfl, by decide⟩ (.cons ⟨rfl, by decide⟩ .nil)
    · exact .nil
  ed := by
    intro k n
    show List.Forall₂ Mirror [.data [5#8], .back (k + n + 1)] [.data 1, .back (List.replicate (k + n + 1) 6#8)]
    exact .cons ⟨rfl, by decide⟩ (.cons ⟨by simp, by simp⟩ .nil)
  N := by decide
  C := by decide
  ell := by decide
  small := by decide
  auth := by
    intro k
    show List.Forall₂ (Auth 5) (List.replicate 11 (makeBlock 3 22)) (List.replicate 11 (makeBlock 0 7))
    rw [List.forall₂_iff_get]
    refine ⟨by simp, ?_⟩
    intro i h1 h2
    simp only [List.get_eq_getElem, List.getElem_replicate]
    exact ⟨by decide +kernel, by decide +kernel, by decide +kernel, by decide +kernel, by decide +kernel⟩
  room := fun k => by show 11 ≤ (List.replicate 11 (makeBlock 3 22)).length; simp
  dig := fun l => leBytes_length _ _
  sum := sumCirc_ok
  diff := diffCirc_ok

theorem exConv_lucky : exConv.Lucky where
  point := by
    intro g
    show g % 3 + 1 ≤ 3
    omega
  bucket := by
    intro g j i _ _ a b ha hb
    have h : ∀ {n : Nat} {x : U128}, (List.replicate 11 (makeBlock 3 22))[n]? = some x → (high64 x).toNat = 3 := by
      intro n x hx
      obtain ⟨hn, rfl⟩ := List.getElem?_eq_some_iff.1 hx
      rw [List.getElem_replicate]
      decide +kernel
    rw [h ha, h hb]
    decide

/-- The bits of 5 are committed and converted; 5·7 is computed in the field and converted back; two of these bits are multiplied and opened;
then the integers 35 and 5 are converted in one call, and the field elements 35, 5, 7 in another one; 35 is opened in the field. -/
def exConvProg : List COp :=
  (bits62 5).map (fun b => .bool (.input b)) ++
  [.b2a (List.range 62), .arith (.input 7), .arith (.mul 0 1), .a2b 2, .bool (.and 62 63), .bool (.reveal 124), .sync,
   .b2aN [(List.range 62).map (62 + ·), List.range 62], .a2bN [2, 0, 1], .bool (.reveal 128), .arith (.reveal 3)]

theorem exConv_run : (cplainRun exConv exConvProg).map (fun cp => (cp.b.outs, cp.a.outs, cp.a.wires, cp.stock, cp.muls)) =
    some ([true, false], [35], [5, 7, 35, 35, 5], 1, 1) ∧ (cplainRun exConv exConvProg).map (fun cp => (cp.b.claims, cp.a.claims)) = some ([], []) := by
  constructor <;> decide +kernel

/-- The hypotheses of C98 are met: some schedule ends, with the bits `true` and `false` and the field element 35, and the verifier accepts. -/
example : ∃ c' P V, PReach 32768 (pnetInit 32768 [] (convProver exConv exConvProg) (convVerifier exConv exConvProg)) c' ∧
    c'.p = .done P ∧ c'.q = .done V ∧ P.outs = [true, false] ∧ V.outs = [true, false] ∧ V.b.cheats = [] ∧ V.a.outs = [35] ∧
    V.a.accepted = true ∧ P.a.wires.map (fun w => fp (high64 w)) = [5, 7, 35, 35, 5] := by
  obtain ⟨h1, h2⟩ := exConv_run
  obtain ⟨cp, hcp⟩ : ∃ cp, cplainRun exConv exConvProg = some cp := by
    cases h : cplainRun exConv exConvProg with
    | none => rw [h] at h1; simp at h1
    | some cp => exact ⟨cp, rfl⟩
  rw [hcp, Option.map_some, Option.some.injEq] at h1 h2
  simp only [Prod.mk.injEq] at h1 h2
  obtain ⟨e1, e2, e3, _, e5⟩ := h1
  obtain ⟨e6, e7⟩ := h2
  have hfine : ∀ c, PReach 32768 (pnetInit 32768 [] (convProver exConv exConvProg) (convVerifier exConv exConvProg)) c → ConvFine 32768 exConv cp c := by
    intro c hc
    refine C98_session exConv exConv_good exConv_lucky (by decide) (by decide) (by decide) (by decide) (by decide) (by decide) (by decide) _ ?_ hcp
      (by rw [e6]; simp) (by rw [e7]; simp) ?_ (Or.inl (by rw [e5]; decide)) [] hc
    · intro o ho
      simp only [exConvProg, List.mem_append, List.mem_map, List.mem_cons, List.not_mem_nil, or_false] at ho
      rcases ho with ⟨b, _, rfl⟩ | rfl | rfl | rfl | rfl | rfl | rfl | rfl | rfl | rfl | rfl | rfl <;> simp only [COp.CanonC, AOp.CanonC]
      decide
    · show lastBatch cp.ands 2 = 0 ∨ 1 ≤ lastBatch cp.ands 2
      omega
  obtain ⟨_, _, _, _, _, c', P, V, k1, k2, k3⟩ := hfine _ PReach.init
  obtain ⟨_, _, _, k4, _⟩ := hfine _ k1
  obtain ⟨⟨m1, m2, m3, _, m5, m6, m7, _⟩, _⟩ := k4 P V k2 k3
  refine ⟨c', P, V, k1, k2, k3, by rw [m1, e1], by rw [m2, e1], m3, ?_, m6, by rw [m7, e3]⟩
  rw [m5, e2]
  decide +kernel

end EmpZk
