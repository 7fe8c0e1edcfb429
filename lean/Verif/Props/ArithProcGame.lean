/-
C87: error of a whole arithmetic proof over the network, against an arbitrary prover process.
-/
import Verif.Lemmas.ArithProcGame
import Verif.Props.ArithNet
import Verif.Props.ArithGame

namespace EmpZk

/-- C87. Writing down the received bytes changes nothing: the verifier returns `V` (C84) exactly when it does so having received some
bytes, and these consist of all messages of the session and nothing else. -/
theorem C87_log {α : Type} (A : Proc α) (ne : ANetEnv) (ops : List AOp) (V : AVer) :
    (Finishes A ne ops V ↔ ∃ bs, RunsTo A ne ops V bs) ∧
    ∀ bs, RunsTo A ne ops V bs → ∃ ms fin, ne.wire.session ops bs = some (ms, fin, []) ∧ averSession ne.env ops ms fin = some V := by
  refine ⟨⟨?_, ?_⟩, ?_⟩
  · rintro ⟨n, A', pq, qp, h⟩
    obtain ⟨bs, h'⟩ := reach_log h rfl []
    exact ⟨bs, n, A', pq, qp, h'⟩
  · rintro ⟨bs, n, A', pq, qp, h⟩
    exact ⟨n, A', pq, qp, reach_unlog h rfl rfl⟩
  · rintro bs ⟨n, A', pq, qp, h⟩
    obtain ⟨t, k1, _⟩ := reach_like (fun _ (_ : Unit) => True) h rfl
    obtain ⟨j1, j2⟩ := on_log _ k1
    simp only [List.nil_append] at j1 j2
    obtain ⟨u, hu, hu'⟩ := on_strip _ j1
    have hb : u = bs := by
      have : u ++ pq = bs ++ pq := by rw [← hu, j2]
      exact List.append_cancel_right this
    subst hb
    have h5 := hu' []
    rw [List.append_nil] at h5
    exact (ends_session _ ops).1 h5

/-- The verifier's random choices: a block for each of `B` multiplication checks, a word for each of `Q` checks of statements, a word
for `Delta`. -/
abbrev Choices (B Q : Nat) : Type := ((Fin B → U128) × (Fin Q → W)) × W

theorem card_choices (B Q : Nat) : Fintype.card (Choices B Q) = (2 ^ 128) ^ B * (2 ^ 64) ^ Q * 2 ^ 64 := by
  rw [Fintype.card_prod, Fintype.card_prod, Fintype.card_fun, Fintype.card_fun, Fintype.card_fin, Fintype.card_fin, card_bitVec, card_bitVec]

theorem cancel_words {x a b c t N : Nat} (hN : 0 < N) (h : x * (N * N * N) ≤ (a * N + b * (N * N) + c * (N * N)) * t) :
    x * (N * N) ≤ (a + (b + c) * N) * t := by
  refine Nat.le_of_mul_le_mul_right ?_ hN
  calc x * (N * N) * N = x * (N * N * N) := by ring
    _ ≤ _ := h
    _ = _ := by ring

open Classical in
/-- C87. Let `A` be any program that talks to the verifier over the network. Of all random choices of the verifier at most the fraction
`m * E / 2^128 + (9 * n + 36) / 2^64` lets `A` cheat under some schedule (accepted, canonical words, no collision of the hash, no inputs
explain the values returned and the claims), where `m` is the number of multiplications, `n` the number of polynomial statements, and
`E` measures the expansion of blocks into coefficients (about `2^128 / p` for a good one). The condition on the batches is that of C85. -/
theorem C87_error {α : Type} {B Q E : Nat} (A : Proc α) (v : AView) (expand : U128 → Nat → U128) (ext : Nat → List (Bool × List Byte))
    (ops : List AOp) (ho : ∀ o ∈ ops, o.CanonC) (hE : ExpandGood expand v.threads E)
    (hB : mulCount ops ≤ B * v.checkSz) (hQ : stmtCount ops ≤ Q * v.polySz)
    (hcover : ∀ b, b * v.checkSz < mulCount ops → batchLen (mulCount ops) v.checkSz b < 32 ∨
      batchLen (mulCount ops) v.checkSz b % v.threads < batchLen (mulCount ops) v.checkSz b / v.threads) :
    (Finset.univ.filter (fun q : Choices B Q => ProcCheats A v expand ext ops q)).card * 2 ^ 128 ≤
      (mulCount ops * E + (9 * stmtCount ops + 36) * 2 ^ 64) * Fintype.card (Choices B Q) := by
  have h := family_error (F := famFin A v expand ext ops) (fam_causal (B := B) (Q := Q) A v expand ext ops) hE ho hB hQ hcover
    (fun σ τ w V => ∃ bs ms fin, RunsTo A (v.drawnNet expand ext σ τ w) ops V bs ∧ (v.wireOf ext).session ops bs = some (ms, fin, []) ∧
      (∀ m ∈ ms, m.CanonM) ∧ V.accepted = true)
    (by
      rintro σ τ w V ⟨bs, ms, fin, h1, h2, h3, h4⟩
      obtain ⟨k1, k2, k3⟩ := fam_of_run v expand ext h1 h2
      subst k1; subst k2
      exact ⟨h3, k3, h4⟩)
  have hsub : (Finset.univ.filter (fun q : Choices B Q => ProcCheats A v expand ext ops q)).card ≤ _ := Finset.card_le_card (t := (Finset.univ.filter (fun q : ((Fin B → U128) × (Fin Q → W)) × W =>
      (∀ w1 w2 V1 V2, (∃ bs ms fin, RunsTo A (v.drawnNet expand ext q.1.1 q.1.2 w1) ops V1 bs ∧ (v.wireOf ext).session ops bs = some (ms, fin, []) ∧
      (∀ m ∈ ms, m.CanonM) ∧ V1.accepted = true) → (∃ bs ms fin, RunsTo A (v.drawnNet expand ext q.1.1 q.1.2 w2) ops V2 bs ∧ (v.wireOf ext).session ops bs = some (ms, fin, []) ∧
      (∀ m ∈ ms, m.CanonM) ∧ V2.accepted = true) → v.hash V1.stored = v.hash V2.stored → V1.stored = V2.stored) ∧
      ∃ V, (∃ bs ms fin, RunsTo A (v.drawnNet expand ext q.1.1 q.1.2 q.2) ops V bs ∧ (v.wireOf ext).session ops bs = some (ms, fin, []) ∧
      (∀ m ∈ ms, m.CanonM) ∧ V.accepted = true) ∧ ¬ Explained ops V))) (by
    intro q hq
    obtain ⟨_, hq1, V, bs, ms, fin, g1, g2, g3, g4, g5⟩ := Finset.mem_filter.1 hq
    refine Finset.mem_filter.2 ⟨Finset.mem_univ _, ?_, V, ⟨bs, ms, fin, g1, g2, g3, g4⟩, g5⟩
    rintro w1 w2 V1 V2 ⟨b1, _, _, r1, _, _, a1⟩ ⟨b2, _, _, r2, _, _, a2⟩ hh
    exact hq1 w1 w2 V1 V2 b1 b2 r1 r2 a1 a2 hh)
  have hx : Fintype.card U128 = Fintype.card W * Fintype.card W := by rw [card_bitVec, card_bitVec, ← pow_add]
  have hc : Fintype.card (Choices B Q) = Fintype.card U128 ^ B * Fintype.card W ^ Q * Fintype.card W := by
    rw [Fintype.card_prod, Fintype.card_prod, Fintype.card_fun, Fintype.card_fun, Fintype.card_fin, Fintype.card_fin]
  rw [← hc] at h
  have h2 := (Nat.mul_le_mul_right _ hsub).trans h
  rw [hx] at h2
  have h3 := cancel_words Fintype.card_pos h2
  rw [← hx, card_bitVec, card_bitVec] at h3
  exact h3

theorem taskSum_congr {α : Type} (f : α → Fp) (buf : List α) (s s' : Nat → Fp) (ts : List (Nat × Nat)) :
    ∀ i, (∀ j, i ≤ j → j < i + ts.length → s j = s' j) → taskSum f buf s ts i = taskSum f buf s' ts i := by
  induction ts with
  | nil => intro i _; rfl
  | cons t ts ih =>
    intro i h
    simp only [taskSum]
    rw [h i (le_refl _) (by simp only [List.length_cons]; omega),
      ih (i + 1) (fun j h1 h2 => h j (by omega) (by simp only [List.length_cons]; omega))]

/-- C87. The quality of an expansion: if at most `F` blocks expand to the same coefficients for `T` tasks, and there are no more tasks,
then `E` may be taken to be `F * p^(T-1)`. -/
theorem C87_expand (expand : U128 → Nat → U128) (threads T F : Nat) (hT : max 1 threads ≤ T)
    (hF : ∀ (x : Fin T → Fp) (s : Finset U128), (∀ b ∈ s, ∀ i : Fin T, seedFp (expand b i.1) = x i) → s.card ≤ F) :
    ExpandGood expand threads (F * pN ^ (T - 1)) := by
  classical
  intro buf tasks htasks ⟨t, ht, hg⟩ s hs
  obtain ⟨i, hi, rfl⟩ := List.getElem_of_mem ht
  have hf := mulTasks_facts htasks
  have hle := card_bad_seedsA _ T tasks ⟨i, by omega⟩ hi hg
  rw [show Fintype.card Fp = pN from ZMod.card _] at hle
  have h1 : (s.image (fun b => fun j : Fin T => seedFp (expand b j.1))).card ≤ buf.length * pN ^ (T - 1) := by
    refine (Finset.card_le_card ?_).trans (hle.trans (Nat.mul_le_mul_right _ (hf.2 _ (List.getElem_mem hi))))
    intro y hy
    obtain ⟨b, hb, rfl⟩ := Finset.mem_image.1 hy
    refine Finset.mem_filter.2 ⟨Finset.mem_univ _, ?_⟩
    rw [← hs b hb]
    refine taskSum_congr _ _ _ _ _ 0 ?_
    intro j _ hj
    have hjT : j < T := by omega
    unfold extendSeeds
    rw [dif_pos hjT]
  have h2 := Finset.card_le_mul_card_image (f := fun b => fun j : Fin T => seedFp (expand b j.1)) s F (by
    intro x _
    refine hF x _ ?_
    intro b hb j
    exact congrFun (Finset.mem_filter.1 hb).2 j)
  refine h2.trans ((Nat.mul_le_mul_left F h1).trans (le_of_eq ?_))
  ring

open Classical in
/-- C87 with one thread: if at most `E` blocks expand to the same first coefficient, the fraction is
`m * E / 2^128 + (9 * n + 36) / 2^64`, and no condition on the batches is needed. -/
theorem C87_one_thread {α : Type} {B Q E : Nat} (A : Proc α) (v : AView) (expand : U128 → Nat → U128)
    (ext : Nat → List (Bool × List Byte)) (ops : List AOp) (ho : ∀ o ∈ ops, o.CanonC) (h1 : v.threads = 1)
    (hE : ∀ (x : Fp) (s : Finset U128), (∀ b ∈ s, seedFp (expand b 0) = x) → s.card ≤ E)
    (hB : mulCount ops ≤ B * v.checkSz) (hQ : stmtCount ops ≤ Q * v.polySz) :
    (Finset.univ.filter (fun q : Choices B Q => ProcCheats A v expand ext ops q)).card * 2 ^ 128 ≤
      (mulCount ops * E + (9 * stmtCount ops + 36) * 2 ^ 64) * Fintype.card (Choices B Q) := by
  refine C87_error A v expand ext ops ho ?_ hB hQ ?_
  · have := C87_expand expand v.threads 1 E (by rw [h1, Nat.max_self]) (fun x s hs => hE (x 0) s (fun b hb => hs b hb 0))
    rwa [Nat.sub_self, pow_zero, Nat.mul_one] at this
  · intro b hb
    right
    have : 0 < v.checkSz := by
      by_contra h0
      have h0 : v.checkSz = 0 := by omega
      rw [h0] at hb hB
      omega
    rw [h1, Nat.mod_one, Nat.div_one]
    unfold batchLen
    omega

/-! ### Examples -/

theorem card_low64 (w : W) (s : Finset U128) (h : ∀ b ∈ s, low64 b = w) : s.card ≤ 2 ^ 64 := by
  have key : ∀ N, 2 ^ 64 = N → s.card ≤ N := by
    intro N hN
    have h1 : s.card ≤ (Finset.range N).card := by
      apply Finset.card_le_card_of_injOn (fun b => b.toNat / 2 ^ 64)
      · intro b hb
        refine Finset.mem_coe.2 (Finset.mem_range.2 ?_)
        have := b.isLt
        show b.toNat / 2 ^ 64 < N
        rw [← hN]
        omega
      · intro a ha b hb hab
        have e : a.toNat % 2 ^ 64 = b.toNat % 2 ^ 64 := by
          have := congrArg BitVec.toNat ((h a ha).trans (h b hb).symm)
          simpa [low64] using this
        have hab : a.toNat / 2 ^ 64 = b.toNat / 2 ^ 64 := hab
        apply BitVec.eq_of_toNat_eq
        omega
    rwa [Finset.card_range] at h1
  exact key _ rfl

/-- The expansion of `exNetA`: at most `9 * 2^64` blocks have the same first coefficient. -/
theorem exExpand_good (x : Fp) (s : Finset U128) (h : ∀ b ∈ s, seedFp (exNetA.expand b 0) = x) : s.card ≤ 9 * 2 ^ 64 := by
  classical
  have h1 : (s.image (fun b => low64 (exNetA.expand b 0))).card ≤ 9 := by
    refine card_residue _ x ?_
    intro w hw
    obtain ⟨b, hb, rfl⟩ := Finset.mem_image.1 hw
    exact h b hb
  have h2 := Finset.card_le_mul_card_image (f := fun b => low64 (exNetA.expand b 0)) s (2 ^ 64) (by
    intro w _
    have hinj : Function.Injective (fun b : U128 => exNetA.expand b 0) := by
      intro a b hab
      have hab : a + BitVec.ofNat 128 (0 + 2) = b + BitVec.ofNat 128 (0 + 2) := hab
      exact add_right_cancel hab
    rw [← Finset.card_image_of_injective _ hinj]
    refine card_low64 w _ ?_
    intro b hb
    obtain ⟨a, ha, rfl⟩ := Finset.mem_image.1 hb
    exact (Finset.mem_filter.1 ha).2)
  omega

open Classical in
/-- C87: three multiplications and three statements, two checks of each kind: whatever the prover process,
the error is at most `90 / 2^64`. -/
example {α : Type} (A : Proc α) :
    (Finset.univ.filter (fun q : Choices 2 2 => ProcCheats A exEnvA.view exNetA.expand exNetA.ext exProgA q)).card * 2 ^ 128 ≤
      (3 * (9 * 2 ^ 64) + (9 * 3 + 36) * 2 ^ 64) * Fintype.card (Choices 2 2) := by
  have h := C87_one_thread (B := 2) (Q := 2) A exEnvA.view exNetA.expand exNetA.ext exProgA exProgA_canon rfl exExpand_good (by decide)
    (by decide)
  rw [show mulCount exProgA = 3 from rfl, show stmtCount exProgA = 3 from rfl] at h
  exact h

/-- A prover process that claims `1 = 0` and guesses `Delta = 5`. -/
def exGuessProc : Proc Unit := do
  Proc.script true (exNetA.ext 0)
  Proc.put (encDig (exEnvA.hash [6]))

/-- C87: the prover process can cheat, with a right guess. -/
example (σ : Fin 0 → U128) (τ : Fin 0 → W) :
    ProcCheats exGuessProc exEnvA.view exNetA.expand exNetA.ext [.pub 1, .revealZero 0] ((σ, τ), 5) := by
  have hV : ∀ w V bs, RunsTo exGuessProc (exEnvA.view.drawnNet exNetA.expand exNetA.ext σ τ w) [.pub 1, .revealZero 0] V bs →
      ∃ x, V.stored = [x] := by
    intro w V bs h
    obtain ⟨ms, fin, _, h2⟩ := (C87_log _ _ _ _).2 bs h
    match ms, h2 with
    | [], h2 => cases h2
    | [m], h2 => cases h2
    | m :: m' :: [], h2 =>
      simp only [averSession, averRun, averStep, averFinalize, averFinPoly, averFinMul, AVer.init, List.nil_append, List.getElem?_cons_zero,
        Option.bind_eq_bind, Option.bind_some, ne_eq, not_true_eq_false, if_false, Option.some.injEq] at h2
      subst h2
      exact ⟨_, rfl⟩
    | m :: m' :: m'' :: l, h2 => cases h2
  constructor
  · intro w1 w2 V1 V2 b1 b2 h1 h2 _ _ hh
    obtain ⟨x1, e1⟩ := hV _ _ _ h1
    obtain ⟨x2, e2⟩ := hV _ _ _ h2
    rw [e1, e2] at hh ⊢
    have hh : BitVec.ofNat 256 (1 * 2 ^ 64 + x1.toNat) = BitVec.ofNat 256 (1 * 2 ^ 64 + x2.toNat) := hh
    have h3 := congrArg BitVec.toNat hh
    simp only [BitVec.toNat_ofNat] at h3
    have := x1.isLt
    have := x2.isLt
    rw [Nat.mod_eq_of_lt (by omega), Nat.mod_eq_of_lt (by omega)] at h3
    rw [BitVec.eq_of_toNat_eq (show x1.toNat = x2.toNat by omega)]
  · have : σ = fun i => i.elim0 := funext fun i => i.elim0
    subst this
    have : τ = fun i => i.elim0 := funext fun i => i.elim0
    subst this
    refine ⟨_, _, [⟨0, 0, 0⟩, ⟨0, 0, 0⟩], ⟨0, 0, exEnvA.hash [6]⟩, ⟨6, .done (), [], [], .step (.inl rfl) (.step (.inr rfl)
      (.step (.inr rfl) (.step (.inl rfl) (.step (.inl rfl) (.step (.inr rfl) (.refl _))))))⟩, rfl, ?_, by decide +kernel, ?_⟩
    · intro m hm
      simp only [List.mem_cons, List.not_mem_nil, or_false, or_self] at hm
      subst hm
      show Canon 0
      decide
    · rintro ⟨ops', pl, h1, _, h3, h4, _⟩
      cases h1 with
      | cons a1 r1 => cases r1 with
        | cons a2 r2 => cases r2 with
          | nil =>
            have q1 : AOp.pub 1 = _ := a1
            have q2 : AOp.revealZero 0 = _ := a2
            subst q1; subst q2
            have h5 : aplainRun [.pub 1, .revealZero 0] = some ⟨[fp 1], [], [fp 1]⟩ := rfl
            rw [h5, Option.some.injEq] at h3
            subst h3
            have := congrArg toW (h4 (fp 1) (by simp))
            revert this
            decide +kernel

end EmpZk
