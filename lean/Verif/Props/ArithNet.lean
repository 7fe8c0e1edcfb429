/-
C83: an arithmetic proof over the network completes under every interleaving of the two parties.
C84: the verifier of an arithmetic proof against an arbitrary prover process.
-/
import Verif.Lemmas.ArithLike
import Verif.Lemmas.ArithNet
import Verif.Props.ArithProtocol

namespace EmpZk

/-! ### C83: every schedule -/

/-- C83. Honest parties, good VOLE outputs, a well-formed program whose last multiplication batch fits the threads (as in C17): there is
a number of steps `n`, and every run of the two processes, in whatever order they are scheduled, can be continued, comes after exactly
`n` steps to the point where both have returned and no byte is left, and there both hold the values of the plain program; the verifier
accepts if the claims of the program are true. -/
theorem C83_every_schedule (ne : ANetEnv) (hg : ne.env.Good) (h0 : 0 < ne.base.checkSz)
    (h1 : ne.base.checkSz < 32 ∨ (0 < ne.base.threads ∧ ne.base.threads ≤ ne.base.checkSz)) (hp : 0 < ne.base.polySz)
    (ops : List AOp) (ho : ∀ o ∈ ops, o.CanonC) (pl : APlain) (hpl : aplainRun ops = some pl)
    (hl : lastBatch (mulCount ops) ne.base.checkSz < 32 ∨
      (0 < ne.base.threads ∧ ne.base.threads ≤ lastBatch (mulCount ops) ne.base.checkSz)) :
    ∃ (n : Nat) (P : APrv) (V : AVer),
      V.outs.map fp = pl.outs ∧ (∀ w ∈ V.outs, Canon w) ∧ P.outs = V.outs ∧ ((∀ x ∈ pl.claims, x = 0) → V.accepted = true) ∧
      ∀ m c, Duo.Reach m ⟨aprvNet ne ops, averNet ne ops, [], []⟩ c →
        m ≤ n ∧ Duo.Reach (n - m) c ⟨.done P, .done V, [], []⟩ ∧ (m < n → ∃ c', Duo.Step c c') ∧
        (m = n → c = ⟨.done P, .done V, [], []⟩) := by
  have hs := (C17_completes ne.env hg h0 h1 hp ops ho).2 ⟨by rw [hpl]; rfl, hl⟩
  obtain ⟨⟨P, ms, fin⟩, hP⟩ := Option.isSome_iff_exists.1 hs
  obtain ⟨V, pl', k1, k2, k3, k4, k5, k6⟩ := C17_honest_session ne.env hg ops ho P ms fin hP
  rw [hpl, Option.some.injEq] at k2
  subst k2
  obtain ⟨n, hn⟩ := co_session ne ops hP k1
  refine ⟨n, P, V, k3, k4, k5, k6, ?_⟩
  intro m c hc
  obtain ⟨k, rfl, hk⟩ := Duo.reach_reach hn (stuck_done _ _ _ _) hc
  refine ⟨by omega, by rwa [Nat.add_sub_cancel_left], ?_, ?_⟩
  · intro hlt
    cases hk with
    | refl => omega
    | step h _ => exact ⟨_, h⟩
  · intro he
    obtain rfl : k = 0 := by omega
    cases hk
    rfl

/-! ### C84: any prover process -/

/-- The verifier of session `ne` connected to the prover process `A` returns `V` under some schedule. -/
def Finishes {α : Type} (A : Proc α) (ne : ANetEnv) (ops : List AOp) (V : AVer) : Prop :=
  ∃ n A' pq qp, Duo.Reach n ⟨A, averNet ne ops, [], []⟩ ⟨A', .done V, pq, qp⟩

/-- C84. The verifier's process on arbitrary bytes. It returns exactly when the bytes contain all messages that the program asks for,
cut out without `Delta`, and then it has done what the message-level verifier of C17-C21, C64 does on them, and has left the other
bytes. -/
theorem C84_bytes (ne : ANetEnv) (ops : List AOp) (bs r : List Byte) (V : AVer) :
    (averNet ne ops).on bs = .ends V r ↔
      ∃ ms fin, ne.wire.session ops bs = some (ms, fin, r) ∧ averSession ne.env ops ms fin = some V :=
  ends_session ne ops

/-- C84. Whatever the prover does, what the verifier returns does not depend on the schedule. -/
theorem C84_schedule {α : Type} (A : Proc α) (ne : ANetEnv) (ops : List AOp) (V V' : AVer) (h : Finishes A ne ops V)
    (h' : Finishes A ne ops V') : V = V' := by
  obtain ⟨n, A1, pq, qp, h⟩ := h
  obtain ⟨m, A2, pq', qp', h'⟩ := h'
  exact Duo.done_unique h h' rfl rfl

/-- The session over the network in which the verifier's secret is `d`. -/
def AView.net (v : AView) (seed0 : Nat → U128) (expand : U128 → Nat → U128) (ext : Nat → List (Bool × List Byte)) (d : Fp) : ANetEnv :=
  ⟨v.env d, seed0, expand, ext⟩

/-- C84. A prover process, however it reacts to the bytes of the verifier, has one transcript: for every `Delta` for which the verifier
returns, it has processed the same messages. -/
theorem C84_one_transcript {α : Type} (A : Proc α) (v : AView) (seed0 : Nat → U128) (expand : U128 → Nat → U128)
    (ext : Nat → List (Bool × List Byte)) (hseed : v.seed = fun b => expand (seed0 b)) (ops : List AOp) :
    ∃ ms fin, ∀ d V, Finishes A (v.net seed0 expand ext d) ops V → averSession (v.env d) ops ms fin = some V := by
  by_cases hex : ∃ d V, Finishes A (v.net seed0 expand ext d) ops V
  · obtain ⟨d, V, n, A', pq, qp, h⟩ := hex
    obtain ⟨bs, h1, h2⟩ := reach_like (fun (_ : AVer) (_ : AVer) => True) h rfl
    obtain ⟨ms, fin, h3, h4⟩ := (ends_session _ ops).1 h1
    refine ⟨ms, fin, ?_⟩
    intro d' V' hf
    obtain ⟨n', A'', pq', qp', h'⟩ := hf
    have hal : (v.net seed0 expand ext d).Alike (v.net seed0 expand ext d') := ⟨rfl, rfl, rfl, rfl, rfl⟩
    have henv : (v.net seed0 expand ext d').env = v.env d' := by
      simp only [ANetEnv.env, AView.net, AView.env, hseed]
    rcases h2 (averNet (v.net seed0 expand ext d') ops) (like_net hal ops) with ⟨m, a, k1, k2⟩ | ⟨b', m, a, k1, k2, k3⟩
    · exact (Duo.done_not_fail h' k1 rfl k2).elim
    · have := Duo.done_unique h' k1 rfl k2
      subst this
      obtain ⟨ms', fin', h5, h6⟩ := (ends_session _ ops).1 k3
      have hw : (v.net seed0 expand ext d').wire = (v.net seed0 expand ext d).wire := rfl
      rw [hw, h3, Option.some.injEq, Prod.mk.injEq, Prod.mk.injEq] at h5
      obtain ⟨rfl, rfl, _⟩ := h5
      rw [henv] at h6
      exact h6
  · exact ⟨[], ⟨(0, 0), (0, 0), 0⟩, fun d V h => (hex ⟨d, V, h⟩).elim⟩

/-- C84. Extraction from a prover process: let a prover process be accepted for five values of `Delta` (under whatever schedules).  Its
transcript, if its words are canonical (C63 is what happens otherwise), fixes inputs for which the claims of the program are true, and
every verifier that accepts has been given the values of the plain program on these inputs. The conditions on seeds, threads and hash
are those of C64. -/
theorem C84_extraction {α : Type} (A : Proc α) (v : AView) (seed0 : Nat → U128) (expand : U128 → Nat → U128)
    (ext : Nat → List (Bool × List Byte)) (hseed : v.seed = fun b => expand (seed0 b)) (ops : List AOp)
    (ho : ∀ o ∈ ops, o.CanonC) (D : Finset Fp) (hD5 : 5 ≤ D.card)
    (hD : ∀ d ∈ D, ∃ V, Finishes A (v.net seed0 expand ext d) ops V ∧ V.accepted = true) :
    ∃ ms fin, (∀ d V, Finishes A (v.net seed0 expand ext d) ops V → averSession (v.env d) ops ms fin = some V) ∧
      ((∀ m ∈ ms, m.CanonM) →
        ∃ c, acomSession v ops ms fin = some c ∧
        ((∀ r ∈ c.mulLog, ∀ tasks, mulTasks r.gates.length v.threads = some tasks →
          mulErr r.gates r.seeds tasks = 0 → ∀ t ∈ tasks, ∀ g ∈ taskSlice r.gates t, g.Correct) →
        (∀ r ∈ c.mulLog, r.gates.length < 32 ∨ r.gates.length % v.threads < r.gates.length / v.threads) →
        (∀ r ∈ c.polyLog, chiSum r.seed (r.polys.map APoly.value) = 0 → ∀ s ∈ r.polys, s.value = 0) →
        (∀ d1 ∈ D, ∀ d2 ∈ D, ∀ V1 V2, averSession (v.env d1) ops ms fin = some V1 →
          averSession (v.env d2) ops ms fin = some V2 → v.hash V1.stored = v.hash V2.stored → V1.stored = V2.stored) →
        ∃ ops' pl, List.Forall₂ AOp.same ops ops' ∧ (∀ o ∈ ops', o.CanonC) ∧ aplainRun ops' = some pl ∧
          (∀ x ∈ pl.claims, x = 0) ∧
          ∀ d ∈ D, ∀ V, Finishes A (v.net seed0 expand ext d) ops V → V.outs.map fp = pl.outs ∧ ∀ w ∈ V.outs, Canon w)) := by
  obtain ⟨ms, fin, ht⟩ := C84_one_transcript A v seed0 expand ext hseed ops
  refine ⟨ms, fin, ht, ?_⟩
  intro hm
  have hD' : ∀ d ∈ D, ∃ V, averSession (v.env d) ops ms fin = some V ∧ V.accepted = true := by
    intro d hd
    obtain ⟨V, h1, h2⟩ := hD d hd
    exact ⟨V, ht d V h1, h2⟩
  obtain ⟨d0, hd0⟩ : D.Nonempty := Finset.card_pos.1 (by omega)
  obtain ⟨V0, hV0, _⟩ := hD' d0 hd0
  obtain ⟨ab, ch, k⟩ := averSession_img v d0 ops ho ms hm fin
  rw [hV0] at k
  obtain ⟨c, hc, _⟩ := Option.map_eq_some_iff.1 k.symm
  refine ⟨c, hc, ?_⟩
  intro hs hcov hps hh
  obtain ⟨ops', pl, e1, e2, e3, e4, e5⟩ := C64_extraction v ops ho ms hm fin c hc hs hcov hps D hD5 hD' hh
  exact ⟨ops', pl, e1, e2, e3, e4, fun d hd V hV => e5 d hd V (ht d V hV)⟩

/-! ### Examples -/

/-- The session `exEnvA` over the network: one byte in each direction before every fourth VOLE output. -/
def exNetA : ANetEnv where
  base := exEnvA
  seed0 := fun b => BitVec.ofNat 128 (17 * b)
  expand := fun s i => s + BitVec.ofNat 128 (i + 2)
  ext := fun n => if n % 4 = 0 then [(true, [1#8]), (false, [2#8])] else []

theorem exNetA_good : exNetA.env.Good := by
  have h := exEnvA_good
  constructor
  · exact h.1
  · exact h.2
  · exact h.3
  · exact h.4
  · exact h.5
  · exact h.6

/-- C83: two multiplication checks and two polynomial checks, the value 100 is returned, whatever the schedule. -/
example : ∃ n P V, V.outs.map fp = [100] ∧ V.accepted = true ∧
    ∀ m c, Duo.Reach m ⟨aprvNet exNetA exProgA, averNet exNetA exProgA, [], []⟩ c →
      m ≤ n ∧ Duo.Reach (n - m) c ⟨.done P, .done V, [], []⟩ := by
  have hp := exProgA_plain
  obtain ⟨pl, hpl, hq⟩ := Option.map_eq_some_iff.1 hp
  rw [Prod.mk.injEq] at hq
  obtain ⟨n, P, V, k1, _, _, k4, k5⟩ := C83_every_schedule exNetA exNetA_good (by decide) (by decide) (by decide) exProgA exProgA_canon
    pl hpl (Or.inl (by decide))
  exact ⟨n, P, V, by rw [k1, hq.1], k4 (by rw [hq.2]; simp), fun m c h => ⟨(k5 m c h).1, (k5 m c h).2.1⟩⟩

/-- C84: bytes for the program `input; reveal`: a VOLE byte, a correction, an opening, a digest, and one byte more. -/
example : ∃ ms fin, exNetA.wire.session [.input 3, .reveal 0] ([9#8] ++ encW 1 ++ encW 4 ++ encDig 5 ++ [7#8]) = some (ms, fin, [7#8]) ∧
    ms.map AMsg.w = [1, 4] ∧ fin.digest = 5 := by
  exact ⟨[⟨1, 0, 0⟩, ⟨4, 0, 0⟩], ⟨(0, 0), (0, 0), 5⟩, by rfl, rfl, rfl⟩

/-- The random choices of `exNetA`, for any `Delta`. -/
def exViewN : AView := { exEnvA.view with seed := fun b => exNetA.expand (exNetA.seed0 b) }

/-- C84: one prover process that is accepted for every `Delta`: the honest one, for a program with a product, which is opened. -/
example : ∀ d, ∃ V, Finishes (aprvNet (exViewN.net exNetA.seed0 exNetA.expand exNetA.ext 1) [.input 3, .mul 0 0, .revealCheck 1 9])
    (exViewN.net exNetA.seed0 exNetA.expand exNetA.ext d) [.input 3, .mul 0 0, .revealCheck 1 9] V ∧ V.accepted = true := by
  intro d
  have he : aprvNet (exViewN.net exNetA.seed0 exNetA.expand exNetA.ext 1) [.input 3, .mul 0 0, .revealCheck 1 9] =
      aprvNet (exViewN.net exNetA.seed0 exNetA.expand exNetA.ext d) [.input 3, .mul 0 0, .revealCheck 1 9] := rfl
  rw [he]
  have hc : ∀ o ∈ ([.input 3, .mul 0 0, .revealCheck 1 9] : List AOp), o.CanonC := by
    intro o ho
    simp only [List.mem_cons, List.not_mem_nil, or_false] at ho
    rcases ho with rfl | rfl | rfl <;> simp only [AOp.CanonC, Canon] <;> decide
  have hp : (aplainRun [.input 3, .mul 0 0, .revealCheck 1 9]).map (fun p => (p.outs, p.claims)) = some ([], [0]) := by decide +kernel
  obtain ⟨pl, hpl, hq⟩ := Option.map_eq_some_iff.1 hp
  rw [Prod.mk.injEq] at hq
  obtain ⟨n, P, V, _, _, _, k4, k5⟩ := C83_every_schedule (exViewN.net exNetA.seed0 exNetA.expand exNetA.ext d)
    (AView.good exViewN d) (show 0 < 2 by decide) (Or.inl (show 2 < 32 by decide)) (show 0 < 2 by decide) _ hc pl hpl
    (Or.inl (show lastBatch 1 2 < 32 by decide))
  exact ⟨V, ⟨n, .done P, [], [], (k5 0 _ (.refl _)).2.1⟩, k4 (by rw [hq.2]; simp)⟩

end EmpZk
