/-
C86: batched calls of the arithmetic protocol.
-/
import Verif.Lemmas.ArithBatchNet
import Verif.Props.ArithNet

namespace EmpZk

/-! ### Batched calls are sequences of single calls -/

/-- C86. The prover of a program with batched calls ends exactly when the prover of the single calls does, in the same state, and its
messages contain the same words. -/
theorem C86_prover (e : AEnv) (s : APrv) (cs : List ACall) :
    ((aprvCalls e s cs).bind fun r => (flatCalls cs r.2).map fun ms => (r.1, ms)) = aprvRun e s (callOps cs) :=
  aprvCalls_run e cs s

/-- C86. The verifier of a program with batched calls, on any messages, does what the verifier of the single calls does on the words in
them; in particular the same values are returned, hashed and compared, and `error` is called in the same cases. -/
theorem C86_verifier (e : AEnv) (s : AVer) (cs : List ACall) (ms : List ACallMsg) :
    averCalls e s cs ms = (flatCalls cs ms).bind (averRun e s (callOps cs)) :=
  averCalls_run e cs s ms

/-- C86. `IntFp::negate` is multiplication by the constant `p - 1` (int_fp.h:60-64): the value is negated. -/
theorem C86_negate (s : APlain) (i : Nat) (x : Fp) (h : s.wires[i]? = some x) :
    aplainStep s (.mulc i (PR - 1)) = some { s with wires := s.wires ++ [-x] } := by
  have h1 : fp (PR - 1) = -1 := by
    have : fp (PR - 1) + 1 = 0 := by decide +kernel
    exact eq_neg_of_add_eq_zero_left this
  simp only [aplainStep, h, Option.bind_eq_bind, Option.bind_some, h1]
  rw [mul_neg_one]

/-! ### Over the network -/

/-- C86. As C83, for programs with batched calls, whatever messages the VOLE exchanges for the batches: every run of the two processes,
in whatever order they are scheduled, comes after exactly `n` steps to the point where both have returned, no byte is left, both hold the
values of the plain program, and the verifier accepts if the claims of the program are true. -/
theorem C86_every_schedule (be : ABatchEnv) (hg : be.net.env.Good) (h0 : 0 < be.net.base.checkSz)
    (h1 : be.net.base.checkSz < 32 ∨ (0 < be.net.base.threads ∧ be.net.base.threads ≤ be.net.base.checkSz)) (hp : 0 < be.net.base.polySz)
    (cs : List ACall) (ho : ∀ o ∈ callOps cs, o.CanonC) (pl : APlain) (hpl : aplainRun (callOps cs) = some pl)
    (hl : lastBatch (mulCount (callOps cs)) be.net.base.checkSz < 32 ∨
      (0 < be.net.base.threads ∧ be.net.base.threads ≤ lastBatch (mulCount (callOps cs)) be.net.base.checkSz)) :
    ∃ (n : Nat) (P : APrv) (V : AVer),
      V.outs.map fp = pl.outs ∧ (∀ w ∈ V.outs, Canon w) ∧ P.outs = V.outs ∧ ((∀ x ∈ pl.claims, x = 0) → V.accepted = true) ∧
      ∀ m c, Duo.Reach m ⟨aprvBatchNet be cs, averBatchNet be cs, [], []⟩ c →
        m ≤ n ∧ Duo.Reach (n - m) c ⟨.done P, .done V, [], []⟩ ∧ (m < n → ∃ c', Duo.Step c c') ∧
        (m = n → c = ⟨.done P, .done V, [], []⟩) := by
  have hs := (C17_completes be.net.env hg h0 h1 hp (callOps cs) ho).2 ⟨by rw [hpl]; rfl, hl⟩
  obtain ⟨⟨P, ms, fin⟩, hP⟩ := Option.isSome_iff_exists.1 hs
  obtain ⟨V, pl', k1, k2, k3, k4, k5, k6⟩ := C17_honest_session be.net.env hg (callOps cs) ho P ms fin hP
  rw [hpl, Option.some.injEq] at k2
  subst k2
  obtain ⟨n, hn⟩ := co_batchSession be cs hP k1
  refine ⟨n, P, V, k3, k4, k5, k6, ?_⟩
  intro m c hc
  obtain ⟨k, rfl, hk⟩ := Duo.reach_reach hn (stuck_done _ _ _ _) hc
  refine ⟨by omega, by rwa [Nat.add_sub_cancel_left], ?_, ?_⟩
  · intro hlt
    cases hk with
    | refl => omega
    | step h _ => exact ⟨_, h⟩
  · intro he
    obtain rfl : k = 0 := by omega
    cases hk
    rfl

/-- The verifier of a program with batched calls connected to the prover process `A` returns `V` under some schedule. -/
def FinishesB {α : Type} (A : Proc α) (be : ABatchEnv) (cs : List ACall) (V : AVer) : Prop :=
  ∃ n A' pq qp, Duo.Reach n ⟨A, averBatchNet be cs, [], []⟩ ⟨A', .done V, pq, qp⟩

/-- C86. The verifier's process of a program with batched calls, on arbitrary bytes: it returns exactly when the bytes contain all
words, cut out without `Delta`, and then it has done what the verifier of the single calls does on them. -/
theorem C86_bytes (be : ABatchEnv) (cs : List ACall) (bs r : List Byte) (V : AVer) :
    (averBatchNet be cs).on bs = .ends V r ↔
      ∃ ms fin, be.wire.session cs bs = some (ms, fin, r) ∧ averSession be.net.env (callOps cs) ms fin = some V :=
  ends_batchSession be cs

/-- C86. Whatever the prover does, what the verifier returns does not depend on the schedule. -/
theorem C86_schedule {α : Type} (A : Proc α) (be : ABatchEnv) (cs : List ACall) (V V' : AVer) (h : FinishesB A be cs V)
    (h' : FinishesB A be cs V') : V = V' := by
  obtain ⟨n, A1, pq, qp, h⟩ := h
  obtain ⟨m, A2, pq', qp', h'⟩ := h'
  exact Duo.done_unique h h' rfl rfl

/-- The session with batched calls in which the verifier's secret is `d`. -/
def AView.netB (v : AView) (seed0 : Nat → U128) (expand : U128 → Nat → U128) (ext : Nat → List (Bool × List Byte))
    (extB : Nat → Nat → List (Bool × List Byte)) (d : Fp) : ABatchEnv := ⟨v.net seed0 expand ext d, extB⟩

/-- C86. Against a verifier with batched calls a prover process has one transcript for all `Delta`, in words of single calls. -/
theorem C86_one_transcript {α : Type} (A : Proc α) (v : AView) (seed0 : Nat → U128) (expand : U128 → Nat → U128)
    (ext : Nat → List (Bool × List Byte)) (extB : Nat → Nat → List (Bool × List Byte)) (hseed : v.seed = fun b => expand (seed0 b))
    (cs : List ACall) :
    ∃ ms fin, ∀ d V, FinishesB A (v.netB seed0 expand ext extB d) cs V → averSession (v.env d) (callOps cs) ms fin = some V := by
  by_cases hex : ∃ d V, FinishesB A (v.netB seed0 expand ext extB d) cs V
  · obtain ⟨d, V, n, A', pq, qp, h⟩ := hex
    obtain ⟨bs, h1, h2⟩ := reach_like (fun (_ : AVer) (_ : AVer) => True) h rfl
    obtain ⟨ms, fin, h3, h4⟩ := (ends_batchSession _ cs).1 h1
    refine ⟨ms, fin, ?_⟩
    intro d' V' hf
    obtain ⟨n', A'', pq', qp', h'⟩ := hf
    have hal : (v.net seed0 expand ext d).Alike (v.net seed0 expand ext d') := ⟨rfl, rfl, rfl, rfl, rfl⟩
    have henv : (v.netB seed0 expand ext extB d').net.env = v.env d' := by
      simp only [ANetEnv.env, AView.netB, AView.net, AView.env, hseed]
    rcases h2 (averBatchNet (v.netB seed0 expand ext extB d') cs) (like_batchNet
        (be := v.netB seed0 expand ext extB d) (be' := v.netB seed0 expand ext extB d') hal rfl cs) with ⟨m, a, k1, k2⟩ | ⟨b', m, a, k1, k2, k3⟩
    · exact (Duo.done_not_fail h' k1 rfl k2).elim
    · have := Duo.done_unique h' k1 rfl k2
      subst this
      obtain ⟨ms', fin', h5, h6⟩ := (ends_batchSession _ cs).1 k3
      have hw : (v.netB seed0 expand ext extB d').wire = (v.netB seed0 expand ext extB d).wire := rfl
      rw [hw, h3, Option.some.injEq, Prod.mk.injEq, Prod.mk.injEq] at h5
      obtain ⟨rfl, rfl, _⟩ := h5
      rw [henv] at h6
      exact h6
  · exact ⟨[], ⟨(0, 0), (0, 0), 0⟩, fun d V h => (hex ⟨d, V, h⟩).elim⟩

/-- C86. Extraction (C84) from a prover process in a program with batched calls. -/
theorem C86_extraction {α : Type} (A : Proc α) (v : AView) (seed0 : Nat → U128) (expand : U128 → Nat → U128)
    (ext : Nat → List (Bool × List Byte)) (extB : Nat → Nat → List (Bool × List Byte)) (hseed : v.seed = fun b => expand (seed0 b))
    (cs : List ACall) (ho : ∀ o ∈ callOps cs, o.CanonC) (D : Finset Fp) (hD5 : 5 ≤ D.card)
    (hD : ∀ d ∈ D, ∃ V, FinishesB A (v.netB seed0 expand ext extB d) cs V ∧ V.accepted = true) :
    ∃ ms fin,
      (∀ d V, FinishesB A (v.netB seed0 expand ext extB d) cs V → averSession (v.env d) (callOps cs) ms fin = some V) ∧
      ((∀ m ∈ ms, m.CanonM) →
        ∃ c, acomSession v (callOps cs) ms fin = some c ∧
        ((∀ r ∈ c.mulLog, ∀ tasks, mulTasks r.gates.length v.threads = some tasks →
          mulErr r.gates r.seeds tasks = 0 → ∀ t ∈ tasks, ∀ g ∈ taskSlice r.gates t, g.Correct) →
        (∀ r ∈ c.mulLog, r.gates.length < 32 ∨ r.gates.length % v.threads < r.gates.length / v.threads) →
        (∀ r ∈ c.polyLog, chiSum r.seed (r.polys.map APoly.value) = 0 → ∀ s ∈ r.polys, s.value = 0) →
        (∀ d1 ∈ D, ∀ d2 ∈ D, ∀ V1 V2, averSession (v.env d1) (callOps cs) ms fin = some V1 →
          averSession (v.env d2) (callOps cs) ms fin = some V2 → v.hash V1.stored = v.hash V2.stored → V1.stored = V2.stored) →
        ∃ ops' pl, List.Forall₂ AOp.same (callOps cs) ops' ∧ (∀ o ∈ ops', o.CanonC) ∧ aplainRun ops' = some pl ∧
          (∀ x ∈ pl.claims, x = 0) ∧
          ∀ d ∈ D, ∀ V, FinishesB A (v.netB seed0 expand ext extB d) cs V → V.outs.map fp = pl.outs ∧ ∀ w ∈ V.outs, Canon w)) := by
  obtain ⟨ms, fin, ht⟩ := C86_one_transcript A v seed0 expand ext extB hseed cs
  refine ⟨ms, fin, ht, ?_⟩
  intro hm
  have hD' : ∀ d ∈ D, ∃ V, averSession (v.env d) (callOps cs) ms fin = some V ∧ V.accepted = true := by
    intro d hd
    obtain ⟨V, h1, h2⟩ := hD d hd
    exact ⟨V, ht d V h1, h2⟩
  obtain ⟨d0, hd0⟩ : D.Nonempty := Finset.card_pos.1 (by omega)
  obtain ⟨V0, hV0, _⟩ := hD' d0 hd0
  obtain ⟨ab, ch, k⟩ := averSession_img v d0 (callOps cs) ho ms hm fin
  rw [hV0] at k
  obtain ⟨c, hc, _⟩ := Option.map_eq_some_iff.1 k.symm
  refine ⟨c, hc, ?_⟩
  intro hs hcov hps hh
  obtain ⟨ops', pl, e1, e2, e3, e4, e5⟩ := C64_extraction v (callOps cs) ho ms hm fin c hc hs hcov hps D hD5 hD' hh
  exact ⟨ops', pl, e1, e2, e3, e4, fun d hd V hV => e5 d hd V (ht d V hV)⟩

/-! ### Examples -/

/-- C86: `negate` of 5. -/
example : aplainStep ⟨[fp 2, fp 5], [], []⟩ (.mulc 1 (PR - 1)) = some ⟨[fp 2, fp 5, -fp 5], [], []⟩ :=
  C86_negate ⟨[fp 2, fp 5], [], []⟩ 1 (fp 5) rfl

/-- Three values fed at once, a product, both opened at once, one compared, one proved zero. -/
def exCalls : List ACall :=
  [.feed [3, 4, 0], .one (.mul 0 1), .reveal [3, 0], .check [(1, 4), (3, 12)], .zero [2]]

/-- A VOLE extension with one byte in each direction for every third output. -/
def exBatchEnv : ABatchEnv := ⟨exNetA, fun n len => (List.range len).flatMap fun i => if (n + i) % 3 = 0 then [(true, [1#8]), (false, [2#8])] else []⟩

/-- C86: one message with three words, one with one, two with two, an empty one. -/
example : (aprvCalls exEnvA APrv.init exCalls).map (fun r => r.2.map fun m => m.ws.length) = some [3, 0, 2, 2, 0] := by
  decide +kernel

/-- C86: a wrong second word in a batched comparison. -/
example : ((averCalls exEnvA AVer.init [.feed [3, 4], .check [(0, 3), (1, 4)]] [.words [7, 8], .words [3, 5]]).map AVer.aborted) = some true ∧
    ((averCalls exEnvA AVer.init [.feed [3, 4], .check [(0, 3), (1, 4)]] [.words [7, 8], .words [3, 4]]).map AVer.aborted) = some false := by
  decide +kernel

/-- C86: the values 12 and 3 are returned, whatever the schedule. -/
example : ∃ n P V, V.outs.map fp = [fp 12, fp 3] ∧ V.accepted = true ∧
    ∀ m c, Duo.Reach m ⟨aprvBatchNet exBatchEnv exCalls, averBatchNet exBatchEnv exCalls, [], []⟩ c →
      m ≤ n ∧ Duo.Reach (n - m) c ⟨.done P, .done V, [], []⟩ := by
  have hp : (aplainRun (callOps exCalls)).map (fun p => (p.outs, p.claims)) = some ([fp 12, fp 3], [0, 0, 0]) := by decide +kernel
  obtain ⟨pl, hpl, hq⟩ := Option.map_eq_some_iff.1 hp
  rw [Prod.mk.injEq] at hq
  have hc : ∀ o ∈ callOps exCalls, o.CanonC := by
    intro o ho
    simp only [callOps, exCalls, ACall.ops, List.flatMap_cons, List.flatMap_nil, List.map_cons, List.map_nil, List.cons_append, List.nil_append,
      List.mem_cons, List.not_mem_nil, or_false] at ho
    rcases ho with rfl | rfl | rfl | rfl | rfl | rfl | rfl | rfl | rfl <;> simp only [AOp.CanonC, Canon] <;> decide
  obtain ⟨n, P, V, k1, _, _, k4, k5⟩ := C86_every_schedule exBatchEnv exNetA_good (by decide) (by decide) (by decide) exCalls hc
    pl hpl (Or.inl (by decide))
  exact ⟨n, P, V, by rw [k1, hq.1], k4 (by rw [hq.2]; simp), fun m c h => ⟨(k5 m c h).1, (k5 m c h).2.1⟩⟩

/-- C86: bytes for a batched feed and a batched opening of two values: VOLE bytes, two corrections, two values, a digest. -/
example : ∃ ms fin, exBatchEnv.wire.session [.feed [3, 3], .reveal [0, 1]]
      ([9#8] ++ encW 1 ++ encW 2 ++ encW 4 ++ encW 5 ++ encDig 5 ++ [7#8]) = some (ms, fin, [7#8]) ∧
    ms.map AMsg.w = [1, 2, 4, 5] ∧ fin.digest = 5 := by
  exact ⟨[⟨1, 0, 0⟩, ⟨2, 0, 0⟩, ⟨4, 0, 0⟩, ⟨5, 0, 0⟩], ⟨(0, 0), (0, 0), 5⟩, by rfl, rfl, rfl⟩

end EmpZk
