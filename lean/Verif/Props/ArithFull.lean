/-
C89: a whole arithmetic proof, from the base OTs to the verdict, over the network with any number of threads.
-/
import Verif.Lemmas.VoleBuild
import Verif.Props.ArithNet

namespace EmpZk

/-! ### what the parties bring -/

/-- The randomness of both parties and the outcome of the OTs: `delta` is the verifier's secret, `g0`, `g1` (`gb0`, `gb1`) are the words of
the base OTs, `size` correlations are made from them with the prover's words `rx` and the verifier's seed `rseed`; `s0`, `s1` are the two
extensions of the setup, `st r` is the `r`-th main extension, with `M` correlations in and `n` out; the rest is uninitialised memory. -/
structure VoleRun where
  delta : U128
  g0 : Nat → Nat → W
  g1 : Nat → Nat → W
  gb0 : Nat → Nat → W
  gb1 : Nat → Nat → W
  size : Nat
  rx : List W
  rseed : W
  H : U128 → U128
  s0 : VStage
  s1 : VStage
  st : Nat → VStage
  n : Nat
  M : Nat
  junkS : List U128
  junkR : List U128
  jS : U128
  jR : U128

/-- The verifier's part: in the base OTs it gets one of two words, by the bits of its secret. -/
def VoleRun.ver (v : VoleRun) : VoleVer where
  delta := v.delta
  g := fun i j => if v.delta.toNat.testBit i then v.g1 i j else v.g0 i j
  gb := fun i j => if v.delta.toNat.testBit i then v.gb1 i j else v.gb0 i j
  size := v.size
  rseed := v.rseed
  setup := [v.s0.send v.H, v.s1.send v.H]
  main := fun r => (v.st r).send v.H
  junk := v.junkS
  junk1 := v.jS

/-- The prover's part. -/
def VoleRun.prv (v : VoleRun) : VolePrv where
  g0 := v.g0
  g1 := v.g1
  gb0 := v.gb0
  gb1 := v.gb1
  size := v.size
  rx := v.rx
  setup := [v.s0.recv v.H, v.s1.recv v.H]
  main := fun r => (v.st r).recv v.H
  junk := v.junkR
  junk1 := v.jR

/-- The secret is below `p`, all sizes fit, all OTs are correlated. -/
structure VoleRun.Ok (v : VoleRun) : Prop where
  delta : v.delta.toNat < pN
  size : 0 < v.size
  rx : v.rx.length = v.size + 1
  s0 : v.s0.Ok
  s1 : v.s1.Ok
  fits : Fits v.size [v.s0, v.s1]
  last : v.M ≤ v.s1.cfg.n
  twice : 2 * v.M ≤ v.n
  main : ∀ r, (v.st r).Ok ∧ (v.st r).cfg.n = v.n ∧ (v.st r).cfg.M = v.M
  junkS : v.junkS.length = v.n
  junkR : v.junkR.length = v.n

theorem validBatches_two {delta : U128} {s0 s1 : VStage} {Ks Ms : List (List U128)} (h : ValidBatches delta [s0, s1] Ks Ms) :
    ∃ K0 K1 M0 M1, Ks = [K0, K1] ∧ Ms = [M0, M1] := by
  rcases Ks with _ | ⟨K0, _ | ⟨K1, _ | ⟨_, _⟩⟩⟩ <;> rcases Ms with _ | ⟨M0, _ | ⟨M1, _ | ⟨_, _⟩⟩⟩ <;>
    first
    | exact ⟨K0, K1, M0, M1, rfl, rfl⟩
    | (simp only [ValidBatches, and_false] at h)

/-! ### theorems -/

/-- C89. Honest parties that begin with nothing but OTs: preprocessing, then a well-formed program of the arithmetic API (any length, so any
number of extensions during the program), then the final checks. For all secrets and all randomness of both parties, every number of
threads and every schedule of all threads of both parties: no deadlock, no undefined operation, no check of the VOLE fails, both return,
nothing is left on any channel, both hold the values of the plain program, and the verifier accepts if the claims of the program are
true. -/
theorem C89_whole_proof (f : ExtFns) (T : Nat) (v : VoleRun) (hv : v.Ok) (ne : ANetEnv) (hdelta : ne.base.delta = low64 v.delta)
    (hpub : Canon ne.base.pubMac) (h0 : 0 < ne.base.checkSz)
    (h1 : ne.base.checkSz < 32 ∨ (0 < ne.base.threads ∧ ne.base.threads ≤ ne.base.checkSz)) (hp : 0 < ne.base.polySz)
    (ops : List AOp) (ho : ∀ o ∈ ops, o.CanonC) (pl : APlain) (hpl : aplainRun ops = some pl)
    (hl : lastBatch (mulCount ops) ne.base.checkSz < 32 ∨
      (0 < ne.base.threads ∧ ne.base.threads ≤ lastBatch (mulCount ops) ne.base.checkSz)) :
    ∃ (V : AVer) (P : APrv),
      V.outs.map fp = pl.outs ∧ (∀ w ∈ V.outs, Canon w) ∧ P.outs = V.outs ∧ ((∀ x ∈ pl.claims, x = 0) → V.accepted = true) ∧
      EverySchedule (arithVerifier f T v.n v.M v.ver ne ops) (arithProver f T v.n v.M v.prv ne ops) (some V) (some P) := by
  have hd' : Canon (low64 v.delta) := by
    unfold Canon low64
    rw [BitVec.toNat_setWidth, Nat.mod_eq_of_lt (Nat.lt_trans hv.delta (by decide))]
    exact hv.delta
  -- setup
  obtain ⟨K, M, b1, b2, b3, b4⟩ := co_base v.delta hv.delta v.g0 v.g1 v.gb0 v.gb1 v.size hv.size v.rx hv.rx v.rseed
  obtain ⟨Ks, Ms, c1, c2⟩ := coPar_chain f T v.H v.delta hd' [v.s0, v.s1] K M
    (by intro s hs
        simp only [List.mem_cons, List.not_mem_nil, or_false] at hs
        rcases hs with rfl | rfl
        · exact hv.s0
        · exact hv.s1) (by rw [b1]; exact hv.fits) b3
  obtain ⟨K0, K1, M0, M1, rfl, rfl⟩ := validBatches_two c1
  obtain ⟨_, ⟨d1, d2, d3⟩, _⟩ := c1
  -- main extensions
  have hlast := hv.last
  have htwice := hv.twice
  obtain ⟨cs, cr, lock, batches⟩ := vlock_build f T v.H v.delta hd' v.n v.M (v.n - v.M) (by omega) (by omega) v.st hv.main (K1.take v.M)
    (M1.take v.M) (List.forall₂_take v.M d3) (by rw [List.length_take]; omega)
  obtain ⟨key, u, mac, F, good⟩ := feeds_build lock v.jS v.jR (low64 v.delta) batches ne.env
  -- the session
  have hne : (({ ne with base := { ne.base with key := key, u := u, mac := mac } } : ANetEnv)).env =
      { ne.env with key := key, u := u, mac := mac } := rfl
  rw [← hne] at F
  have hg : (({ ne with base := { ne.base with key := key, u := u, mac := mac } } : ANetEnv)).env.Good :=
    ⟨by show Canon ne.base.delta; rw [hdelta]; exact hd', fun i => (good i).1, fun i => (good i).2.1, fun i => (good i).2.2.1, hpub,
      fun i => by show _ = _ + fp ne.base.delta * _; rw [hdelta]; exact (good i).2.2.2⟩
  have hs := (C17_completes _ hg h0 h1 hp ops ho).2 ⟨by rw [hpl]; rfl, hl⟩
  obtain ⟨⟨P, ms, fin⟩, hP⟩ := Option.isSome_iff_exists.1 hs
  obtain ⟨V, pl', k1, k2, k3, k4, k5, k6⟩ := C17_honest_session _ hg ops ho P ms fin hP
  rw [hpl, Option.some.injEq] at k2
  subst k2
  refine ⟨V, P, k3, k4, k5, k6, coPar_all ?_⟩
  have start := VSync.start lock v.junkS v.junkR (by rw [← lock.sizeS.1]; exact hv.junkS) (by rw [← lock.sizeR.1]; exact hv.junkR)
  obtain ⟨t, t', _, run⟩ := vco_session F ops hP k1 _ _ start
  rw [aprvProg_congr, averProg_congr] at run
  unfold arithVerifier arithProver
  refine CoPar.bindE (a := [K0, K1]) (b := [M0, M1]) ?_ ?_
  · unfold volePartySendN volePartyRecvN
    refine CoPar.bind (CoPar.one b4) ?_
    have := CoPar.bind c2 (f := fun r => Par.done (some r)) (g := fun r => Par.done r) (CoPar.done _ _)
    rw [Par.bind_done] at this
    exact this
  · have eS : startState v.n v.M [K0, K1] v.ver.junk = some (afterSetup cs (K1.take v.M) v.junkS) := by
      simp only [startState, afterSetup, List.getLast?_cons_cons, List.getLast?_singleton, Option.bind_eq_bind, Option.bind_some, VCfg.limit]
      rw [← lock.sizeS.1, ← lock.sizeS.2]
      rfl
    have eR : startState v.n v.M [M0, M1] v.prv.junk = some (afterSetup cr (M1.take v.M) v.junkR) := by
      simp only [startState, afterSetup, List.getLast?_cons_cons, List.getLast?_singleton, Option.bind_eq_bind, Option.bind_some, VCfg.limit]
      rw [← lock.sizeR.1, ← lock.sizeR.2]
      rfl
    refine CoPar.bind (CoPar.opt eS eR) ?_
    exact CoPar.bindE run (CoPar.done _ _)

/-- C89. The sizes of the library meet the conditions: `1821` base correlations (vole_triple.h:174), the two extensions of the setup and main
extensions from `162966` to `10168320` correlations. -/
theorem C89_sizes (s0 s1 : VStage) (st : Nat → VStage) (h0 : s0.cfg.levels = 4 ∧ s0.cfg.t = 600 ∧ s0.cfg.k = 1220 ∧ s0.off = 0)
    (h1 : s1.cfg.levels = 6 ∧ s1.cfg.t = 2600 ∧ s1.cfg.k = 5060 ∧ s1.off = 0)
    (hm : ∀ r, (st r).cfg.levels = 11 ∧ (st r).cfg.t = 4965 ∧ (st r).cfg.k = 158000) :
    Fits 1821 [s0, s1] ∧ 162966 ≤ s1.cfg.n ∧ 2 * 162966 ≤ 10168320 ∧ ∀ r, (st r).cfg.n = 10168320 ∧ (st r).cfg.M = 162966 := by
  refine ⟨C88_sizes s0 s1 [] h0 h1 (by simp), ?_, by decide, ?_⟩
  · obtain ⟨a, b, c, _⟩ := h1
    simp only [ExtCfg.n, a, b]
    decide
  · intro r
    obtain ⟨a, b, c⟩ := hm r
    constructor
    · simp only [ExtCfg.n, a, b]
    · simp only [ExtCfg.M, b, c]

/-! ### concrete cases -/

/-- The secret 13; extensions from 14 to 32 correlations. -/
def voleRunEx : VoleRun where
  delta := 13
  g0 := fun i j => BitVec.ofNat 64 (i + 3 * j)
  g1 := fun i j => BitVec.ofNat 64 (i * i + j)
  gb0 := fun i _ => BitVec.ofNat 64 (7 * i)
  gb1 := fun i j => BitVec.ofNat 64 (i + j)
  size := 14
  rx := (List.range 15).map fun i => BitVec.ofNat 64 (i + 5)
  rseed := 9
  H := fun x => x * 3
  s0 := stageEx 0
  s1 := stageEx 1
  st := fun r => stageEx (r + 2)
  n := 32
  M := 14
  junkS := List.replicate 32 7
  junkR := List.replicate 32 8
  jS := 1
  jR := 2

theorem voleRunEx_ok : voleRunEx.Ok where
  delta := by decide
  size := by decide
  rx := rfl
  s0 := stageEx_ok 0
  s1 := stageEx_ok 1
  fits := ⟨by decide, by decide, trivial⟩
  last := by decide
  twice := by decide
  main := fun r => ⟨stageEx_ok (r + 2), rfl, rfl⟩
  junkS := rfl
  junkR := rfl

/-- The environment of the example session under the secret 13. -/
def exNetFull : ANetEnv := { exNetA with base := { exEnvA with delta := 13 } }

/-- C89 with three threads: two multiplication checks and two polynomial checks, the value 100 is returned, whatever the schedule. -/
example : ∃ (V : AVer) (P : APrv), V.outs.map fp = [100] ∧ V.accepted = true ∧
    EverySchedule
      (arithVerifier ⟨fun s i => s + BitVec.ofNat 128 i, fun s => s.setWidth 64, fun w => w.setWidth 128 + 1⟩ 2 32 14 voleRunEx.ver exNetFull exProgA)
      (arithProver ⟨fun s i => s + BitVec.ofNat 128 i, fun s => s.setWidth 64, fun w => w.setWidth 128 + 1⟩ 2 32 14 voleRunEx.prv exNetFull exProgA)
      (some V) (some P) := by
  obtain ⟨pl, hpl, hq⟩ := Option.map_eq_some_iff.1 exProgA_plain
  rw [Prod.mk.injEq] at hq
  obtain ⟨V, P, k1, _, _, k4, k5⟩ := C89_whole_proof ⟨fun s i => s + BitVec.ofNat 128 i, fun s => s.setWidth 64, fun w => w.setWidth 128 + 1⟩ 2
    voleRunEx voleRunEx_ok exNetFull (by decide) exNetA_good.pub (by decide) (by decide) (by decide) exProgA exProgA_canon pl hpl
    (Or.inl (by decide))
  exact ⟨V, P, by rw [k1, hq.1], k4 (by rw [hq.2]; simp), k5⟩

/-- C89: forty inputs use more correlations than one extension delivers (18). -/
example : (List.replicate 40 (AOp.input 3)).length > 2 * (voleRunEx.n - voleRunEx.M) ∧ ∀ o ∈ List.replicate 40 (AOp.input 3), o.CanonC := by
  refine ⟨by decide, fun o h => ?_⟩
  rw [List.eq_of_mem_replicate h]
  show Canon 3
  unfold Canon; decide

end EmpZk
