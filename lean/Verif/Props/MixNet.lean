/-
C96: a session that mixes boolean gates with products over F_{2^128} (as the memories do), over the byte channel, under every
interleaving of the two parties.
-/
import Verif.Lemmas.MixMem
import Verif.Props.BoolNet

namespace EmpZk

section
variable {F : Type} [Field F] [BlockField F] [DecidableEq F]

/-- What holds in a configuration `c` of the two parties of a mixed session: no undefined behaviour, nobody stops, no deadlock, the schedule
can be carried on to the end; and at the end both have the plain outputs and challenges, no check failed, the verifier holds the keys of the
prover's blocks, and nothing is left in the channel. -/
def MixFine (S : Nat) (me : MixEnv F) (pre : List BOp) (ops : List MOp) (post : List BOp) (c : PNet (MPrv F) (MVer F)) : Prop :=
  stepQ S c ≠ .ub ∧ (c.p ≠ .fail ∧ c.p ≠ .stop) ∧ (c.q ≠ .fail ∧ c.q ≠ .stop) ∧
  (∀ P V, c.p = .done P → c.q = .done V →
    (∃ ch mp, mplainRun ch pre ops post = some mp ∧ P.b.outs = mp.bp.outs ∧ V.b.outs = mp.bp.outs ∧ V.b.cheats = [] ∧ V.warns = 0 ∧
      P.fw.map Prod.fst = mp.fs ∧ V.fw = P.fw.map (keyF me.ne.e.delta) ∧ P.rs = mp.rs ∧ V.rs = mp.rs) ∧ c.toR = [] ∧ c.toS = []) ∧
  (((∃ P, c.p = .done P) ∧ ∃ V, c.q = .done V) ∨ (∃ c', stepP S c = some c') ∨ ∃ c', stepQ S c = .ok c') ∧
  ∃ c' P V, PReach S c c' ∧ c'.p = .done P ∧ c'.q = .done V

/-- C96. Every configuration that any interleaving of the two parties can reach is fine. -/
theorem C96_session (me : MixEnv F) (hg : me.Good) (ht : 0 < me.ne.e.threads) (htc : me.ne.e.threads ≤ me.ne.e.checkSz)
    (hts : me.ne.e.threads ≤ me.sz) (hp : 0 < me.ne.e.polySz) {S : Nat} (hS : 0 < S) (pre : List BOp) (ops : List MOp) (post : List BOp)
    (hrun : ∀ ch : Nat → F, ∃ mp, mplainRun ch pre ops post = some mp ∧ ∀ b ∈ mp.bp.claims, b = false)
    (ha : lastBatch (mixAnds pre ops post) me.ne.e.checkSz = 0 ∨ me.ne.e.threads ≤ lastBatch (mixAnds pre ops post) me.ne.e.checkSz)
    (hm : lastBatch (mixMuls ops) me.sz = 0 ∨ me.ne.e.threads ≤ lastBatch (mixMuls ops) me.sz)
    (junk : List Byte) {c : PNet (MPrv F) (MVer F)}
    (hc : PReach S (pnetInit S junk (mixProver me pre ops post) (mixVerifier me pre ops post)) c) : MixFine S me pre ops post c :=
  lock_network hS (lock_mix hg ⟨hg.ne, ht, htc, hp⟩ hts hrun ha hm) junk hc

/-- C96. The set-equality check of a memory on committed blocks: if the blocks `as` and `bs` hold the same values up to order, the check goes
through for every challenge and under every interleaving, and nobody stops. It adds twice `(step - 1) % 4` products of two blocks. -/
theorem C96_memory (me : MixEnv F) (hg : me.Good) (ht : 0 < me.ne.e.threads) (htc : me.ne.e.threads ≤ me.ne.e.checkSz)
    (hts : me.ne.e.threads ≤ me.sz) (hp : 0 < me.ne.e.polySz) {S : Nat} (hS : 0 < S) (pre : List BOp) (ops : List MOp) (post : List BOp)
    {n k step : Nat} {as bs : List Nat} (hsa : as.length = step) (hsb : bs.length = step) (h3 : 3 ≤ step) (h64 : step < 2 ^ 64)
    {b0 : Plain} (hpre : plainRun pre = some b0)
    (h0 : ∀ ch : Nat → F, ∃ s us vs b2, mplainOps ch ⟨b0, [], []⟩ ops = some s ∧ s.fs.length = n ∧ s.rs.length = k ∧
      pick s.fs as = some us ∧ pick s.fs bs = some vs ∧ us.Perm vs ∧ post.foldlM plainStep s.bp = some b2 ∧ ∀ b ∈ b2.claims, b = false)
    (ha : lastBatch (mixAnds pre ops post) me.ne.e.checkSz = 0 ∨ me.ne.e.threads ≤ lastBatch (mixAnds pre ops post) me.ne.e.checkSz)
    (hm : lastBatch (mixMuls ops + 2 * ((step - 1) % 4)) me.sz = 0 ∨ me.ne.e.threads ≤ lastBatch (mixMuls ops + 2 * ((step - 1) % 4)) me.sz) :
    ∃ chk, setEqOps n k step as bs = some chk ∧ mixMuls chk = 2 * ((step - 1) % 4) ∧
      ∀ junk (c : PNet (MPrv F) (MVer F)),
        PReach S (pnetInit S junk (mixProver me pre (ops ++ chk) post) (mixVerifier me pre (ops ++ chk) post)) c →
        MixFine S me pre (ops ++ chk) post c := by
  obtain ⟨chk, hchk⟩ : ∃ chk, setEqOps n k step as bs = some chk := by
    obtain ⟨s, us, vs, b2, k1, rfl, rfl, k4, k5, k6, k7, k8⟩ := h0 (fun _ => 0)
    obtain ⟨o, _, h, _⟩ := mplain_setEq (fun _ => 0) k4 k5 hsa hsb h3 h64
    exact ⟨o, h⟩
  obtain ⟨c1, c2⟩ := setEqOps_counts hsa hsb h3 h64 hchk
  have e1 : mixMuls (ops ++ chk) = mixMuls ops + 2 * ((step - 1) % 4) := by
    rw [mixMuls, List.countP_append, ← c1]; rfl
  have e2 : mixAnds pre (ops ++ chk) post = mixAnds pre ops post := by
    rw [mixAnds, List.countP_append, c2]; rfl
  refine ⟨chk, hchk, c1, fun junk c hc => C96_session me hg ht htc hts hp hS pre (ops ++ chk) post ?_ (by rw [e2]; exact ha) (by rw [e1]; exact hm)
    junk hc⟩
  intro ch
  obtain ⟨s, us, vs, b2, k1, rfl, rfl, k4, k5, k6, k7, k8⟩ := h0 ch
  obtain ⟨o, t, h, ho⟩ := mplain_setEq ch k4 k5 hsa hsb h3 h64
  rw [hchk, Option.some.injEq] at h
  subst h
  rw [if_pos (prodAt_perm _ k6)] at ho
  exact ⟨_, by simp only [mplainRun, hpre, mplainOps_append, k1, ho, k7, Option.bind_eq_bind, Option.bind_some]; rfl, k8⟩

/-- C96. If the values differ as multisets, the plain check stops for all but at most `step` challenges. -/
theorem C96_differs [Fintype F] {s : MPlain F} {as bs : List Nat} {us vs : List F} {step : Nat}
    (ha : pick s.fs as = some us) (hb : pick s.fs bs = some vs) (hsa : as.length = step) (hsb : bs.length = step) (h3 : 3 ≤ step)
    (h64 : step < 2 ^ 64) (hne : ¬ us.Perm vs) :
    ∃ chk, setEqOps s.fs.length s.rs.length step as bs = some chk ∧
      (Finset.univ.filter (fun r : F => (mplainOps (fun _ => r) s chk).isSome)).card ≤ step := by
  obtain ⟨chk, _, h, _⟩ := mplain_setEq (fun _ => 0) ha hb hsa hsb h3 h64
  refine ⟨chk, h, ?_⟩
  have hul : us.length = step := by rw [pick_length ha, hsa]
  have hvl : vs.length = step := by rw [pick_length hb, hsb]
  refine Nat.le_trans (Finset.card_le_card ?_) (Nat.le_trans (card_prodAt_le us vs (by omega) hne) (by omega))
  intro r hr
  rw [Finset.mem_filter] at hr ⊢
  refine ⟨Finset.mem_univ _, ?_⟩
  obtain ⟨chk', t, h', ho⟩ := mplain_setEq (fun _ => r) ha hb hsa hsb h3 h64
  rw [h, Option.some.injEq] at h'
  subst h'
  by_contra hc
  rw [if_neg hc] at ho
  rw [ho] at hr
  simp at hr

end

/-! ### a concrete session -/

/-- `exNet` with buffers for two products over F_{2^128} and two larger products. -/
noncomputable def exMix : MixEnv GF128 where
  ne := exNet
  sz := 2
  cap := 2
  auth := fun k => [(gX, 1), (1, gX), (⟨BitVec.ofNat 128 k⟩, 1)]
  keys := fun k => [(gX, 1), (1, gX), (⟨BitVec.ofNat 128 k⟩, 1)].map (keyF exEnv.delta)
  svP := fun k => if k = 1 then [.data [9#8]] else [.back 2]
  svV := fun k => if k = 1 then [.data 1] else [.back [7#8, 8#8]]
  svN := fun k => k
  blk := fun d => ⟨BitVec.ofNat 128 (leVal (d.take 16))⟩
  prg := fun s i => s * gX ^ i + 1
  lo := fun v => (List.range 64).map (fun i => v.bits.getLsbD i) ++ [false]
  hi := fun v => (List.range 64).map (fun i => v.bits.getLsbD (64 + i)) ++ [false]

theorem exMix_good : exMix.Good where
  ne := exNet_good
  sz := by decide
  cap := by decide
  keys := fun _ => rfl
  room := fun k => by show 2 ≤ 3; decide
  sv := by
    intro k
    show List.Forall₂ Mirror (if k = 1 then [.data [9#8]] else [.back 2]) (if k = 1 then [.data 1] else [.back [7#8, 8#8]])
    split
    · exact .cons ⟨rfl, by decide⟩ .nil
    · exact .cons ⟨rfl, by decide⟩ .nil
  lo := by intro v; show (List.map _ (List.range 64) ++ [false]).length = 65; simp
  hi := by intro v; show (List.map _ (List.range 64) ++ [false]).length = 65; simp
  split := by
    intro v
    have e : ((exMix.lo v).take 64 ++ (exMix.hi v).take 64) = (List.range 128).map (fun i => v.bits.getLsbD i) := by
      show (List.map _ (List.range 64) ++ [false]).take 64 ++ (List.map _ (List.range 64) ++ [false]).take 64 = _
      rw [List.take_left' (by simp), List.take_left' (by simp)]
      rw [show List.range 128 = List.range 64 ++ (List.range 64).map (64 + ·) from List.range_add (n := 64) (m := 64), List.map_append,
        List.map_map]
      rfl
    rw [e, packList_eq, List.map_map, innFrom_map]
    have := Fin.sum_univ_eq_sum_range (fun i => (bit (v.bits.getLsbD i) : GF128) * gX ^ i) 128
    simp only [Nat.zero_add, Function.comp_apply]
    rw [← this]
    exact GF128.pack_bits v

/-- Six words packed from three wires. -/
def exPacks : List MOp := [.pack [0, 1], .pack [1], .bool (.and 0 2), .pack [0, 0, 1], .pack [2, 0], .pack [3, 1, 0], .pack []]

/-- The hypotheses of C96 are met: six words and the same words in another order, one product of five and one of two on each side; after
some schedule both have finished, the output is `true` and the verifier noticed nothing. -/
example : ∃ chk, setEqOps 6 0 6 [0, 1, 2, 3, 4, 5] [4, 5, 2, 0, 1, 3] = some chk ∧ mixMuls chk = 2 ∧
    ∃ c' P V, PReach 32768 (pnetInit 32768 [] (mixProver exMix [.input true, .input false, .not 1] (exPacks ++ chk) [.reveal 0])
      (mixVerifier exMix [.input true, .input false, .not 1] (exPacks ++ chk) [.reveal 0])) c' ∧
      c'.p = .done P ∧ c'.q = .done V ∧ V.b.cheats = [] ∧ V.warns = 0 ∧ V.fw = P.fw.map (keyF exEnv.delta) := by
  obtain ⟨chk, h1, h2, h3⟩ := C96_memory exMix exMix_good (by decide) (by decide) (by decide) (by decide) (S := 32768) (by decide)
    [.input true, .input false, .not 1] exPacks [.reveal 0] (n := 6) (k := 0) (step := 6) (as := [0, 1, 2, 3, 4, 5]) (bs := [4, 5, 2, 0, 1, 3])
    rfl rfl (by decide) (by decide) (b0 := ⟨[true, false, true], [], []⟩) (by decide)
    (by
      intro ch
      refine ⟨⟨⟨[true, false, true, true], [], []⟩, [packList [true, false], packList [false], packList [true, true, false], packList [true, true],
        packList [true, false, true], packList []], []⟩, _, _, ⟨[true, false, true, true], [true], []⟩, rfl, rfl, rfl, rfl, rfl, ?_, rfl, by simp⟩
      have hp : ([0, 1, 2, 3, 4, 5] : List Nat).Perm [4, 5, 2, 0, 1, 3] := by decide
      exact hp.filterMap (fun i => ([packList [true, false], packList [false], packList [true, true, false], packList [true, true],
        packList [true, false, true], packList []] : List GF128)[i]?))
    (Or.inr (by decide)) (Or.inr (by decide))
  refine ⟨chk, h1, h2, ?_⟩
  obtain ⟨_, _, _, _, _, c', P, V, k1, k2, k3⟩ := h3 [] _ .init
  obtain ⟨_, _, _, k4, _⟩ := h3 [] c' k1
  obtain ⟨⟨ch, mp, _, _, _, k5, k6, _, k7, _⟩, _⟩ := k4 P V k2 k3
  exact ⟨c', P, V, k1, k2, k3, k5, k6, k7⟩

/-- C96_differs: three words against three others. -/
example : ¬ ([1, 1, gX] : List GF128).Perm [1, gX, gX] := by
  intro h
  have := h.count_eq gX
  have h1 : (1 : GF128) ≠ gX := by
    intro h; have := congrArg lsb h; rw [lsb_one, lsb_gX] at this; cases this
  simp [h1] at this

end EmpZk
