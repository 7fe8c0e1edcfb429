/-
C39 (F_p), C66: one extension, and what a sequence of extensions delivers.
-/
import Verif.Props.VoleTriple
import Verif.Lemmas.Extend
import Verif.Props.Lpn
import Verif.Props.Mpfss

namespace EmpZk

/-! ### C39, over F_p -/

/-- C39. The three uses of the `M` reserved correlations are disjoint index ranges inside the reserved array: trees `[0, t)`, check mask
`t`, LPN secret `[t + 1, M)`. Sender side: the trees are a function of the first range, the check word of trees and mask,
the output of trees and last range. -/
theorem C39_send (c : ExtCfg) (seed : Nat → U128) (mem : Nat → Mem) (digest : Nat → W) (delta : U128) (key key' : Nat → U128)
    (trees : List (List U128)) (xStar : W) :
    ((∀ i, i < c.t → key i = key' i) → extSendTrees c seed mem key = extSendTrees c seed mem key') ∧
    (key c.t = key' c.t → mpfssCheckSend digest c.t delta (key c.t) trees xStar = mpfssCheckSend digest c.t delta (key' c.t) trees xStar) ∧
    ((∀ i, c.t < i → i < c.M → key i = key' i) →
      lpnComputeSend c.prp c.n c.k c.threads trees.flatten ((List.range c.k).map (fun j => key (c.t + 1 + j))) =
      lpnComputeSend c.prp c.n c.k c.threads trees.flatten ((List.range c.k).map (fun j => key' (c.t + 1 + j)))) ∧
    ((∀ i, c.t ≤ i → i < c.M → key i = key' i) → extSend c digest delta key trees xStar = extSend c digest delta key' trees xStar) := by
  have hl : (∀ i, c.t < i → i < c.M → key i = key' i) →
      (List.range c.k).map (fun j => key (c.t + 1 + j)) = (List.range c.k).map (fun j => key' (c.t + 1 + j)) := by
    intro h
    refine List.map_congr_left ?_
    intro j hj
    have := List.mem_range.1 hj
    exact h _ (by omega) (by unfold ExtCfg.M; omega)
  refine ⟨?_, ?_, ?_, ?_⟩
  · intro h
    unfold extSendTrees mpfssSend
    refine mapM_congr' _ _ _ ?_
    intro i hi
    rw [h i (List.mem_range.1 hi)]
  · intro h; rw [h]
  · intro h; rw [hl h]
  · intro h
    unfold extSend
    rw [h c.t (le_refl _) (by unfold ExtCfg.M; omega), hl (fun i h1 h2 => h i (by omega) h2)]

/-- C39, receiver side: the leaves and the noise values are a function of the correlations `[0, t)`, `x_star` and the hashed word of those and
number `t`, the output of those and `(t, M)`; nothing outside the `M` reserved ones is used. -/
theorem C39_recv (c : ExtCfg) (digest : Nat → W) (b : Nat → Nat → Bool) (m : Nat → Nat → U128) (mem : Nat → Mem) (share : Nat → W)
    (mac mac' : Nat → U128) (R : List (List U128)) (h : ∀ i, i < c.t → mac i = mac' i) :
    mpfssRecv c.G0 c.G1 c.levels c.t b m mem share mac = mpfssRecv c.G0 c.G1 c.levels c.t b m mem share mac' ∧
    (mpfssCheckRecv digest c.levels c.t b mac R).map (fun r => r.2.2) = (mpfssCheckRecv digest c.levels c.t b mac' R).map (fun r => r.2.2) ∧
    (mac c.t = mac' c.t → mpfssCheckRecv digest c.levels c.t b mac R = mpfssCheckRecv digest c.levels c.t b mac' R) ∧
    ((∀ i, i < c.M → mac i = mac' i) → extRecv c digest b m mem share mac = extRecv c digest b m mem share mac') ∧
    ((∀ i, i < c.M → i ≠ c.t → mac i = mac' i) →
      (extRecv c digest b m mem share mac).map (fun r => r.2.2) = (extRecv c digest b m mem share mac').map (fun r => r.2.2)) := by
  have h1 : mpfssRecv c.G0 c.G1 c.levels c.t b m mem share mac = mpfssRecv c.G0 c.G1 c.levels c.t b m mem share mac' := by
    unfold mpfssRecv
    refine mapM_congr' _ _ _ ?_
    intro i hi
    rw [h i (List.mem_range.1 hi)]
  have h2 : ∀ R : List (List U128), (List.range c.t).mapM (fun i => do
        let l ← R[i]?
        spfssCheckRecv (mod64 (digest i)) l (getIndex (b i) c.levels) (mac i)) =
      (List.range c.t).mapM (fun i => do
        let l ← R[i]?
        spfssCheckRecv (mod64 (digest i)) l (getIndex (b i) c.levels) (mac' i)) := by
    intro R
    refine mapM_congr' _ _ _ ?_
    intro i hi
    rw [h i (List.mem_range.1 hi)]
  have h3 : ∀ R : List (List U128), (mpfssCheckRecv digest c.levels c.t b mac R).map (fun r => r.2.2) =
      (mpfssCheckRecv digest c.levels c.t b mac' R).map (fun r => r.2.2) := by
    intro R
    unfold mpfssCheckRecv
    simp only [Option.bind_eq_bind] at h2 ⊢
    rw [h2]
    generalize List.mapM (m := Option) _ (List.range c.t) = X
    cases X with
    | none => simp only [Option.bind_none, Option.map_none]
    | some X => simp only [Option.bind_some, Option.map_some]
  have h4 : mac c.t = mac' c.t → ∀ R, mpfssCheckRecv digest c.levels c.t b mac R = mpfssCheckRecv digest c.levels c.t b mac' R := by
    intro ht R
    unfold mpfssCheckRecv
    rw [h2, ht]
    refine bind_congr ?_
    intro Q
    rw [zipWith_congr' (List.range c.t) Q (fun i r => (mac i, r.1)) (fun i r => (mac' i, r.1))
      (fun i hi r => by rw [h i (List.mem_range.1 hi)])]
  have hl : (∀ i, i < c.M → i ≠ c.t → mac i = mac' i) →
      (List.range c.k).map (fun j => mac (c.t + 1 + j)) = (List.range c.k).map (fun j => mac' (c.t + 1 + j)) := by
    intro h
    refine List.map_congr_left ?_
    intro j hj
    have := List.mem_range.1 hj
    exact h _ (by unfold ExtCfg.M; omega) (by omega)
  refine ⟨h1, h3 R, fun ht => h4 ht R, ?_, ?_⟩
  · intro hM
    unfold extRecv
    rw [h1, hl (fun i hi _ => hM i hi)]
    refine bind_congr ?_
    intro Q
    rw [h4 (hM c.t (by unfold ExtCfg.M; omega)) Q]
  · intro hM
    unfold extRecv
    rw [h1, hl hM]
    simp only [Option.bind_eq_bind]
    generalize mpfssRecv c.G0 c.G1 c.levels c.t b m mem share mac' = X
    cases X with
    | none => simp only [Option.bind_none, Option.map_none]
    | some Q =>
      simp only [Option.bind_some]
      have := h3 Q
      generalize mpfssCheckRecv digest c.levels c.t b mac Q = Y at this
      generalize mpfssCheckRecv digest c.levels c.t b mac' Q = Y' at this
      cases Y <;> cases Y' <;> simp only [Option.map_none, Option.map_some, reduceCtorEq, Option.some.injEq] at this
      · simp only [Option.bind_none]
      · simp only [Option.bind_some]
        rw [this]
        generalize lpnComputeRecv c.prp c.n c.k c.threads _ _ = Z
        cases Z with
        | none => simp only [Option.bind_none, Option.map_none]
        | some Z => simp only [Option.bind_some, Option.map_some]

/-- The default parameters: three ranges `[0, 4965)`, `4965`, `[4966, 162966)`. -/
example : (⟨11, 4965, 158000, 4, id, id, fun _ _ => 0⟩ : ExtCfg).M = 4965 + 1 + 158000 := rfl

/-! ### C66 -/

/-- C66. One extension: for all sizes, seeds, noise positions, check coefficients, thread counts, LPN words and `M` valid
correlations, if the receiver gets the chosen OT messages and the sums, then the check of the two parties agrees and both hold
`n` valid correlations. -/
theorem C66_extension (c : ExtCfg) (hl : 0 < c.levels) (hk : 0 < c.k) (hk2 : c.k < 2 ^ 31) (delta : U128) (hd : Canon (low64 delta))
    (key mac : Nat → U128) (h : ∀ i, i < c.M → Auth (low64 delta) (mac i) (key i)) (seed : Nat → U128) (memS memR : Nat → Mem)
    (b : Nat → Nat → Bool) (digest : Nat → W) :
    ∃ S, extSendTrees c seed memS key = some S ∧
      ∀ (m : Nat → Nat → U128) (share : Nat → W),
        (∀ i t, S[i]? = some t → share i = t.2.2 ∧ ∀ j p, t.2.1[j]? = some p → m i j = if b i j then p.2 else p.1) →
        ∃ xStar v K M, extRecv c digest b m memR share mac = some (xStar, v, M) ∧
          extSend c digest delta key (S.map (fun t => t.1)) xStar = some (v, K) ∧
          extSendOut c seed memS key = some K ∧
          K.length = c.n ∧ M.length = c.n ∧ List.Forall₂ (fun k m => Auth (low64 delta) m k) K M := by
  obtain ⟨S, h1, h2⟩ := C31_batch_check c.G0 c.G1 c.levels hl c.t seed memS memR b delta hd key mac
    (fun i hi => h i (by unfold ExtCfg.M; omega)) digest
  refine ⟨S, h1, ?_⟩
  intro m share hms
  obtain ⟨R, xStar, v, R', r1, r2, r3, r4, r5, r6⟩ := h2 m share hms
  obtain ⟨K, M, l1, l2, l3, l4, l5⟩ := C34_correlation c.prp c.n c.k c.threads hk hk2 (low64 delta)
    (ofList (S.map (fun t => t.1)).flatten) (ofList R'.flatten) (fun j => key (c.t + 1 + j)) (fun j => mac (c.t + 1 + j))
    (fun i hi => (r6 i _ _ (ofList_get _ _ (by rw [r5]; exact hi)) (ofList_get _ _ (by rw [r4]; exact hi))).1)
    (fun j hj => h _ (by unfold ExtCfg.M; omega))
  rw [range_map_ofList _ c.n r4] at l1
  rw [range_map_ofList _ c.n r5] at l2
  refine ⟨xStar, v, K, M, ?_, ?_, ?_, l3, l4, ?_⟩
  · unfold extRecv
    simp only [Option.bind_eq_bind]
    rw [r1, Option.bind_some, r2, Option.bind_some]
    simp only
    rw [l2, Option.bind_some]
  · unfold extSend
    simp only [Option.bind_eq_bind]
    rw [r3, Option.bind_some, l1, Option.bind_some]
  · unfold extSendOut extSendTrees
    simp only [Option.bind_eq_bind]
    rw [h1, Option.bind_some]
    exact l1
  · rw [List.forall₂_iff_get]
    refine ⟨by rw [l3, l4], ?_⟩
    intro i hi hi'
    exact (l5 i _ _ (List.getElem?_eq_getElem hi') (List.getElem?_eq_getElem hi)).1

/-- C66. Any sequence of extensions: for all randomness of all rounds, if the setup leaves `M` valid correlations, then in every round
both parties' extensions succeed and their check words agree, and for every sequence of requests everything that is delivered is a
valid correlation. `trees r` are the sender's trees of round `r`; the receiver gets the OT messages it chose and the sums. -/
theorem C66_stream (c : ExtCfg) (hl : 0 < c.levels) (hk : 0 < c.k) (hk2 : c.k < 2 ^ 31) (L : Nat) (hL : c.n = L + c.M) (hML : c.M ≤ L)
    (delta : U128) (hd : Canon (low64 delta)) (rnd : Nat → ExtRound)
    (ps pr ts tr : List U128) (h0 : List.Forall₂ (fun k m => Auth (low64 delta) m k) ps pr) (hps : ps.length = c.M)
    (hts : ts.length = c.n) (htr : tr.length = c.n) (bs br : List (List U128)) (hlen : bs.map List.length = br.map List.length) :
    ∃ cs cr : VCfg U128, cs.n = c.n ∧ cs.M = c.M ∧ cr.n = c.n ∧ cr.M = c.M ∧
      (∀ r, ∃ S xStar v, extSendTrees c (rnd r).seed (rnd r).memS (ofList (seedOf cs.gen L ps r)) = some S ∧
        extRecv c (rnd r).digest (rnd r).b (otMsg S (rnd r).b) (rnd r).memR (otSum S) (ofList (seedOf cr.gen L pr r)) =
          some (xStar, v, batchOf cr.gen L pr r) ∧
        extSend c (rnd r).digest delta (ofList (seedOf cs.gen L ps r)) (S.map (fun t => t.1)) xStar = some (v, batchOf cs.gen L ps r)) ∧
      ∃ s s' outs outs', extendSeq cs (afterSetup cs ps ts) bs = some (s, outs) ∧ extendSeq cr (afterSetup cr pr tr) br = some (s', outs') ∧
        outs.map List.length = bs.map List.length ∧
        List.Forall₂ (fun k m => Auth (low64 delta) m k) outs.flatten outs'.flatten := by
  have hn : ∀ (o : Option (List U128)), (∀ l, o = some l → l.length = c.n) → (o.getD (List.replicate c.n 0)).length = c.n := by
    intro o h
    cases o with
    | none => simp
    | some l => exact h l rfl
  let gs : Nat → List U128 → List U128 := fun r p =>
    (extSendOut c (rnd r).seed (rnd r).memS (ofList p)).getD (List.replicate c.n 0)
  let cs : VCfg U128 := ⟨c.n, c.M, gs⟩
  let tree : Nat → List (List U128 × List (U128 × U128) × W) := fun r =>
    (extSendTrees c (rnd r).seed (rnd r).memS (ofList (seedOf gs L ps r))).getD []
  let gr : Nat → List U128 → List U128 := fun r q =>
    ((extRecv c (rnd r).digest (rnd r).b (otMsg (tree r) (rnd r).b) (rnd r).memR (otSum (tree r)) (ofList q)).map
      (fun x => x.2.2)).getD (List.replicate c.n 0)
  let cr : VCfg U128 := ⟨c.n, c.M, gr⟩
  have hMpos : 0 < c.M := by unfold ExtCfg.M; omega
  have oks : cs.Ok L := ⟨hL, hMpos, hML, fun r p _ => hn _ (fun l h => extSendOut_len _ _ _ _ _ h)⟩
  have okr : cr.Ok L := ⟨hL, hMpos, hML, fun r q _ => hn _ (fun l h => by
    rw [Option.map_eq_some_iff] at h
    obtain ⟨x, hx, rfl⟩ := h
    exact extRecv_len _ _ _ _ _ _ _ _ hx)⟩
  have round : ∀ r q, List.Forall₂ (fun k m => Auth (low64 delta) m k) (seedOf gs L ps r) q →
      ∃ xStar v, extSendTrees c (rnd r).seed (rnd r).memS (ofList (seedOf gs L ps r)) = some (tree r) ∧
        extRecv c (rnd r).digest (rnd r).b (otMsg (tree r) (rnd r).b) (rnd r).memR (otSum (tree r)) (ofList q) = some (xStar, v, gr r q) ∧
        extSend c (rnd r).digest delta (ofList (seedOf gs L ps r)) ((tree r).map (fun t => t.1)) xStar = some (v, gs r (seedOf gs L ps r)) ∧
        List.Forall₂ (fun k m => Auth (low64 delta) m k) (gs r (seedOf gs L ps r)) (gr r q) := by
    intro r q hq
    have hlq := hq.length_eq
    have hls : (seedOf gs L ps r).length = c.M := seed_len oks ps hps r
    obtain ⟨S, a1, a2⟩ := C66_extension c hl hk hk2 delta hd (ofList (seedOf gs L ps r)) (ofList q) (by
      intro i hi
      have := (List.forall₂_iff_get.1 hq).2 i (by omega) (by omega)
      simpa [ofList, List.getD, hls, ← hlq, hi] using this) (rnd r).seed (rnd r).memS (rnd r).memR (rnd r).b (rnd r).digest
    have ht : tree r = S := by show Option.getD _ _ = S; rw [a1]; rfl
    obtain ⟨xStar, v, K, M, b1, b2, b3, b4, b5, b6⟩ := a2 (otMsg S (rnd r).b) (otSum S) (by
      intro i t hi
      refine ⟨by simp [otSum, hi], ?_⟩
      intro j p hj
      simp [otMsg, hi, hj])
    have hgs : gs r (seedOf gs L ps r) = K := by show Option.getD _ _ = K; rw [b3]; rfl
    have hgr : gr r q = M := by show Option.getD _ _ = M; rw [ht, b1]; rfl
    refine ⟨xStar, v, by rw [ht]; exact a1, by rw [ht, hgr]; exact b1, by rw [ht, hgs]; exact b2, by rw [hgs, hgr]; exact b6⟩
  have hseed : ∀ r, List.Forall₂ (fun k m => Auth (low64 delta) m k) (seedOf gs L ps r) (seedOf gr L pr r) := by
    intro r
    induction r with
    | zero => exact h0
    | succ r ih =>
      obtain ⟨_, _, _, _, _, h⟩ := round r _ ih
      exact List.forall₂_drop L h
  refine ⟨cs, cr, rfl, rfl, rfl, rfl, ?_, ?_⟩
  · intro r
    obtain ⟨xStar, v, h1, h2, h3, _⟩ := round r _ (hseed r)
    exact ⟨tree r, xStar, v, h1, h2, h3⟩
  · obtain ⟨s, s', outs, outs', e1, e2, e3⟩ := C36_aligned (fun k m => Auth (low64 delta) m k) oks okr rfl ps pr ts tr
      (fun r q hq => (round r q hq).choose_spec.choose_spec.2.2.2) h0 hps hts htr bs br hlen
    obtain ⟨s2, outs2, f1, f2, _⟩ := C36_stream oks ps ts hps hts bs
    rw [e1] at f1
    simp only [Option.some.injEq, Prod.mk.injEq] at f1
    obtain ⟨_, rfl⟩ := f1
    exact ⟨s, s', outs, outs', e1, e2, f2, e3⟩

/-- C66. The setup: from the base correlations (C26), an extension with parameters `c0` and one with `c1` leave `M` valid correlations
for the main extension `c`, provided the sizes fit; the extensions read only correlations made before. -/
theorem C66_setup (c0 c1 c : ExtCfg) (hl0 : 0 < c0.levels) (hl1 : 0 < c1.levels) (hk0 : 0 < c0.k) (hk1 : 0 < c1.k)
    (hk0' : c0.k < 2 ^ 31) (hk1' : c1.k < 2 ^ 31) (h01 : c1.M ≤ c0.n) (h1 : c.M ≤ c1.n)
    (delta : U128) (hd : Canon (low64 delta)) (key mac : Nat → U128) (h : ∀ i, i < c0.M → Auth (low64 delta) (mac i) (key i))
    (r0 r1 : ExtRound) :
    ∃ S0 x0 v0 K0 M0 S1 x1 v1 K1 M1,
      extSendTrees c0 r0.seed r0.memS key = some S0 ∧
      extRecv c0 r0.digest r0.b (otMsg S0 r0.b) r0.memR (otSum S0) mac = some (x0, v0, M0) ∧
      extSend c0 r0.digest delta key (S0.map (fun t => t.1)) x0 = some (v0, K0) ∧
      extSendTrees c1 r1.seed r1.memS (ofList K0) = some S1 ∧
      extRecv c1 r1.digest r1.b (otMsg S1 r1.b) r1.memR (otSum S1) (ofList M0) = some (x1, v1, M1) ∧
      extSend c1 r1.digest delta (ofList K0) (S1.map (fun t => t.1)) x1 = some (v1, K1) ∧
      c.M ≤ K1.length ∧ c.M ≤ M1.length ∧
      List.Forall₂ (fun k m => Auth (low64 delta) m k) (K1.take c.M) (M1.take c.M) := by
  have hdel : ∀ (S : List (List U128 × List (U128 × U128) × W)) (b : Nat → Nat → Bool) i t, S[i]? = some t →
      otSum S i = t.2.2 ∧ ∀ j p, t.2.1[j]? = some p → otMsg S b i j = if b i j then p.2 else p.1 := by
    intro S b i t hi
    refine ⟨by simp [otSum, hi], ?_⟩
    intro j p hj
    simp [otMsg, hi, hj]
  obtain ⟨S0, a1, a2⟩ := C66_extension c0 hl0 hk0 hk0' delta hd key mac h r0.seed r0.memS r0.memR r0.b r0.digest
  obtain ⟨x0, v0, K0, M0, a3, a4, _, a5, a6, a7⟩ := a2 _ _ (hdel S0 r0.b)
  obtain ⟨S1, b1, b2⟩ := C66_extension c1 hl1 hk1 hk1' delta hd (ofList K0) (ofList M0) (by
    intro i hi
    have := (List.forall₂_iff_get.1 a7).2 i (by omega) (by omega)
    have e1 : i < K0.length := by omega
    have e2 : i < M0.length := by omega
    simpa [ofList, List.getD, e1, e2] using this) r1.seed r1.memS r1.memR r1.b r1.digest
  obtain ⟨x1, v1, K1, M1, b3, b4, _, b5, b6, b7⟩ := b2 _ _ (hdel S1 r1.b)
  exact ⟨S0, x0, v0, K0, M0, S1, x1, v1, K1, M1, a1, a3, a4, b1, b3, b4, by omega, by omega, List.forall₂_take c.M b7⟩

/-- The default parameters fit: `n_pre0 = 9600 ≥ 7661`, `n_pre = 166400 ≥ 162966`. -/
example : let c0 : ExtCfg := ⟨4, 600, 1220, 4, id, id, fun _ _ => 0⟩
    let c1 : ExtCfg := ⟨6, 2600, 5060, 4, id, id, fun _ _ => 0⟩
    let c : ExtCfg := ⟨11, 4965, 158000, 4, id, id, fun _ _ => 0⟩
    c1.M ≤ c0.n ∧ c.M ≤ c1.n := by decide +kernel

/-- A small parameter set that meets the size conditions: eight trees of two leaves, five reserved for LPN. -/
example : let c : ExtCfg := ⟨2, 8, 5, 2, id, id, fun _ _ => 0⟩
    0 < c.levels ∧ 0 < c.k ∧ c.n = 18 + c.M ∧ c.M ≤ 18 := by decide

/-- The default parameters meet them. -/
example : let c : ExtCfg := ⟨11, 4965, 158000, 4, id, id, fun _ _ => 0⟩
    c.n = 10005354 + c.M ∧ c.M ≤ 10005354 ∧ c.k < 2 ^ 31 := by decide +kernel

end EmpZk
