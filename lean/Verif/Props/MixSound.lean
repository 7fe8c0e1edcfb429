/-
C103: knowledge soundness of a session that mixes boolean gates with products over F_{2^128}, against any prover on the network.
-/
import Verif.Lemmas.MixSize
import Verif.Props.BoolProtocol
import Verif.Props.F2kGate
import Verif.Props.MixNet

namespace EmpZk

section
variable {F : Type} [Field F] [BlockField F] [DecidableEq F]

/-- The verifier with secret `d` (lowest bit set) can finish against the program `p` with state `V`, and complains of nothing: no cheating
recorded, no warning printed. -/
def MixAccepts {α : Type} (S : Nat) (junk : List Byte) (p : SProg α) (me : MixEnv F) (v : BView F) (pre : List BOp) (ops : List MOp)
    (post : List BOp) (d : F) (V : MVer F) : Prop :=
  lsb d = true ∧ (∃ c, PReach S (pnetInit S junk p (mixVerifier (me.at v d) pre ops post)) c ∧ c.q = .done V) ∧ V.b.cheats = [] ∧ V.warns = 0

/-- The messages of `p` commit it to `C`, with `dg` the digest received at the end. -/
def MixCommitted {α : Type} (S : Nat) (junk : List Byte) (p : SProg α) (me : MixEnv F) (v : BView F) (pre : List BOp) (ops : List MOp)
    (post : List BOp) (C : MCom F) (dg : F) : Prop :=
  ∃ c, PReach S (pnetInit S junk p (mixCommit me v pre ops post)) c ∧ c.q = .done (C, dg)

/-- The challenges of the session are not among the few bad ones: a combination of errors is zero only if there is no error among what is
combined (counted in C09, C23, C45, C48); and the splits cover the batches (C10). -/
structure MixSeeds (v : BView F) (C : MCom F) : Prop where
  ands : ∀ r ∈ C.b.andLog, ∀ tasks, splitTasks r.gates.length v.threads = some tasks →
    errSum r.gates r.seeds tasks 0 = 0 → ∀ t ∈ tasks, ∀ g ∈ taskSlice r.gates t, g.Correct
  andCover : ∀ r ∈ C.b.andLog, r.gates.length % v.threads < r.gates.length / v.threads
  polys : ∀ r ∈ C.b.polyLog, chiSum r.seed (r.polys.map (fun s => (bit (s.map lsb).eval : F))) = 0 → ∀ s ∈ r.polys, (s.map lsb).eval = false
  muls : ∀ r ∈ C.muls, ∀ tasks, splitTasks r.gates.length v.threads = some tasks →
    taskSumF mulErrF r.gates r.seeds tasks 0 = 0 → ∀ t ∈ tasks, ∀ g ∈ taskSlice r.gates t, MulOk g
  mulCover : ∀ r ∈ C.muls, r.gates.length % v.threads < r.gates.length / v.threads
  prds : ∀ r ∈ C.prds, chiSum r.seed (r.gates.map polyErr) = 0 → ∀ g ∈ r.gates, g.Ok

variable {α : Type} {S : Nat} {junk : List Byte} {p : SProg α} {me : MixEnv F} {v : BView F} {pre : List BOp} {ops : List MOp} {post : List BOp}

/-- C103. Whatever program the prover runs and whatever the schedule: if the verifier returns, the messages commit the prover to exactly one
list of bits and blocks, which depends neither on the schedule nor on the verifier's secret; the keys and the outputs the verifier holds are
those of the committed values. -/
theorem C103_committed (hroom : ∀ k, me.sz ≤ (me.auth k).length) (hsz : 0 < me.sz) :
    ∀ (d : F) (V : MVer F) (c : PNet α (MVer F)), lsb d = true → PReach S (pnetInit S junk p (mixVerifier (me.at v d) pre ops post)) c →
      c.q = .done V → ∃ C dg, MixCommitted S junk p me v pre ops post C dg ∧
        (∀ C' dg', MixCommitted S junk p me v pre ops post C' dg' → C' = C ∧ dg' = dg) ∧
        V.fw = C.fw.map (keyF d) ∧ V.b.wires = C.b.wires.map (keyOf d) ∧ V.b.outs = C.b.opened.map Prod.snd ∧ V.rs = C.rs := by
  intro d V c hd hc hq
  obtain ⟨q1, k1, k2⟩ := follows_reach (mix_follows (v := v) hd hroom hsz pre ops post) hc
  rw [hq] at k2
  cases k2 with
  | @done _ b hR =>
    obtain ⟨C, dg⟩ := b
    obtain ⟨⟨ch, hb, _⟩, hM⟩ := hR
    refine ⟨C, dg, ⟨_, k1, rfl⟩, ?_, hM.fw, by rw [hb]; rfl, by rw [hb]; rfl, hM.rs⟩
    rintro C' dg' ⟨c', h1, h2⟩
    have := preach_result h1 h2 k1 rfl
    simpa using this

/-- What acceptance with secret `d` says about the committed values. -/
def MixFacts (v : BView F) (d : F) (V : MVer F) (C : MCom F) (dg : F) : Prop :=
  (∃ ch, V.b = verImg d C.b ch) ∧ (∀ x ∈ V.b.andLog, AndOK (v.env d) x) ∧ (∀ x ∈ V.b.polyLog, PolyOK (v.env d) x) ∧ dg = v.hash V.b.digest ∧
    V.rs = C.rs ∧ V.fw = C.fw.map (keyF d) ∧ (∀ r ∈ C.muls, MulHolds v d r) ∧ (∀ r ∈ C.prds, PrdHolds d r) ∧
    ∀ e ∈ C.eqs, setEqVer (keyF d e.1) (keyF d e.2.1) e.2.2.1 e.2.2.2 = true

/-- What acceptance says about the committed values. -/
theorem mixAccepts_facts (hroom : ∀ k, me.sz ≤ (me.auth k).length) (hsz : 0 < me.sz) {C : MCom F} {dg : F}
    (hC : MixCommitted S junk p me v pre ops post C dg) {d : F} {V : MVer F} (h : MixAccepts S junk p me v pre ops post d V) :
    MixFacts v d V C dg := by
  obtain ⟨hd, ⟨c, hc, hq⟩, h1, h2⟩ := h
  obtain ⟨q1, k1, k2⟩ := follows_reach (mix_follows (v := v) hd hroom hsz pre ops post) hc
  rw [hq] at k2
  cases k2 with
  | @done _ b hR =>
    obtain ⟨c', j1, j2⟩ := hC
    have := preach_result j1 j2 k1 rfl
    subst this
    obtain ⟨⟨ch, hb, ha⟩, hM⟩ := hR
    obtain ⟨a1, a2, a3⟩ := ha h1
    exact ⟨⟨ch, hb⟩, a1, a2, a3, hM.rs, hM.fw, hM.muls h2, hM.prds, hM.eqs⟩

/-- If the verifier accepts for six secrets, what it has checked holds of the committed values: gates, openings, products, comparisons and
statements are right. -/
theorem mix_faith {C : MCom F} {dg : F} (hg0 : C.b.gates = []) (hp0 : C.b.polys = []) (h55 : ∀ p ∈ C.prds, ∀ g ∈ p.gates, g.ins.length = 5)
    (hs : MixSeeds v C) {A : F → MVer F → Prop} (hfacts : ∀ d V, A d V → MixFacts v d V C dg) (D : Finset F) (hD6 : 6 ≤ D.card)
    (hD : ∀ d ∈ D, ∃ V, A d V)
    (hhash : ∀ d1 ∈ D, ∀ d2 ∈ D, ∀ V1 V2, A d1 V1 → A d2 V2 → v.hash V1.b.digest = v.hash V2.b.digest → V1.b.digest = V2.b.digest) :
    Faithful C.b ∧ (∀ p ∈ C.muls, ∀ g ∈ p.gates, MulOk g) ∧ (∀ p ∈ C.prds, ∀ g ∈ p.gates, g.Ok) ∧ (∀ e ∈ C.eqs, e.1.1 = e.2.1.1) ∧
      ∀ s ∈ C.b.stmts, (s.map lsb).eval = false := by
  have hand : ∀ g ∈ C.b.allGates, g.Correct := by
    intro g hg
    rw [ComSt.allGates, show C.b.gates = [] from hg0, List.append_nil, List.mem_flatMap] at hg
    obtain ⟨r, hr, hgr⟩ := hg
    have hcov := hs.andCover r hr
    have hth : 0 < v.threads := by
      rcases Nat.eq_zero_or_pos v.threads with h0 | h0
      · rw [h0] at hcov; simp at hcov
      · exact h0
    have htl : v.threads ≤ r.gates.length := by
      by_contra hcon
      rw [Nat.div_eq_of_lt (by omega)] at hcov
      omega
    obtain ⟨tasks, hts⟩ := Option.isSome_iff_exists.1 ((splitTasks_isSome r.gates.length v.threads).2 ⟨hth, htl⟩)
    have hz : errSum r.gates r.seeds tasks 0 = 0 := by
      by_contra hne
      have := delta_le_two r.gates v.threads r.seeds (fun i => v.mac (r.ope + i)) r.ans tasks hts hne D (by
        intro d hd
        obtain ⟨V, hV⟩ := hD d hd
        obtain ⟨⟨ch, hb⟩, ha, _⟩ := hfacts d V hV
        refine ha ⟨r.gates.map (Gate.key d), r.seeds, r.ope, r.ans⟩ ?_
        rw [hb]
        simp only [verImg, List.mem_map]
        exact ⟨r, hr, rfl⟩)
      omega
    obtain ⟨i, hi⟩ := List.mem_iff_getElem?.1 hgr
    have hil : i < r.gates.length := by
      rcases Nat.lt_or_ge i r.gates.length with h | h
      · exact h
      · rw [List.getElem?_eq_none h] at hi; simp at hi
    obtain ⟨t, ht, hlo, hhi⟩ := (splitTasks_covers hts i).2 (by rw [(covered_eq_iff hth htl).2 hcov]; exact hil)
    exact hs.ands r hr tasks hts hz t ht g (taskSlice_mem hlo hhi hi)
  have hmul : ∀ r ∈ C.muls, ∀ g ∈ r.gates, MulOk g := by
    intro r hr g hgr
    have hcov := hs.mulCover r hr
    have hth : 0 < v.threads := by
      rcases Nat.eq_zero_or_pos v.threads with h0 | h0
      · rw [h0] at hcov; simp at hcov
      · exact h0
    have htl : v.threads ≤ r.gates.length := by
      by_contra hcon
      rw [Nat.div_eq_of_lt (by omega)] at hcov
      omega
    obtain ⟨tasks, hts⟩ := Option.isSome_iff_exists.1 ((splitTasks_isSome r.gates.length v.threads).2 ⟨hth, htl⟩)
    have hz : taskSumF mulErrF r.gates r.seeds tasks 0 = 0 := by
      by_contra hne
      have := card_quad_le (taskSumF mulErrF r.gates r.seeds tasks 0)
        ((packLsbs (fun i => v.mac (r.ope + i)) + taskSumF (fun g => (fgatePrv g).2) r.gates r.seeds tasks 0) - r.ans.2)
        ((packBlocks (fun i => v.mac (r.ope + i)) + taskSumF (fun g => (fgatePrv g).1) r.gates r.seeds tasks 0) - r.ans.1) hne D (by
        intro d hd
        obtain ⟨V, hV⟩ := hD d hd
        obtain ⟨_, _, _, _, _, _, hm, _⟩ := hfacts d V hV
        have := hm r hr
        unfold MulHolds at this
        rw [f2kCheckVer_key d r.gates r.seeds (fun i => v.mac (r.ope + i)) r.ans hts, Option.some.injEq, decide_eq_true_eq] at this
        linear_combination (-1 : F) * this)
      omega
    obtain ⟨i, hi⟩ := List.mem_iff_getElem?.1 hgr
    have hil : i < r.gates.length := by
      rcases Nat.lt_or_ge i r.gates.length with h | h
      · exact h
      · rw [List.getElem?_eq_none h] at hi; simp at hi
    obtain ⟨t, ht, hlo, hhi⟩ := (splitTasks_covers hts i).2 (by rw [(covered_eq_iff hth htl).2 hcov]; exact hil)
    exact hs.muls r hr tasks hts hz t ht g (taskSlice_mem hlo hhi hi)
  have hprd : ∀ r ∈ C.prds, ∀ g ∈ r.gates, g.Ok := by
    intro r hr
    have h5r := h55 r hr
    have hpoly : ∀ g ∈ r.gates, g.Poly := fun g hg => Or.inr (Or.inr (h5r g hg))
    have e5 : r.gates.map (polyErrAt 5) = r.gates.map polyErr := List.map_congr_left (fun g hg => by rw [polyErrAt, if_pos (h5r g hg)])
    refine hs.prds r hr ?_
    by_contra hne
    rw [← e5] at hne
    obtain ⟨es0, he0, _, _⟩ := polys_key (0 : F) r.gates hpoly
    have := card_quint_le ((polyBatchPrv r.seed es0).b0 + r.ans.b0) ((polyBatchPrv r.seed es0).b1 + r.ans.b1)
      ((polyBatchPrv r.seed es0).b2 + r.ans.b2)
      ((polyBatchPrv r.seed es0).b3 + r.ans.b3 + chiSum r.seed (r.gates.map (polyErrAt 3)))
      ((polyBatchPrv r.seed es0).b4 + r.ans.b4 + chiSum r.seed (r.gates.map (polyErrAt 4)))
      (chiSum r.seed (r.gates.map (polyErrAt 5))) hne D (by
        intro d hd
        obtain ⟨V, hV⟩ := hD d hd
        obtain ⟨_, _, _, _, _, _, _, hp, _⟩ := hfacts d V hV
        obtain ⟨Bs, hBs, hv⟩ := hp r hr
        obtain ⟨es, he, hl, hk⟩ := polys_key d r.gates hpoly
        rw [he0, Option.some.injEq] at he
        subst he
        rw [List.mapM_map] at hk
        have hk' : prdKeys d r.gates = _ := hk
        rw [hBs, Option.some.injEq] at hk'
        subst hk'
        rw [polyBatchVer_iff d r.seed r.gates hpoly es0 hl] at hv
        have hd0 := addSelf (entAt d r.ans)
        simp only [entAt] at hv hd0
        linear_combination hv + hd0)
    omega
  have hclaims : ∀ s ∈ C.b.stmts, (s.map lsb).eval = false := by
    intro s hss
    rw [ComSt.stmts, show C.b.polys = [] from hp0, List.append_nil, List.mem_flatMap] at hss
    obtain ⟨r, hr, hsr⟩ := hss
    refine hs.polys r hr ?_ s hsr
    by_contra hne
    have := card_quad_le (chiSum r.seed (r.polys.map (fun s => (bit (s.map lsb).eval : F))))
        ((polyCheckPrv (r.polys.map stmtPrv) r.seed (fun i => v.mac (r.ope + i))).2 + r.ans.2)
        ((polyCheckPrv (r.polys.map stmtPrv) r.seed (fun i => v.mac (r.ope + i))).1 - r.ans.1) hne D (by
      intro d hd
      obtain ⟨V, hV⟩ := hD d hd
      obtain ⟨⟨ch, hb⟩, _, hp, _⟩ := hfacts d V hV
      have hp' := hp ⟨r.polys.map (fun s => stmtVer d (s.map (keyOf d))), r.seed, r.ope, r.ans⟩ (by
        rw [hb]
        simp only [verImg, List.mem_map]
        exact ⟨r, hr, rfl⟩)
      unfold PolyOK at hp'
      have h3 := (polyCheckVer_keyOf d r.polys r.seed (fun i => v.mac (r.ope + i)) r.ans).symm.trans hp'
      rw [decide_eq_true_eq] at h3
      linear_combination (-1 : F) * h3)
    omega
  obtain ⟨d1, hd1, d2, hd2, hne⟩ := Finset.one_lt_card.1 (by omega : 1 < D.card)
  obtain ⟨V1, hV1⟩ := hD d1 hd1
  obtain ⟨V2, hV2⟩ := hD d2 hd2
  obtain ⟨⟨ch1, hb1⟩, _, _, g1, _, _, _, _, q1⟩ := hfacts d1 V1 hV1
  obtain ⟨⟨ch2, hb2⟩, _, _, g2, _, _, _, _, q2⟩ := hfacts d2 V2 hV2
  have hopen : ∀ o ∈ C.b.opened, o.2 = lsb o.1 := by
    intro o ho
    by_contra hob
    have heq := hhash d1 hd1 d2 hd2 V1 V2 hV1 hV2 (g1.symm.trans g2)
    rw [hb1, hb2] at heq
    simp only [verImg] at heq
    have hpt := List.map_inj_left.1 heq o ho
    rw [openVer_keyOf, openVer_keyOf] at hpt
    have hbit : (lsb o.1 ^^ o.2) = true := by revert hob; cases o.2 <;> cases lsb o.1 <;> simp
    rw [hbit, bit_true, one_mul, one_mul] at hpt
    exact hne (add_left_cancel hpt)
  have heqs : ∀ e ∈ C.eqs, e.1.1 = e.2.1.1 := by
    intro e he
    have e1 := q1 e he
    have e2 := q2 e he
    unfold setEqVer keyF at e1 e2
    rw [decide_eq_true_eq] at e1 e2
    have : (e.1.1 - e.2.1.1) * (d1 - d2) = 0 := by linear_combination e1 - e2
    rcases mul_eq_zero.1 this with h | h
    · exact sub_eq_zero.1 h
    · exact absurd (sub_eq_zero.1 h) hne
  exact ⟨⟨hand, hopen⟩, hmul, hprd, heqs, hclaims⟩

/-- C103. Fix everything but the verifier's `Delta`, and let the prover run any program.  If the verifier accepts for at least six values of
`Delta`, the challenges are not bad for the committed values, the products of more than two blocks have five operands (as in the memories;
`C48_false` for the others) and the verifier's hash does not collide on the lists it hashes, then there are inputs — the committed ones — for
which the plain session goes through with the challenges the verifier saw (all comparisons hold), all claimed statements are true, and the
outputs are those the verifier saw; the bits and blocks the verifier holds keys of are those of the plain session. -/
theorem C103_extraction (hroom : ∀ k, me.sz ≤ (me.auth k).length) (hsz : 0 < me.sz) (h5 : ∀ is, MOp.mulN is ∈ ops → is.length = 5)
    {C : MCom F} {dg : F} (hC : MixCommitted S junk p me v pre ops post C dg) (hs : MixSeeds v C)
    (D : Finset F) (hD6 : 6 ≤ D.card) (hD : ∀ d ∈ D, ∃ V, MixAccepts S junk p me v pre ops post d V)
    (hhash : ∀ d1 ∈ D, ∀ d2 ∈ D, ∀ V1 V2, MixAccepts S junk p me v pre ops post d1 V1 → MixAccepts S junk p me v pre ops post d2 V2 →
      v.hash V1.b.digest = v.hash V2.b.digest → V1.b.digest = V2.b.digest) :
    ∃ pre' ops' post' pl, List.Forall₂ BOp.same pre pre' ∧ List.Forall₂ MOp.same ops ops' ∧ List.Forall₂ BOp.same post post' ∧
      (∀ ch, Begins ch pl.rs → mplainRun ch pre' ops' post' = some pl) ∧ (∀ b ∈ pl.bp.claims, b = false) ∧ pl.fs = C.fw.map Prod.fst ∧
      pl.bp.wires = C.b.wires.map lsb ∧ pl.rs = C.rs ∧
      ∀ d ∈ D, ∀ V, MixAccepts S junk p me v pre ops post d V → V.b.outs = pl.bp.outs ∧ V.rs = pl.rs := by
  have hall : ∀ c (Cd : MCom F × F), PReach S (pnetInit S junk p (mixCommit me v pre ops post)) c → c.q = .done Cd → _ := fun c Cd h1 h2 => by
    have := all_reach (mixC_all (v := v) hroom hsz pre ops post h5) h1
    rw [h2] at this
    exact this
  have hfacts := fun d V => mixAccepts_facts hroom hsz hC (d := d) (V := V)
  obtain ⟨c, hc1, hc2⟩ := hC
  obtain ⟨hg0, hp0, h55, hmain⟩ := hall c _ hc1 hc2
  obtain ⟨hf, hmul, hprd, heqs, hclaims⟩ := mix_faith hg0 hp0 h55 hs hfacts D hD6 hD hhash
  obtain ⟨pre', ops', post', s1, s2, s3, hrun⟩ := hmain hf hmul hprd heqs
  refine ⟨pre', ops', post', C.plain, s1, s2, s3, hrun, ?_, rfl, rfl, rfl, ?_⟩
  · intro b hb
    simp only [MCom.plain, ComSt.plain, List.mem_map] at hb
    obtain ⟨s, hss, rfl⟩ := hb
    exact hclaims s hss
  · intro d hd V hV
    obtain ⟨⟨ch, hb⟩, _, _, _, hrs, _⟩ := hfacts d V hV
    exact ⟨by rw [hb]; rfl, hrs⟩

/-- C103. Whatever the prover does: the batches the verifier checks are not empty, have at most the sizes of the buffers, and their
challenges are hashes of the transcript (the seeds sent by the verifier, for statements). -/
theorem C103_batches (hc : 0 < v.checkSz) (hsz : 0 < me.sz) (hcap : 0 < me.cap) {C : MCom F} {dg : F}
    (hC : MixCommitted S junk p me v pre ops post C dg) :
    (∀ r ∈ C.b.andLog, 0 < r.gates.length ∧ r.gates.length ≤ v.checkSz ∧ ∃ d, r.seeds = me.ne.seeds d) ∧
    (∀ r ∈ C.b.polyLog, 0 < r.polys.length ∧ r.polys.length ≤ v.polySz ∧ ∃ k, r.seed = v.polySeed k) ∧
    (∀ r ∈ C.muls, 0 < r.gates.length ∧ r.gates.length ≤ me.sz ∧ ∃ d, r.seeds = me.ne.seeds d) ∧
    ∀ r ∈ C.prds, 0 < r.gates.length ∧ r.gates.length ≤ me.cap ∧ ∃ d, r.seed = me.blk d := by
  obtain ⟨c, h1, h2⟩ := hC
  have := all_reach (mixC_cap (v := v) hc hsz hcap pre ops post) h1
  rw [h2] at this
  exact ⟨this.b.ands, this.b.stmts, this.muls, this.prds⟩

/-- With one thread and buffers of one entry there are no bad challenges but zero. -/
theorem mixSeeds_unit (hth : v.threads = 1) (h1 : v.checkSz = 1) (h2 : v.polySz = 1) (h3 : me.sz = 1) (h4 : me.cap = 1)
    (hs : ∀ d i, me.ne.seeds d i ≠ 0) (hb : ∀ d, me.blk d ≠ 0) (hp : ∀ k, v.polySeed k ≠ 0) {C : MCom F} (hC : MCap me v C) : MixSeeds v C := by
  obtain ⟨k1, k2, k3, k4⟩ : _ ∧ _ ∧ _ ∧ _ := ⟨hC.b.ands, hC.b.stmts, hC.muls, hC.prds⟩
  have one : ∀ n sz : Nat, sz = 1 → 0 < n ∧ n ≤ sz → n = 1 := by omega
  have htask : ∀ n tasks, n = 1 → splitTasks n v.threads = some tasks → tasks = [(0, 1)] := by
    intro n tasks hn h
    rw [hn, hth] at h
    simpa [splitTasks] using h.symm
  constructor
  · intro r hr tasks ht he t htt g hg
    obtain ⟨a, b, d, hd⟩ := k1 r hr
    have hl := one _ _ h1 ⟨a, b⟩
    obtain ⟨x, hx⟩ := List.length_eq_one_iff.1 hl
    have := htask _ _ hl ht
    subst this
    rw [hx, hd] at he
    rw [List.mem_singleton] at htt
    subst htt
    rw [hx, taskSlice, List.drop_zero, List.take_succ_cons, List.take_zero, List.mem_singleton] at hg
    subst hg
    simp only [errSum, taskSlice, List.drop_zero, List.take_succ_cons, List.take_zero, List.map_cons, List.map_nil, chiSum, chiSumFrom, add_zero, mul_eq_zero, hs, false_or] at he
    exact Gate.correct_of_err he
  · intro r hr
    obtain ⟨a, b, d, hd⟩ := k1 r hr
    rw [one _ _ h1 ⟨a, b⟩, hth]
    decide
  · intro r hr he q hq
    obtain ⟨a, b, k, hk⟩ := k2 r hr
    obtain ⟨x, hx⟩ := List.length_eq_one_iff.1 (one _ _ h2 ⟨a, b⟩)
    rw [hx, hk] at he
    rw [hx, List.mem_singleton] at hq
    subst hq
    simp only [List.map_cons, List.map_nil, chiSum, chiSumFrom, add_zero, mul_eq_zero, hp, false_or] at he
    exact bit_inj (he.trans bit_false.symm)
  · intro r hr tasks ht he t htt g hg
    obtain ⟨a, b, d, hd⟩ := k3 r hr
    have hl := one _ _ h3 ⟨a, b⟩
    obtain ⟨x, hx⟩ := List.length_eq_one_iff.1 hl
    have := htask _ _ hl ht
    subst this
    rw [hx, hd] at he
    rw [List.mem_singleton] at htt
    subst htt
    rw [hx, taskSlice, List.drop_zero, List.take_succ_cons, List.take_zero, List.mem_singleton] at hg
    subst hg
    simp only [taskSumF, taskSlice, List.drop_zero, List.take_succ_cons, List.take_zero, List.map_cons, List.map_nil, chiSum, chiSumFrom, add_zero, mul_eq_zero, hs, false_or] at he
    exact mulErrF_eq_zero.1 he
  · intro r hr
    obtain ⟨a, b, d, hd⟩ := k3 r hr
    rw [one _ _ h3 ⟨a, b⟩, hth]
    decide
  · intro r hr he q hq
    obtain ⟨a, b, k, hk⟩ := k4 r hr
    obtain ⟨x, hx⟩ := List.length_eq_one_iff.1 (one _ _ h4 ⟨a, b⟩)
    rw [hx, hk] at he
    rw [hx, List.mem_singleton] at hq
    subst hq
    simp only [List.map_cons, List.map_nil, chiSum, chiSumFrom, add_zero, mul_eq_zero, hb, false_or, polyErr] at he
    exact (add_eq_zero'.1 he).symm

/-- C103. With one thread and buffers of one entry the conditions on the challenges and on the splits hold whatever the prover does, as soon
as no challenge is zero. -/
theorem C103_unit (hth : v.threads = 1) (h1 : v.checkSz = 1) (h2 : v.polySz = 1) (h3 : me.sz = 1) (h4 : me.cap = 1)
    (hs : ∀ d i, me.ne.seeds d i ≠ 0) (hb : ∀ d, me.blk d ≠ 0) (hp : ∀ k, v.polySeed k ≠ 0) {C : MCom F} {dg : F}
    (hC : MixCommitted S junk p me v pre ops post C dg) : MixSeeds v C := by
  obtain ⟨c, k1, k2⟩ := hC
  have := all_reach (mixC_cap (v := v) (by omega) (by omega) (by omega) pre ops post) k1
  rw [k2] at this
  exact mixSeeds_unit hth h1 h2 h3 h4 hs hb hp this

end

/-! ### a concrete session -/

/-- `exMix` with buffers of one entry and constant challenges. -/
noncomputable def exMixK : MixEnv GF128 := { exMix with sz := 1, cap := 1, ne := { exNet with seeds := fun _ _ => gX }, blk := fun _ => gX }

/-- The prover's blocks. -/
noncomputable def exMixV : BView GF128 where
  mac := fun n => if n % 2 = 0 then 1 else gX
  pub0 := 0
  pub1 := 1
  threads := 1
  checkSz := 1
  polySz := 1
  chal := fun _ _ _ => gX
  polySeed := fun _ => 1
  hash := fun l => l.sum

theorem exMixK_good {d : GF128} (hd : lsb d = true) : (exMixK.at exMixV d).Good where
  ne := ⟨BView.env_good _ hd, exNet_good.dec_enc, exNet_good.enc_length, exNet_good.decD_encD, exNet_good.encD_length, exNet_good.ext⟩
  sz := Nat.one_pos
  cap := Nat.one_pos
  keys := fun _ => rfl
  room := fun k => by show 1 ≤ 3; decide
  sv := exMix_good.sv
  lo := exMix_good.lo
  hi := exMix_good.hi
  split := exMix_good.split

/-- Six values of `Delta`. -/
noncomputable def exDeltas : Finset GF128 := (Finset.range 6).image (fun n => ⟨BitVec.ofNat 128 (2 * n + 1)⟩)

/-- The comparison of six words with the same words in another order. -/
def exChk : List MOp := (setEqOps 6 0 6 [0, 1, 2, 3, 4, 5] [4, 5, 2, 0, 1, 3]).getD []

/-- An instruction that opens nothing. -/
def MOp.quiet : MOp → Bool
  | .bool (.reveal _) => false
  | _ => true

theorem mplainStep_outs {ch : Nat → GF128} {s s' : MPlain GF128} {o : MOp} (ho : o.quiet = true) (h : mplainStep ch s o = some s') :
    s'.bp.outs = s.bp.outs := by
  cases o with
  | bool o =>
    cases o <;> simp only [mplainStep, plainStep, MOp.quiet, Option.bind_eq_bind, Option.map_eq_some_iff, Option.bind_eq_some_iff,
      Option.some.injEq, Bool.false_eq_true] at h ho
    · obtain ⟨_, rfl, rfl⟩ := h; rfl
    · obtain ⟨_, rfl, rfl⟩ := h; rfl
    · obtain ⟨_, ⟨_, _, _, _, rfl⟩, rfl⟩ := h; rfl
    · obtain ⟨_, ⟨_, _, rfl⟩, rfl⟩ := h; rfl
    · obtain ⟨_, ⟨_, _, _, _, rfl⟩, rfl⟩ := h; rfl
    · obtain ⟨_, ⟨_, _, rfl⟩, rfl⟩ := h; rfl
  | _ =>
    simp only [mplainStep, Option.bind_eq_bind, Option.bind_eq_some_iff, Option.ite_none_right_eq_some, Option.some.injEq] at h
    grind

theorem mplainOps_outs {ch : Nat → GF128} {ops : List MOp} : ∀ {s s' : MPlain GF128}, (∀ o ∈ ops, o.quiet = true) →
    mplainOps ch s ops = some s' → s'.bp.outs = s.bp.outs := by
  induction ops with
  | nil => intro s s' _ h; simp [mplainOps] at h; rw [h]
  | cons o os ih =>
    intro s s' ho h
    rw [mplainOps_cons] at h
    obtain ⟨s1, h1, h2⟩ := Option.bind_eq_some_iff.1 h
    rw [ih (fun o h => ho o (by simp [h])) h2, mplainStep_outs (ho o (by simp)) h1]

/-- The hypotheses of C103 are met by the honest prover of the session of C96, for six values of `Delta`; the session contains an AND gate,
two products of five blocks and two of two, a comparison and an output. -/
example : ∃ (p : SProg (MPrv GF128)) (C : MCom GF128) (dg : GF128),
    MixCommitted 32768 [] p exMixK exMixV [.input true, .input false, .not 1] (exPacks ++ exChk) [.reveal 0] C dg ∧ MixSeeds exMixV C ∧
    (∀ is, MOp.mulN is ∈ exPacks ++ exChk → is.length = 5) ∧ 6 ≤ exDeltas.card ∧
    (∀ d ∈ exDeltas, ∃ V, MixAccepts 32768 [] p exMixK exMixV [.input true, .input false, .not 1] (exPacks ++ exChk) [.reveal 0] d V) ∧
    ∀ d1 ∈ exDeltas, ∀ d2 ∈ exDeltas, ∀ V1 V2,
      MixAccepts 32768 [] p exMixK exMixV [.input true, .input false, .not 1] (exPacks ++ exChk) [.reveal 0] d1 V1 →
      MixAccepts 32768 [] p exMixK exMixV [.input true, .input false, .not 1] (exPacks ++ exChk) [.reveal 0] d2 V2 →
      exMixV.hash V1.b.digest = exMixV.hash V2.b.digest → V1.b.digest = V2.b.digest := by
  have hchk : setEqOps 6 0 6 [0, 1, 2, 3, 4, 5] [4, 5, 2, 0, 1, 3] = some exChk := rfl
  have hlsb : ∀ d ∈ exDeltas, lsb d = true := by
    intro d hd
    simp only [exDeltas, Finset.mem_image, Finset.mem_range] at hd
    obtain ⟨n, hn, rfl⟩ := hd
    show (BitVec.ofNat 128 (2 * n + 1)).getLsbD 0 = true
    interval_cases n <;> decide
  have hx0 : (gX : GF128) ≠ 0 := by decide
  have hacc : ∀ d, lsb d = true → ∃ V, MixAccepts 32768 [] (mixProver (exMixK.at exMixV 1) [.input true, .input false, .not 1] (exPacks ++ exChk) [.reveal 0])
      exMixK exMixV [.input true, .input false, .not 1] (exPacks ++ exChk) [.reveal 0] d V ∧ V.b.outs.length = 1 := by
    intro d hd
    obtain ⟨chk, h1, h2, h3⟩ := C96_memory (exMixK.at exMixV d) (exMixK_good hd) Nat.one_pos (Nat.le_refl 1) (Nat.le_refl 1) Nat.one_pos (S := 32768) (by decide)
      [.input true, .input false, .not 1] exPacks [.reveal 0] (n := 6) (k := 0) (step := 6) (as := [0, 1, 2, 3, 4, 5]) (bs := [4, 5, 2, 0, 1, 3])
      rfl rfl (by decide) (by decide) (b0 := ⟨[true, false, true], [], []⟩) (by decide)
      (by
        intro ch
        refine ⟨⟨⟨[true, false, true, true], [], []⟩, [packList [true, false], packList [false], packList [true, true, false], packList [true, true],
          packList [true, false, true], packList []], []⟩, _, _, ⟨[true, false, true, true], [true], []⟩, rfl, rfl, rfl, rfl, rfl, ?_, rfl, by simp⟩
        have hp : ([0, 1, 2, 3, 4, 5] : List Nat).Perm [4, 5, 2, 0, 1, 3] := by decide
        exact hp.filterMap (fun i => ([packList [true, false], packList [false], packList [true, true, false], packList [true, true],
          packList [true, false, true], packList []] : List GF128)[i]?))
      (Or.inr (show 1 ≤ lastBatch _ 1 by decide)) (Or.inr (show 1 ≤ lastBatch _ 1 by decide))
    rw [hchk, Option.some.injEq] at h1
    subst h1
    rw [mixProver_at exMixK exMixV d 1] at h3
    obtain ⟨_, _, _, _, _, c', P, V, k1, k2, k3⟩ := h3 [] _ .init
    obtain ⟨_, _, _, k4, _⟩ := h3 [] c' k1
    obtain ⟨⟨ch, mp, k8, _, k9, k5, k6, _⟩, _⟩ := k4 P V k2 k3
    refine ⟨V, ⟨hd, ⟨c', k1, k3⟩, k5, k6⟩, ?_⟩
    rw [k9]
    unfold mplainRun at k8
    simp only [Option.bind_eq_bind, Option.bind_eq_some_iff, Option.some.injEq] at k8
    obtain ⟨b, e1, s, e2, b2, e3, rfl⟩ := k8
    have e1' : b = ⟨[true, false, true], [], []⟩ := (Option.some.inj (show some _ = some b from e1)).symm
    have h0 := mplainOps_outs (ops := exPacks ++ exChk) (by decide) e2
    rw [e1'] at h0
    simp only [List.foldlM_cons, List.foldlM_nil, plainStep, Option.bind_eq_bind, Option.bind_eq_some_iff, Option.pure_def,
      Option.some.injEq] at e3
    obtain ⟨_, ⟨_, _, rfl⟩, rfl⟩ := e3
    simp [h0]
  obtain ⟨V, hV, hVo⟩ := hacc 1 lsb_one
  obtain ⟨C, dg, hC, hu, _, _, ho, _⟩ := C103_committed (me := exMixK) (v := exMixV) (fun k => by show 1 ≤ 3; decide) (by decide) 1 V _ lsb_one
    hV.2.1.choose_spec.1 hV.2.1.choose_spec.2
  refine ⟨_, C, dg, hC, C103_unit rfl rfl rfl rfl rfl (fun _ _ => hx0) (fun _ => hx0) (fun _ => one_ne_zero) hC, ?_, ?_,
    fun d hd => (hacc d (hlsb d hd)).imp (fun _ h => h.1), ?_⟩
  · intro is his
    have : ∀ o ∈ exPacks ++ exChk, (match o with | .mulN is => is.length == 5 | _ => true) = true := by decide
    simpa using this _ his
  · rw [exDeltas, Finset.card_image_of_injOn]
    · simp
    · intro a ha b hb h
      have := congrArg (fun x : GF128 => x.bits.toNat) h
      simp at this ha hb
      omega
  · intro d1 hd1 d2 hd2 V1 V2 h1 h2 hh
    obtain ⟨⟨_, e1⟩, _⟩ := mixAccepts_facts (fun k => by show 1 ≤ 3; decide) (by decide) hC h1
    obtain ⟨⟨_, e2⟩, _⟩ := mixAccepts_facts (fun k => by show 1 ≤ 3; decide) (by decide) hC h2
    rw [ho, List.length_map] at hVo
    obtain ⟨x, hx⟩ := List.length_eq_one_iff.1 hVo
    rw [e1, e2] at hh ⊢
    simp only [verImg, hx, List.map_cons, List.map_nil] at hh ⊢
    simpa [exMixV] using hh

end EmpZk
