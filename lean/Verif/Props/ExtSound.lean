/-
C107: soundness of a program with a memory of several words per cell (`ZkRamExt`) against any prover on the network: what an accepting verifier can
conclude about the words the memory returned, and what it cannot.
-/
import Verif.Lemmas.ExtSound
import Verif.Props.MixSound
import Verif.Props.ExtNet
import Verif.Props.RamSound

namespace EmpZk

section
variable {F : Type} [Field F] [PackField F] [DecidableEq F]
variable {α : Type} {S : Nat} {junk : List Byte} {p : SProg α} {me : MixEnv F} {v : BView F} {pre : List BOp} {ops : List MOp} {post : List BOp}

/-- What the check of such a memory shows on plain values, for any words returned by the memory and any sorted rows. -/
theorem ext_verdict {lib : CmpLib} (hl : lib.Good) (hno : lib.NoIn) {c : RxCfg} (hc : c.isz ≤ 32 ∧ c.ssz ≤ 31 ∧ 64 < c.vsz ∧ c.vsz < 2 ^ 64) {g : XNet}
    {u : XPlain} {sm s : MPlain F} (g3 : XCSim c g u sm) (h3 : 3 ≤ u.log.length) (hlen : u.log.length ≤ 2 ^ (c.ssz - 1)) {bb bb' : List MOp}
    (hb : xCheckGen lib c g = some bb) (t2 : List.Forall₂ MOp.same bb bb') {ch : Nat → F} (f2 : mplainOps ch sm bb' = some s) {ws : List Bool}
    (hwg : s.bp.wires <+: ws) {k : Nat} (hk : k = c.words / 2 + 1) :
    ∃ t ok R r, s.bp = ⟨u.bp.wires ++ t, u.bp.outs ++ [ok], u.bp.claims⟩ ∧ s.rs = R ++ [r] ∧ R.length = k ∧ (ok = true →
      (∃ i1 i2 i3, i1 < i2 ∧ i2 < i3 ∧ i3 < u.log.length ∧
        pick ws (xRowIdx c u.bp.wires.length i1) = pick ws (xRowIdx c u.bp.wires.length i3) ∧
        pick ws (xRowIdx c u.bp.wires.length i2) ≠ pick ws (xRowIdx c u.bp.wires.length i1)) ∨
      (prodAt r ((blocksOf k u.log.length (s.fs.drop (u.log.length * k))).map (rowDot R)) = prodAt r ((blocksOf k u.log.length s.fs).map (rowDot R)) ∧
        ¬ (blocksOf k u.log.length (s.fs.drop (u.log.length * k))).Perm (blocksOf k u.log.length s.fs)) ∨
      ReadsLastWrite u.log) := by
  subst hk
  have hc' : c.Ok := ⟨hc.1, hc.2.1, by omega⟩
  have hw : 1 ≤ c.words := by unfold RxCfg.words; omega
  have hss : 1 ≤ c.ssz := by
    by_contra h0
    rw [show c.ssz - 1 = 0 by omega] at hlen
    omega
  obtain ⟨bits, rest, c1, c2, c3, c4⟩ := xcsim_check hl hno hc' hc.2.2.1 hc.2.2.2 g3 h3 hlen hb
  rw [c2] at t2
  obtain ⟨rows, r1, r2, r3⟩ := xcheck_rows c1 (fun o ho => (c3 o ho).1) t2
  obtain ⟨t, c5⟩ := c4 rows r1 r2
  obtain ⟨fs', c6⟩ := c5 ch _ rfl
  rw [r3, c6] at f2
  split at f2
  case isFalse => cases f2
  case isTrue hprod =>
  rw [Option.some.injEq] at f2
  subst f2
  have hfits : ∀ e ∈ xrowsOfLog u.log, e.FitsX c := by
    intro e he
    obtain ⟨i, hi, rfl⟩ := List.getElem_of_mem he
    rw [xrowsOfLog_length] at hi
    have := g3.fits u.log[i] (List.getElem_mem hi)
    have hp2 : 2 ^ (c.ssz - 1) ≤ 2 ^ c.ssz := Nat.pow_le_pow_right (by decide) (by omega)
    simp only [xrowsOfLog, List.getElem_mapIdx]
    exact ⟨this.1, by show i < _; omega, this.2⟩
  have hYb := rowBlocks_lens (F := F) hw (fun e he => (hfits e he).2.2.1)
  have hXb := rowBlocks_lens (F := F) hw (fun e he => (r2 e he).2.2.1)
  have hYl : (rowBlocks (xrowsOfLog u.log) : List (List F)).length = u.log.length := by rw [rowBlocks_length, xrowsOfLog_length]
  have hXl : (rowBlocks rows : List (List F)).length = u.log.length := by rw [rowBlocks_length, r1]
  refine ⟨rows.flatMap (xRowBits c) ++ t, extCond c rows, _, _, rfl, rfl, by simp, ?_⟩
  intro hok
  simp only
  have e1 := blocksOf_flatten (rowBlocks (xrowsOfLog u.log)) ((rowBlocks rows).flatten ++ fs') hYb
  have e2 := blocksOf_flatten (rowBlocks rows) fs' hXb
  rw [hYl] at e1
  rw [hXl] at e2
  rw [e1, List.drop_left' (by rw [flatten_lens hYb, hYl]), e2]
  by_cases hx : ∃ i1 i2 i3, i1 < i2 ∧ i2 < i3 ∧ i3 < u.log.length ∧
        pick ws (xRowIdx c u.bp.wires.length i1) = pick ws (xRowIdx c u.bp.wires.length i3) ∧
        pick ws (xRowIdx c u.bp.wires.length i2) ≠ pick ws (xRowIdx c u.bp.wires.length i1)
  · exact .inl hx
  by_cases hperm : (rowBlocks rows : List (List F)).Perm (rowBlocks (xrowsOfLog u.log))
  · refine .inr (.inr ?_)
    have hp := rowBlocks_perm hc' r2 hfits hperm
    have hat : XRowsAt c u.bp.wires.length rows ws := by
      obtain ⟨y, hy⟩ := hwg
      simp only at hy
      rw [← hy, ← List.append_assoc, List.append_assoc]
      exact (xRowsAt_flatMap _ rows (fun e he => (r2 e he).2.2.1)).app _
    have q := C53_partial c hc' hss (xrowsOfLog u.log) rows hfits r2 (xrowsOfLog_step u.log) (by rw [xrowsOfLog_length]; omega)
      (by
        intro i j k hk hjk hij h
        have hi : rows[i]? = some rows[i] := List.getElem?_eq_getElem _
        have hj : rows[j]? = some rows[j] := List.getElem?_eq_getElem _
        have hkk : rows[k]? = some rows[k] := List.getElem?_eq_getElem _
        by_contra hne
        exact hx ⟨i, j, k, hij, hjk, by omega, (xrow_idx hat r2 hi hkk).2 h, fun hh => hne ((xrow_idx hat r2 hj hi).1 hh)⟩)
      hok (hp.map _)
    rwa [xrowsOfLog_acc] at q
  · exact .inr (.inl ⟨hprod, hperm⟩)

/-- C107 (what holds). Fix everything but the verifier's `Delta`, and let the prover run any program; the verifier runs a program with a memory of
several words per cell and its check.  If the verifier accepts for at least six values of `Delta`, the challenges of the batches are not bad
for the committed values and the verifier's hash does not collide on the lists it hashes, then the session is a run of the verifier's program
on some inputs in which the memory returned some words, all claims are true, and the outputs and the result `ok` of the check are what the
verifier saw.  If the check gave `true` (the code throws otherwise), then: in the committed sorted rows the rows of some index do not follow
one another; or the combined rows have equal products at the challenge though the rows are not a permutation of the accesses; or every
read of an address written before returned all words of the latest value written to it, and if every address was written before it was read, the
program was run as written.  Missing: the grouping of the rows, which nothing enforces (`C107_stale`), and reads of an
address before any write to it, whose result the prover chooses (`C107_first`). -/
theorem C107_partial (hroom : ∀ k, me.sz ≤ (me.auth k).length) (hsz : 0 < me.sz) {lib : CmpLib} (hl : lib.Good) (hno : lib.NoIn) {c : RxCfg}
    (hc : c.isz ≤ 32 ∧ c.ssz ≤ 31 ∧ 64 < c.vsz ∧ c.vsz < 2 ^ 64) {us : List XOp} (hw : ∀ o ∈ us, o.Widths c) (h3 : 3 ≤ xaccesses us)
    (hlen : xaccesses us ≤ 2 ^ (c.ssz - 1)) {b0 : Plain} (hpre : plainRun pre = some b0) (hgen : extGen lib c b0.wires us = some ops)
    {C : MCom F} {dg : F} (hC : MixCommitted S junk p me v pre ops post C dg) (hs : MixSeeds v C)
    (D : Finset F) (hD6 : 6 ≤ D.card) (hD : ∀ d ∈ D, ∃ V, MixAccepts S junk p me v pre ops post d V)
    (hhash : ∀ d1 ∈ D, ∀ d2 ∈ D, ∀ V1 V2, MixAccepts S junk p me v pre ops post d1 V1 → MixAccepts S junk p me v pre ops post d2 V2 →
      v.hash V1.b.digest = v.hash V2.b.digest → V1.b.digest = V2.b.digest) {k : Nat} (hk : k = (c.vsz + 63) / 64 / 2 + 1) :
    ∃ pre' us' post' b u t ok b2 R r, List.Forall₂ BOp.same pre pre' ∧ List.Forall₂ XOp.same us us' ∧ List.Forall₂ BOp.same post post' ∧
      plainRun pre' = some b ∧ XTrace c ⟨b, []⟩ us' u ∧
      post'.foldlM plainStep ⟨u.bp.wires ++ t, u.bp.outs ++ [ok], u.bp.claims⟩ = some b2 ∧ (∀ x ∈ b2.claims, x = false) ∧
      (∀ d ∈ D, ∀ V, MixAccepts S junk p me v pre ops post d V → V.b.outs = b2.outs ∧ V.b.outs[u.bp.outs.length]? = some ok ∧
        V.rs = R ++ [r] ∧ R.length = k) ∧
      (ok = true →
        (∃ i1 i2 i3, i1 < i2 ∧ i2 < i3 ∧ i3 < xaccesses us ∧
          pick (C.b.wires.map lsb) (xRowIdx c u.bp.wires.length i1) = pick (C.b.wires.map lsb) (xRowIdx c u.bp.wires.length i3) ∧
          pick (C.b.wires.map lsb) (xRowIdx c u.bp.wires.length i2) ≠ pick (C.b.wires.map lsb) (xRowIdx c u.bp.wires.length i1)) ∨
        (prodAt r ((blocksOf k (xaccesses us) ((C.fw.map Prod.fst).drop (xaccesses us * k))).map (rowDot R)) =
            prodAt r ((blocksOf k (xaccesses us) (C.fw.map Prod.fst)).map (rowDot R)) ∧
          ¬ (blocksOf k (xaccesses us) ((C.fw.map Prod.fst).drop (xaccesses us * k))).Perm (blocksOf k (xaccesses us) (C.fw.map Prod.fst))) ∨
        (ReadsLastWrite u.log ∧ (WrittenFirst u.log → xplainOps c ⟨b, []⟩ us' = some u))) := by
  have hc' : c.Ok := ⟨hc.1, hc.2.1, by omega⟩
  have hss : 1 ≤ c.ssz := by
    by_contra h0
    rw [show c.ssz - 1 = 0 by omega] at hlen
    omega
  have h64 : xaccesses us < 2 ^ 64 := by
    have : 2 ^ (c.ssz - 1) < 2 ^ 64 := Nat.pow_lt_pow_right (by decide) (by omega)
    omega
  simp only [extGen, Option.bind_eq_bind, Option.bind_eq_some_iff, Option.some.injEq, Prod.exists] at hgen
  obtain ⟨a, g, ha, bb, hb, rfl⟩ := hgen
  have cn1 := xGens_count ha
  rw [show (extInit c).step = 0 from rfl, Nat.zero_add] at cn1
  have h5 : ∀ is, MOp.mulN is ∈ a ++ bb → is.length = 5 := by
    intro is his
    rcases List.mem_append.1 his with h | h
    · exact absurd rfl (xGens_kinds ha _ h is)
    · exact xCheckGen_kinds (by omega) (by omega) hb is h
  obtain ⟨pre', ops', post', pl, s1, s2, s3, hrun, hcl, hfs, hwires, hrs, hout⟩ := C103_extraction hroom hsz h5 hC hs D hD6 hD hhash
  obtain ⟨ch, hch⟩ : ∃ ch : Nat → F, Begins ch pl.rs := ⟨fun i => (pl.rs[i]?).getD 0, fun i r hr => by simp only [hr, Option.getD_some]⟩
  have hrun' := hrun ch hch
  simp only [mplainRun, Option.bind_eq_bind, Option.bind_eq_some_iff, Option.some.injEq] at hrun'
  obtain ⟨b, e1, s, e2, b2, e3, hpl⟩ := hrun'
  obtain ⟨a', bb', rfl, t1, t2⟩ := same_split s2
  rw [mplainOps_append, Option.bind_eq_some_iff] at e2
  obtain ⟨sm, f1, f2⟩ := e2
  have hl0 : b0.wires.length = b.wires.length := plainRun_len s1 rfl hpre e1
  have hsim0 : XCSim c ⟨b0.wires, 0, extInit c, []⟩ ⟨b, []⟩ (⟨b, [], []⟩ : MPlain F) := ⟨rfl, hl0, rfl, rfl, rfl, rfl, rfl, by simp⟩
  obtain ⟨us', u, g1, g2, g3⟩ := xcsim_steps hc' hss hsim0 (by omega) hw ha t1 f1
  have hlog : u.log.length = xaccesses us := by rw [← g3.step, cn1]
  subst hpl
  have hgrow := (plainRun_grows post' e3).1
  have hwg := plainRun_wires_grow post' e3
  simp only at hfs hwires hrs
  rw [hwires] at hwg
  obtain ⟨t, ok, R, r, v1, v2, v3, v4⟩ := ext_verdict hl hno hc g3 (by omega) (by omega) hb t2 f2 hwg (k := k) hk
  rw [v1] at e3 hgrow
  refine ⟨pre', us', post', b, u, t, ok, b2, R, r, s1, g1, s3, e1, g2, e3, hcl, ?_, ?_⟩
  · intro d hd V hV
    obtain ⟨o1, o2⟩ := hout d hd V hV
    refine ⟨o1, ?_, by rw [o2, ← v2], v3⟩
    obtain ⟨x, hx⟩ := hgrow
    rw [o1]
    simp only at hx ⊢
    rw [← hx, List.append_assoc, List.getElem?_append_right (le_refl _), Nat.sub_self]
    rfl
  · intro hok
    rw [← hfs, ← hlog]
    rcases v4 hok with h | h | q1
    · exact .inl h
    · exact .inr (.inl h)
    · exact .inr (.inr ⟨q1, fun hwf => g2.plain hc' (forall₂_all (P := XOp.Widths c) (fun _ _ => XOp.same_widths) g1 hw) q1 hwf⟩)

/-- At the end both parties have the outputs of a run and `ok` from the check (`t`: the wires the check makes). -/
def XOuts (u : XPlain) (ok : Bool) (post : List BOp) (c : PNet (MPrv F) (MVer F)) : Prop :=
  ∀ P V, c.p = .done P → c.q = .done V → ∃ t b2, post.foldlM plainStep ⟨u.bp.wires ++ t, u.bp.outs ++ [ok], u.bp.claims⟩ = some b2 ∧
    P.b.outs = b2.outs ∧ V.b.outs = b2.outs

/-- C107. Conversely the prover can bring about every run: whatever words it makes the memory return, and whatever sorted rows it commits to (of the
widths of the rows), as long as they are those of the accesses up to order, there are inputs with which the session goes through
under every interleaving, nobody complains, and both parties have the outputs of that run and the value of the condition on these rows. -/
theorem C107_runs (me : MixEnv F) (hg : me.Good) (ht : 0 < me.ne.e.threads) (htc : me.ne.e.threads ≤ me.ne.e.checkSz)
    (hts : me.ne.e.threads ≤ me.sz) (hp : 0 < me.ne.e.polySz) {S : Nat} (hS : 0 < S) {lib : CmpLib} (hl : lib.Good) (hno : lib.NoIn) {c : RxCfg}
    (hc : c.isz ≤ 32 ∧ c.ssz ≤ 31 ∧ 64 < c.vsz ∧ c.vsz < 2 ^ 64) {pre pre' post post' : List BOp} {us us' : List XOp} {ops : List MOp}
    (hw : ∀ o ∈ us, o.Widths c) (h3 : 3 ≤ xaccesses us) (hlen : xaccesses us ≤ 2 ^ (c.ssz - 1)) {b0 : Plain} (hpre : plainRun pre = some b0)
    (hgen : extGen lib c b0.wires us = some ops) (hsp : List.Forall₂ BOp.same pre pre') (hsu : List.Forall₂ XOp.same us us')
    (hsq : List.Forall₂ BOp.same post post') {b : Plain} (hpre' : plainRun pre' = some b) {u : XPlain} (hu : XTrace c ⟨b, []⟩ us' u)
    {rows : List ExtEnt} (hrows : ∀ e ∈ rows, e.idx < 2 ^ c.isz ∧ e.step < 2 ^ c.ssz ∧ e.val.length = (c.vsz + 63) / 64 ∧ ∀ v ∈ e.val, v < 2 ^ 64)
    (hperm : rows.Perm (xrowsOfLog u.log))
    (hpost : ∀ t, ∃ b2, post'.foldlM plainStep ⟨u.bp.wires ++ t, u.bp.outs ++ [extCond c rows], u.bp.claims⟩ = some b2 ∧ ∀ x ∈ b2.claims, x = false)
    (ha : lastBatch (mixAnds pre ops post) me.ne.e.checkSz = 0 ∨ me.ne.e.threads ≤ lastBatch (mixAnds pre ops post) me.ne.e.checkSz)
    (hm : lastBatch (mixMuls ops) me.sz = 0 ∨ me.ne.e.threads ≤ lastBatch (mixMuls ops) me.sz) :
    ∃ ops', List.Forall₂ MOp.same ops ops' ∧
      ∀ junk (n : PNet (MPrv F) (MVer F)), PReach S (pnetInit S junk (mixProver me pre' ops' post') (mixVerifier me pre ops post)) n →
        MixFine S me pre' ops' post' n ∧ XOuts u (extCond c rows) post' n := by
  have hc' : c.Ok := ⟨hc.1, hc.2.1, by omega⟩
  have hss : 1 ≤ c.ssz := by
    by_contra h0
    rw [show c.ssz - 1 = 0 by omega] at hlen
    omega
  simp only [extGen, Option.bind_eq_bind, Option.bind_eq_some_iff, Option.some.injEq, Prod.exists] at hgen
  obtain ⟨a, g, hga, bb, hgb, rfl⟩ := hgen
  have cn1 := xGens_count hga
  rw [show (extInit c).step = 0 from rfl, Nat.zero_add] at cn1
  have hl0 : b0.wires.length = b.wires.length := plainRun_len hsp rfl hpre hpre'
  have hsim0 : XCSim c ⟨b0.wires, 0, extInit c, []⟩ ⟨b, []⟩ (⟨b, [], []⟩ : MPlain F) := ⟨rfl, hl0, rfl, rfl, rfl, rfl, rfl, by simp⟩
  obtain ⟨a', s, k1, k2, k3⟩ := xcsim_fwds hc' hss hsim0 (by omega) hw hga hsu hu
  have hlog : u.log.length = xaccesses us := by rw [← k3.step, cn1]
  obtain ⟨bits, rest, c1, c2, c3, c4⟩ := xcsim_check hl hno hc' hc.2.2.1 hc.2.2.2 k3 (by omega) (by omega) hgb
  have hrl : rows.length = u.log.length := by rw [hperm.length_eq, xrowsOfLog_length]
  obtain ⟨t, c5⟩ := c4 rows hrl hrows
  obtain ⟨b2, q1, q2⟩ := hpost (rows.flatMap (xRowBits c) ++ t)
  have hsame : List.Forall₂ MOp.same (a ++ bb) (a' ++ (((rows.flatMap (xRowBits c)).map BOp.input).map MOp.bool ++ rest)) := by
    refine List.rel_append (R := MOp.same) k1 ?_
    rw [c2]
    exact List.rel_append (R := MOp.same) (inputs_same (by rw [c1, flatMap_xRowBits_length _ (fun e he => (hrows e he).2.2.1), hrl])) (same_refls _)
  refine ⟨_, hsame, fun junk n hn => ?_⟩
  have hrun : ∀ ch : Nat → F, ∃ mp, mplainRun ch pre' (a' ++ (((rows.flatMap (xRowBits c)).map BOp.input).map MOp.bool ++ rest)) post' = some mp ∧
      mp.bp = b2 := by
    intro ch
    obtain ⟨fs', hf⟩ := c5 ch _ rfl
    rw [if_pos (prodAt_perm _ (List.Perm.map _ (show (rowBlocks rows : List (List F)).Perm (rowBlocks (xrowsOfLog u.log)) from hperm.map _)))] at hf
    exact ⟨_,
      by
        rw [mplainRun, hpre', Option.bind_eq_bind, Option.bind_some, mplainOps_append, k2, Option.bind_some, hf]
        simp only [q1, Option.bind_eq_bind, Option.bind_some]
        rfl, rfl⟩
  rw [mixVerifier_same me hsp hsame hsq] at hn
  rw [mixAnds_same hsp hsame hsq] at ha
  rw [mixMuls_same hsame] at hm
  have hfine := C96_session me hg ht htc hts hp hS pre' _ post'
    (fun ch => by obtain ⟨mp, h1, h2⟩ := hrun ch; exact ⟨mp, h1, by rw [h2]; exact q2⟩) ha hm junk hn
  refine ⟨hfine, fun P V hP hV => ?_⟩
  obtain ⟨_, _, _, hd, _⟩ := hfine
  obtain ⟨⟨ch, mp, h1, h2, h3, _⟩, _⟩ := hd P V hP hV
  obtain ⟨mp', h1', h2'⟩ := hrun ch
  rw [h1, Option.some.injEq] at h1'
  subst h1'
  rw [h2'] at h2 h3
  exact ⟨_, b2, q1, h2, h3⟩

end
/-! ### what a prover can get away with -/

/-- The instructions of a program that can be run honestly exist. -/
theorem extGen_exists {pre : List BOp} {b0 : Plain} (hpre : plainRun pre = some b0) {us : List XOp} {u : XPlain} (hu : xplainOps exExt ⟨b0, []⟩ us = some u)
    (h3 : 3 ≤ u.log.length) (hlen : u.log.length ≤ 4) (hcl : u.bp.claims = []) : ∃ ops, extGen empLib exExt b0.wires us = some ops := by
  obtain ⟨_, _, ops, h, _⟩ := C100_session exMix exMix_good (by decide) (by decide) (by decide) (by decide) (S := 32768) (by decide) empLib_good
    (c := exExt) (by decide) pre us [] hpre hu h3 hlen (fun t => ⟨_, rfl, by rw [hcl]; simp⟩)
  exact ⟨ops, h⟩

/-- A session of the attacker: the verifier runs `us` and returns `outs`. -/
theorem ext_attack {pre pre' : List BOp} {b0 b : Plain} (hpre : plainRun pre = some b0) (hpre' : plainRun pre' = some b) (hsp : List.Forall₂ BOp.same pre pre')
    {us : List XOp} {ops : List MOp} {u : XPlain} {rows : List ExtEnt} (hw : ∀ o ∈ us, o.Widths exExt) (h3 : 3 ≤ xaccesses us)
    (hlen : xaccesses us ≤ 4) (hgen : extGen empLib exExt b0.wires us = some ops) (hsu : List.Forall₂ XOp.same us us)
    (hu : XTrace exExt ⟨b, []⟩ us u) (hrows : ∀ e ∈ rows, e.idx < 2 ^ 2 ∧ e.step < 2 ^ 3 ∧ e.val.length = 2 ∧ ∀ v ∈ e.val, v < 2 ^ 64)
    (hperm : rows.Perm (xrowsOfLog u.log)) (hcl : u.bp.claims = []) :
    ∃ ops' c' P V, PReach 32768 (pnetInit 32768 [] (mixProver exMix pre' ops' [])
      (mixVerifier exMix pre ops [])) c' ∧ c'.p = .done P ∧ c'.q = .done V ∧ V.b.outs = u.bp.outs ++ [extCond exExt rows] ∧
      V.b.cheats = [] ∧ V.warns = 0 := by
  have triv : ∀ n k, lastBatch n k = 0 ∨ 1 ≤ lastBatch n k := fun n k => by omega
  obtain ⟨ops', _, h2⟩ := C107_runs exMix exMix_good (by decide) (by decide) (by decide) (by decide) (S := 32768) (by decide) empLib_good empLib_noIn
    (c := exExt) (by decide) (post := []) (post' := []) hw h3 hlen hpre hgen hsp hsu .nil hpre' hu hrows hperm
    (fun t => ⟨_, rfl, by rw [hcl]; simp⟩) (triv _ _) (triv _ _)
  have h3 := h2 []
  obtain ⟨⟨_, _, _, _, _, c', P, V, k1, k2, k3⟩, _⟩ := h3 _ .init
  obtain ⟨⟨_, _, _, k4, _⟩, k5⟩ := h3 c' k1
  obtain ⟨⟨ch, mp, _, _, _, k6, k7, _⟩, _⟩ := k4 P V k2 k3
  obtain ⟨t, b2, k8, _, k10⟩ := k5 P V k2 k3
  rw [List.foldlM_nil] at k8
  cases k8
  exact ⟨ops', c', P, V, k1, k2, k3, k10, k6, k7⟩

/-- Address 0 is written with 0 and then with 3, and read; then address 2 is written. -/
def exStaleX : List XOp := [.write [0, 0] [[0, 0], [0]], .write [0, 0] [[1, 1], [0]], .read [0, 0], .write [0, 1] [[0], [0]], .bool (.reveal 10)]

/-- C107 is false as stated: nothing keeps the rows of an index together, so that a prover can make the verifier accept, with `true` from the check,
after a read that returned a value overwritten before.  The program takes no input, and its plain run outputs `true`. -/
theorem C107_stale : (∃ u, xplainOps exExt ⟨⟨[false, true], [], []⟩, []⟩ exStaleX = some u ∧ u.bp.outs = [true]) ∧
    ∃ ops ops' c' P V, extGen empLib exExt [false, true] exStaleX = some ops ∧
      PReach 32768 (pnetInit 32768 [] (mixProver exMix [.pub false, .pub true] ops' []) (mixVerifier exMix [.pub false, .pub true] ops [])) c' ∧
      c'.p = .done P ∧ c'.q = .done V ∧ V.b.outs = [false, true] ∧ V.b.cheats = [] ∧ V.warns = 0 := by
  constructor
  · exact ⟨_, rfl, rfl⟩
  · obtain ⟨ops, hops⟩ : ∃ ops, extGen empLib exExt [false, true] exStaleX = some ops :=
      extGen_exists (pre := [.pub false, .pub true]) (b0 := ⟨[false, true], [], []⟩) rfl (u := ⟨_, _⟩) rfl (by decide) (by decide) rfl
    obtain ⟨ops', c', P, V, h1, h2, h3, h4, h5, h6⟩ := ext_attack (pre := [.pub false, .pub true]) (pre' := [.pub false, .pub true])
      (b0 := ⟨[false, true], [], []⟩) (b := ⟨[false, true], [], []⟩) rfl rfl (.cons rfl (.cons rfl .nil)) (us := exStaleX) (ops := ops)
      (rows := [⟨0, 0, true, [0, 0]⟩, ⟨0, 2, false, [0, 0]⟩, ⟨2, 3, true, [0, 0]⟩, ⟨0, 1, true, [3, 0]⟩])
      (by
        intro o ho
        simp only [exStaleX, List.mem_cons, List.not_mem_nil, or_false] at ho
        rcases ho with rfl | rfl | rfl | rfl | rfl <;> simp [XOp.Widths, exExt])
      (by decide) (by decide) hops (.cons rfl (.cons rfl (.cons rfl (.cons rfl (.cons rfl .nil)))))
      (.cons ⟨_, _, rfl, rfl, rfl⟩ (.cons ⟨_, _, rfl, rfl, rfl⟩ (.cons ⟨_, [0, 0], rfl, rfl, by decide, rfl⟩ (.cons ⟨_, _, rfl, rfl, rfl⟩
        (.cons ⟨_, rfl, rfl⟩ (.nil _))))))
      (by decide) (by decide) rfl
    exact ⟨ops, ops', c', P, V, hops, h1, h2, h3, h4, h5, h6⟩

/-- Address 0 is written with 0, then the address given by an input of the prover (0 or 1) is read, then address 0. -/
def exFirstX : List XOp := [.write [1, 1] [[1], [1]], .read [0, 1], .read [1, 1], .bool (.reveal 7)]

/-- C107, reads before any write: their results are up to the prover.  Whatever the input, the plain program outputs `false` if it is defined;
a prover can make the verifier accept, with `true` from the check, and output `true`. -/
theorem C107_first : (∀ a u, xplainOps exExt ⟨⟨[a, false, true], [], []⟩, []⟩ exFirstX = some u → u.bp.outs = [false]) ∧
    (∃ u, xplainOps exExt ⟨⟨[false, false, true], [], []⟩, []⟩ exFirstX = some u) ∧
    ∃ ops ops' c' P V, extGen empLib exExt [false, false, true] exFirstX = some ops ∧
      PReach 32768 (pnetInit 32768 [] (mixProver exMix [.input true, .pub false, .pub true] ops' [])
        (mixVerifier exMix [.input false, .pub false, .pub true] ops [])) c' ∧
      c'.p = .done P ∧ c'.q = .done V ∧ V.b.outs = [true, true] ∧ V.b.cheats = [] ∧ V.warns = 0 := by
  refine ⟨?_, ⟨_, rfl⟩, ?_⟩
  · intro a u h
    cases a with
    | false =>
      have : xplainOps exExt ⟨⟨[false, false, true], [], []⟩, []⟩ exFirstX = some ⟨⟨_, [false], _⟩, _⟩ := rfl
      rw [this, Option.some.injEq] at h
      rw [← h]
    | true =>
      have : xplainOps exExt ⟨⟨[true, false, true], [], []⟩, []⟩ exFirstX = none := rfl
      rw [this] at h
      cases h
  · obtain ⟨ops, hops⟩ : ∃ ops, extGen empLib exExt [false, false, true] exFirstX = some ops :=
      extGen_exists (pre := [.input false, .pub false, .pub true]) (b0 := ⟨[false, false, true], [], []⟩) rfl (u := ⟨_, _⟩) rfl (by decide) (by decide) rfl
    obtain ⟨ops', c', P, V, h1, h2, h3, h4, h5, h6⟩ := ext_attack (pre := [.input false, .pub false, .pub true]) (pre' := [.input true, .pub false, .pub true])
      (b0 := ⟨[false, false, true], [], []⟩) (b := ⟨[true, false, true], [], []⟩) rfl rfl (.cons trivial (.cons rfl (.cons rfl .nil))) (us := exFirstX) (ops := ops)
      (rows := [⟨0, 0, true, [0, 0]⟩, ⟨0, 2, false, [0, 0]⟩, ⟨1, 1, false, [1, 0]⟩])
      (by
        intro o ho
        simp only [exFirstX, List.mem_cons, List.not_mem_nil, or_false] at ho
        rcases ho with rfl | rfl | rfl | rfl <;> simp [XOp.Widths, exExt])
      (by decide) (by decide) hops (.cons rfl (.cons rfl (.cons rfl (.cons rfl .nil))))
      (.cons ⟨_, _, rfl, rfl, rfl⟩ (.cons ⟨_, [1, 0], rfl, rfl, by decide, rfl⟩ (.cons ⟨_, [0, 0], rfl, rfl, by decide, rfl⟩
        (.cons ⟨_, rfl, rfl⟩ (.nil _)))))
      (by decide) (by decide) rfl
    exact ⟨ops, ops', c', P, V, hops, h1, h2, h3, h4, h5, h6⟩

/-! ### an honest session -/

/-- Two writes and a read. -/
def exHonestX : List XOp := [.write [0, 1] [[1, 0], [1]], .write [1, 0] [[0, 0], [0]], .read [0, 1]]

/-- The hypotheses of `C107_partial` are met by an honest prover of a program that writes two addresses (inputs of the prover) and reads one of
them, for six values of `Delta`. -/
example : ∃ (ops : List MOp) (p : SProg (MPrv GF128)) (C : MCom GF128) (dg : GF128), extGen empLib exExt [true, false] exHonestX = some ops ∧
    MixCommitted 32768 [] p exMixK exMixV [.input true, .input false] ops [] C dg ∧ MixSeeds exMixV C ∧ 6 ≤ exDeltas.card ∧
    (∀ d ∈ exDeltas, ∃ V, MixAccepts 32768 [] p exMixK exMixV [.input true, .input false] ops [] d V ∧ V.b.outs = [true]) ∧
    (∀ d1 ∈ exDeltas, ∀ d2 ∈ exDeltas, ∀ V1 V2, MixAccepts 32768 [] p exMixK exMixV [.input true, .input false] ops [] d1 V1 →
      MixAccepts 32768 [] p exMixK exMixV [.input true, .input false] ops [] d2 V2 →
      exMixV.hash V1.b.digest = exMixV.hash V2.b.digest → V1.b.digest = V2.b.digest) ∧
    (∀ o ∈ exHonestX, o.Widths exExt) ∧ xaccesses exHonestX = 3 ∧ plainRun [.input true, .input false] = some ⟨[true, false], [], []⟩ := by
  have triv : ∀ n k, lastBatch n k = 0 ∨ 1 ≤ lastBatch n k := fun n k => by omega
  have hlsb : ∀ d ∈ exDeltas, lsb d = true := by
    intro d hd
    simp only [exDeltas, Finset.mem_image, Finset.mem_range] at hd
    obtain ⟨n, hn, rfl⟩ := hd
    show (BitVec.ofNat 128 (2 * n + 1)).getLsbD 0 = true
    interval_cases n <;> decide
  have hx0 : (gX : GF128) ≠ 0 := by decide
  have hu : xplainOps exExt ⟨⟨[true, false], [], []⟩, []⟩ exHonestX =
      some ⟨⟨_, [], []⟩, [⟨1, true, [2, 0]⟩, ⟨2, true, [3, 1]⟩, ⟨1, false, [2, 0]⟩]⟩ := rfl
  have hses := fun d (hd : lsb d = true) => C100_session (exMixK.at exMixV d) (exMixK_good hd) Nat.one_pos (Nat.le_refl 1) (Nat.le_refl 1) Nat.one_pos
    (S := 32768) (by decide) empLib_good (c := exExt) (by decide) [.input true, .input false] exHonestX [] (b0 := ⟨[true, false], [], []⟩) rfl hu
    (by decide) (by decide) (fun t => ⟨_, rfl, by simp⟩)
  obtain ⟨_, _, ops, hops, _⟩ := hses 1 lsb_one
  have hacc : ∀ d, lsb d = true → ∃ V, MixAccepts 32768 [] (mixProver (exMixK.at exMixV 1) [.input true, .input false] ops [])
      exMixK exMixV [.input true, .input false] ops [] d V ∧ V.b.outs = [true] := by
    intro d hd
    obtain ⟨_, _, ops', h1, _, h2⟩ := hses d hd
    rw [hops, Option.some.injEq] at h1
    subst h1
    have h3 := h2 (triv _ _) (triv _ _) []
    rw [mixProver_at exMixK exMixV d 1] at h3
    obtain ⟨⟨_, _, _, _, _, c', P, V, k1, k2, k3⟩, _⟩ := h3 _ .init
    obtain ⟨⟨_, _, _, k4, _⟩, k5⟩ := h3 c' k1
    obtain ⟨⟨ch, mp, _, _, _, k6, k7, _⟩, _⟩ := k4 P V k2 k3
    obtain ⟨t, b2, k8, _, k10⟩ := k5 P V k2 k3
    rw [List.foldlM_nil] at k8
    cases k8
    exact ⟨V, ⟨hd, ⟨c', k1, k3⟩, k6, k7⟩, k10⟩
  obtain ⟨V, hV, hVo⟩ := hacc 1 lsb_one
  obtain ⟨C, dg, hC, _, _, _, ho, _⟩ := C103_committed (me := exMixK) (v := exMixV) (fun k => by show 1 ≤ 3; decide) (by decide) 1 V _ lsb_one
    hV.2.1.choose_spec.1 hV.2.1.choose_spec.2
  refine ⟨ops, _, C, dg, hops, hC, C103_unit rfl rfl rfl rfl rfl (fun _ _ => hx0) (fun _ => hx0) (fun _ => one_ne_zero) hC, ?_,
    fun d hd => hacc d (hlsb d hd), ?_, ?_, rfl, rfl⟩
  · rw [exDeltas, Finset.card_image_of_injOn]
    · simp
    · intro a ha b hb h
      have := congrArg (fun x : GF128 => x.bits.toNat) h
      simp at this ha hb
      omega
  · intro d1 hd1 d2 hd2 V1 V2 h1 h2 hh
    obtain ⟨⟨_, e1⟩, _⟩ := mixAccepts_facts (fun k => by show 1 ≤ 3; decide) (by decide) hC h1
    obtain ⟨⟨_, e2⟩, _⟩ := mixAccepts_facts (fun k => by show 1 ≤ 3; decide) (by decide) hC h2
    have hl : C.b.opened.length = 1 := by
      have := congrArg List.length (ho.symm.trans hVo)
      simpa using this
    obtain ⟨x, hx⟩ := List.length_eq_one_iff.1 hl
    rw [e1, e2] at hh ⊢
    simp only [verImg, hx, List.map_cons, List.map_nil] at hh ⊢
    simpa [exMixV] using hh
  · intro o ho
    simp only [exHonestX, List.mem_cons, List.not_mem_nil, or_false] at ho
    rcases ho with rfl | rfl | rfl <;> simp [XOp.Widths, exExt]

end EmpZk
