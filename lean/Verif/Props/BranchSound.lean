/-
C105: knowledge soundness of programs that choose what to do next from the revealed values, with or without a memory, against any prover on
the network.
-/
import Verif.Lemmas.BranchPublic
import Verif.Lemmas.ExtNet
import Verif.Props.Branch
import Verif.Props.RamSound

namespace EmpZk

section
variable {F : Type} [Field F] [BlockField F] [DecidableEq F]

/-- The verifier with secret `d` (lowest bit set) can finish the branching session against the program `p` with state `V`, and complains of
nothing: no cheating recorded, no warning printed. -/
def BranchAccepts {α : Type} (S : Nat) (junk : List Byte) (p : SProg α) (me : MixEnv F) (v : BView F) (t : SessTree) (d : F) (V : MVer F) : Prop :=
  lsb d = true ∧ (∃ c, PReach S (pnetInit S junk p (branchVerifier (me.at v d) t)) c ∧ c.q = .done V) ∧ V.b.cheats = [] ∧ V.warns = 0

/-- The messages of `p` commit it to `C`, with `dg` the digest received at the end. -/
def BranchCommitted {α : Type} (S : Nat) (junk : List Byte) (p : SProg α) (me : MixEnv F) (v : BView F) (t : SessTree) (C : MCom F) (dg : F) : Prop :=
  ∃ c, PReach S (pnetInit S junk p (branchCommit me v t)) c ∧ c.q = .done (C, dg)

variable {α : Type} {S : Nat} {junk : List Byte} {p : SProg α} {me : MixEnv F} {v : BView F} {t : SessTree}

/-- C105. Whatever program the prover runs and whatever the schedule: if the verifier returns, the messages commit the prover to exactly one
list of bits and blocks, which depends neither on the schedule nor on the verifier's secret; the keys and the outputs the verifier holds are
those of the committed values.  So the path the verifier takes does not depend on its secret. -/
theorem C105_committed (hroom : ∀ k, me.sz ≤ (me.auth k).length) (hsz : 0 < me.sz) :
    ∀ (d : F) (V : MVer F) (c : PNet α (MVer F)), lsb d = true → PReach S (pnetInit S junk p (branchVerifier (me.at v d) t)) c →
      c.q = .done V → ∃ C dg, BranchCommitted S junk p me v t C dg ∧
        (∀ C' dg', BranchCommitted S junk p me v t C' dg' → C' = C ∧ dg' = dg) ∧
        V.fw = C.fw.map (keyF d) ∧ V.b.wires = C.b.wires.map (keyOf d) ∧ V.b.outs = C.b.opened.map Prod.snd ∧ V.rs = C.rs := by
  intro d V c hd hc hq
  obtain ⟨q1, k1, k2⟩ := follows_reach (branch_follows (v := v) hd hroom hsz t) hc
  rw [hq] at k2
  cases k2 with
  | @done _ b hR =>
    obtain ⟨C, dg⟩ := b
    obtain ⟨⟨ch, hb, _⟩, hM⟩ := hR
    refine ⟨C, dg, ⟨_, k1, rfl⟩, ?_, hM.fw, by rw [hb]; rfl, by rw [hb]; rfl, hM.rs⟩
    rintro C' dg' ⟨c', h1, h2⟩
    have := preach_result h1 h2 k1 rfl
    simpa using this

/-- What acceptance says about the committed values. -/
theorem branchAccepts_facts (hroom : ∀ k, me.sz ≤ (me.auth k).length) (hsz : 0 < me.sz) {C : MCom F} {dg : F}
    (hC : BranchCommitted S junk p me v t C dg) {d : F} {V : MVer F} (h : BranchAccepts S junk p me v t d V) : MixFacts v d V C dg := by
  obtain ⟨hd, ⟨c, hc, hq⟩, h1, h2⟩ := h
  obtain ⟨q1, k1, k2⟩ := follows_reach (branch_follows (v := v) hd hroom hsz t) hc
  rw [hq] at k2
  cases k2 with
  | @done _ b hR =>
    obtain ⟨c', j1, j2⟩ := hC
    have := preach_result j1 j2 k1 rfl
    subst this
    obtain ⟨⟨ch, hb, ha⟩, hM⟩ := hR
    obtain ⟨a1, a2, a3⟩ := ha h1
    exact ⟨⟨ch, hb⟩, a1, a2, a3, hM.rs, hM.fw, hM.muls h2, hM.prds, hM.eqs⟩

/-- C105. Fix everything but the verifier's `Delta`, and let the prover run any program.  If the verifier accepts for at least six values of
`Delta`, the challenges are not bad for the committed values, the products of more than two blocks have five operands (as in the memories;
`C48_false` for the others) and the verifier's hash does not collide on the lists it hashes, then there are inputs — the committed ones — for
which the plain program takes exactly the path the verifier took with the challenges it saw (all comparisons hold), all statements claimed on the
path are true, and the outputs, which decide the path, are those the verifier saw. -/
theorem C105_extraction (hroom : ∀ k, me.sz ≤ (me.auth k).length) (hsz : 0 < me.sz)
    (h5 : t.Every (fun _ => True) (fun t1 => t1.Every (fun o => ∀ is, o = .mulN is → is.length = 5) (fun _ => True)))
    {C : MCom F} {dg : F} (hC : BranchCommitted S junk p me v t C dg) (hs : MixSeeds v C)
    (D : Finset F) (hD6 : 6 ≤ D.card) (hD : ∀ d ∈ D, ∃ V, BranchAccepts S junk p me v t d V)
    (hhash : ∀ d1 ∈ D, ∀ d2 ∈ D, ∀ V1 V2, BranchAccepts S junk p me v t d1 V1 → BranchAccepts S junk p me v t d2 V2 →
      v.hash V1.b.digest = v.hash V2.b.digest → V1.b.digest = V2.b.digest) :
    ∃ pre' ops' post' pl, (∀ ch, Begins ch pl.rs → WalkLike ch t pre' ops' post' pl) ∧ (∀ b ∈ pl.bp.claims, b = false) ∧
      pl.fs = C.fw.map Prod.fst ∧ pl.bp.wires = C.b.wires.map lsb ∧ pl.rs = C.rs ∧
      ∀ d ∈ D, ∀ V, BranchAccepts S junk p me v t d V → V.b.outs = pl.bp.outs ∧ V.rs = pl.rs := by
  have hall : ∀ c (Cd : MCom F × F), PReach S (pnetInit S junk p (branchCommit me v t)) c → c.q = .done Cd → _ := fun c Cd h1 h2 => by
    have := all_reach (branchC_all (v := v) hroom hsz t h5) h1
    rw [h2] at this
    exact this
  have hfacts := fun d V => branchAccepts_facts hroom hsz hC (d := d) (V := V)
  obtain ⟨c, hc1, hc2⟩ := hC
  obtain ⟨hg0, hp0, h55, hmain⟩ := hall c _ hc1 hc2
  obtain ⟨hf, hmul, hprd, heqs, hclaims⟩ := mix_faith hg0 hp0 h55 hs hfacts D hD6 hD hhash
  obtain ⟨pre', ops', post', hrun⟩ := hmain hf hmul hprd heqs
  refine ⟨pre', ops', post', C.plain, hrun, ?_, rfl, rfl, rfl, ?_⟩
  · intro b hb
    simp only [MCom.plain, ComSt.plain, List.mem_map] at hb
    obtain ⟨s, hss, rfl⟩ := hb
    exact hclaims s hss
  · intro d hd V hV
    obtain ⟨⟨ch, hb⟩, _, _, _, hrs, _⟩ := hfacts d V hV
    exact ⟨by rw [hb]; rfl, hrs⟩

/-- C105. The path is one run of the straight-line program made of its instructions (the specification of C96). -/
theorem C105_path {ch : Nat → F} {pre : List BOp} {ops : List MOp} {post : List BOp} {mp : MPlain F} (h : WalkLike ch t pre ops post mp) :
    mplainRun ch pre ops post = some mp := by
  have hB : ∀ {β : Type} {t : Branch BOp β} {x y : Plain} {l : List BOp} {a : β}, t.PathLike x l y a → l.foldlM plainStep x = some y := by
    intro β t x y l a h
    induction h with
    | fin => rfl
    | ops _ h1 _ ih => rw [List.foldlM_append, h1]; exact ih
  have hM : ∀ {β : Type} {t : Branch MOp β} {x y : MPlain F} {l : List MOp} {a : β}, t.MPathLike ch x l y a → mplainOps ch x l = some y := by
    intro β t x y l a h
    induction h with
    | fin => rfl
    | ops _ h1 _ ih => rw [mplainOps_append, h1]; exact ih
  obtain ⟨b, t1, s, t2, b2, h1, h2, h3, rfl⟩ := h.run
  have e1 : plainRun pre = some b := hB h1
  simp only [mplainRun, e1, hM h2, hB h3, Option.bind_eq_bind, Option.bind_some]

/-- C105. Whatever the prover does: the batches the verifier checks are not empty, have at most the sizes of the buffers, and their
challenges are hashes of the transcript (the seeds sent by the verifier, for statements). -/
theorem C105_batches (hc : 0 < v.checkSz) (hsz : 0 < me.sz) (hcap : 0 < me.cap) {C : MCom F} {dg : F}
    (hC : BranchCommitted S junk p me v t C dg) :
    (∀ r ∈ C.b.andLog, 0 < r.gates.length ∧ r.gates.length ≤ v.checkSz ∧ ∃ d, r.seeds = me.ne.seeds d) ∧
    (∀ r ∈ C.b.polyLog, 0 < r.polys.length ∧ r.polys.length ≤ v.polySz ∧ ∃ k, r.seed = v.polySeed k) ∧
    (∀ r ∈ C.muls, 0 < r.gates.length ∧ r.gates.length ≤ me.sz ∧ ∃ d, r.seeds = me.ne.seeds d) ∧
    ∀ r ∈ C.prds, 0 < r.gates.length ∧ r.gates.length ≤ me.cap ∧ ∃ d, r.seed = me.blk d := by
  obtain ⟨c, h1, h2⟩ := hC
  have := all_reach (branchC_cap (v := v) hc hsz hcap t) h1
  rw [h2] at this
  exact ⟨this.b.ands, this.b.stmts, this.muls, this.prds⟩

/-- C105. With one thread and buffers of one entry the only bad challenge is zero: whatever the prover does, `MixSeeds` holds. -/
theorem C105_unit (hth : v.threads = 1) (h1 : v.checkSz = 1) (h2 : v.polySz = 1) (h3 : me.sz = 1) (h4 : me.cap = 1)
    (hs : ∀ d i, me.ne.seeds d i ≠ 0) (hb : ∀ d, me.blk d ≠ 0) (hp : ∀ k, v.polySeed k ≠ 0) {C : MCom F} {dg : F}
    (hC : BranchCommitted S junk p me v t C dg) : MixSeeds v C := by
  obtain ⟨c, k1, k2⟩ := hC
  have := all_reach (branchC_cap (v := v) (by omega) (by omega) (by omega) t) k1
  rw [k2] at this
  exact mixSeeds_unit hth h1 h2 h3 h4 hs hb hp this

/-- C105. What the verifier of a branching program with a memory does is the same whatever private values the program was written with: its
instructions, the point where it is undefined if there is one, and what it does after the check depend on the revealed bits alone. -/
theorem C105_public (me : MixEnv F) {lib : CmpLib} {c : RamCfg} (hc : c.ssz ≤ 64) {t t' : RamTree}
    (h : t.Alike BOp.same (fun a b => a.Alike UOp.same (fun a b => a.Alike BOp.same (· = ·) b) b) t')
    (hw : t.Every (fun _ => True) (fun t1 => t1.Every (UOp.Widths c) (fun _ => True) ∧ t1.Counts (2 ^ (c.ssz - 1)) 0)) :
    branchVerifier me (ramTreeGen lib c ⟨[], [], []⟩ t) = branchVerifier me (ramTreeGen lib c ⟨[], [], []⟩ t') := by
  have : 2 ^ (c.ssz - 1) < 2 ^ 64 := Nat.pow_lt_pow_right (by decide) (by omega)
  exact branchVerifier_alike me (ramTree_alike this t h hw rfl)

end

section
variable {F : Type} [Field F] [PackField F] [DecidableEq F]
variable {α : Type} {S : Nat} {junk : List Byte} {p : SProg α} {me : MixEnv F} {v : BView F}

/-- C105 (what holds with a memory). The verifier runs a branching program with a memory, which on every path makes between three and
`2^(step_sz-1)` accesses, and its check; the prover runs any program.  If the verifier accepts for at least six values of `Delta`, the challenges
of the batches are not bad and the verifier's hash does not collide on the lists it hashes, then the session is a run of the verifier's program
on some inputs in which the memory returned some values: the program took the path which these values decide, all claims are true, and the
outputs and the result `ok` of the check are what the verifier saw.  If the check gave `true`, then: the extra index bit of a
committed sorted row is set; or the challenge of the comparison is a root of the difference of two different products; or every read returned the
latest value written to its address, only the smallest address may have been read before it was accessed, and, if the program has no `access`
and wrote every address before reading it, the path is that of the plain program.  Missing: as in C104 (straight-line programs are branching
programs), the extra bits (`C104_stale`) and `access` with the write flag (`C104_false`). -/
theorem C105_partial (hroom : ∀ k, me.sz ≤ (me.auth k).length) (hsz : 0 < me.sz) {lib : CmpLib} (hl : lib.Good) (hno : lib.NoIn) {c : RamCfg}
    (hc : c.isz + c.ssz + 1 ≤ 64 ∧ 1 ≤ c.isz ∧ c.vsz ≤ 64) (hss : 1 ≤ c.ssz) {t : RamTree}
    (hw : t.Every (fun _ => True) (fun t1 => t1.Every (UOp.Widths c) (fun _ => True) ∧ t1.Counts (2 ^ (c.ssz - 1)) 0))
    {C : MCom F} {dg : F} (hC : BranchCommitted S junk p me v (ramTreeGen lib c ⟨[], [], []⟩ t) C dg) (hs : MixSeeds v C)
    (D : Finset F) (hD6 : 6 ≤ D.card) (hD : ∀ d ∈ D, ∃ V, BranchAccepts S junk p me v (ramTreeGen lib c ⟨[], [], []⟩ t) d V)
    (hhash : ∀ d1 ∈ D, ∀ d2 ∈ D, ∀ V1 V2, BranchAccepts S junk p me v (ramTreeGen lib c ⟨[], [], []⟩ t) d1 V1 →
      BranchAccepts S junk p me v (ramTreeGen lib c ⟨[], [], []⟩ t) d2 V2 → v.hash V1.b.digest = v.hash V2.b.digest → V1.b.digest = V2.b.digest) :
    ∃ pre' b t1 us' u t2 w ok post' b2 r, t.PathLike ⟨[], [], []⟩ pre' b t1 ∧ t1.TraceLike c ⟨b, []⟩ us' u t2 ∧
      t2.PathLike ⟨u.bp.wires ++ w, u.bp.outs ++ [ok], u.bp.claims⟩ post' b2 () ∧ (∀ x ∈ b2.claims, x = false) ∧
      (∀ d ∈ D, ∀ V, BranchAccepts S junk p me v (ramTreeGen lib c ⟨[], [], []⟩ t) d V →
        V.b.outs = b2.outs ∧ V.b.outs[u.bp.outs.length]? = some ok ∧ V.rs = [r]) ∧
      (ok = true →
        (∃ k < u.log.length, (C.b.wires.map lsb)[u.bp.wires.length + k * rowW c + (rowW c - 1)]? = some true) ∨
        (prodAt r (((C.fw.map Prod.fst).drop u.log.length).take u.log.length) = prodAt r ((C.fw.map Prod.fst).take u.log.length) ∧
          ¬ (((C.fw.map Prod.fst).drop u.log.length).take u.log.length).Perm ((C.fw.map Prod.fst).take u.log.length)) ∨
        (ReadsLastWrite u.log ∧
          (∀ (i : Nat) (e : Acc Nat), u.log[i]? = some e → e.op = false → (∀ (j : Nat) (f : Acc Nat), j < i → u.log[j]? = some f → f.idx ≠ e.idx) →
            ∀ f ∈ u.log, e.idx ≤ f.idx) ∧
          (t1.Every UOp.Plain (fun _ => True) → WrittenFirst u.log → t1.RunLike c ⟨b, []⟩ us' u t2))) := by
  have h64 : 2 ^ (c.ssz - 1) < 2 ^ 64 := Nat.pow_lt_pow_right (by decide) (by omega)
  have hw' : ∀ {t : RamTree}, t.Every (fun _ => True) (fun t1 => t1.Every (UOp.Widths c) (fun _ => True) ∧ t1.Counts (2 ^ (c.ssz - 1)) 0) →
      t.Every (fun _ => True) (fun t1 => t1.Counts (2 ^ (c.ssz - 1)) 0) := by
    intro t
    induction t with
    | fin a => exact fun h => h.2
    | undef => exact fun h => h
    | ops l k ih => exact fun h => ⟨h.1, fun o => ih o (h.2 o)⟩
  obtain ⟨pre', ops', post', pl, hrun, hcl, hfs, hwires, hrs, hout⟩ := C105_extraction hroom hsz (ramTree_five h64 t (hw' hw)) hC hs D hD6 hD hhash
  obtain ⟨ch, hch⟩ : ∃ ch : Nat → F, Begins ch pl.rs := ⟨fun i => (pl.rs[i]?).getD 0, fun i r hr => by simp only [hr, Option.getD_some]⟩
  obtain ⟨b, t1', s, t2, b2, e1, e2, e3, hpl⟩ := (hrun ch hch).run
  obtain ⟨t1, p', k1, rfl, k3⟩ := ramTree_like t e1 rfl
  obtain ⟨hwd, hcn⟩ := every_like k1 hw
  have hsim0 : CSim c ⟨p'.wires, 0, ramInit c, []⟩ ⟨b, []⟩ (⟨b, [], []⟩ : MPlain F) := ⟨rfl, k3, rfl, rfl, rfl, rfl, rfl, by simp⟩
  obtain ⟨us', u, g', sm, bb, bb', j1, j2, j3, j4, j5, j6, j7⟩ := uTree_like hc hss t1 hsim0 hwd hcn e2
  subst hpl
  have hgrow := pathLike_outs e3
  have hwg := pathLike_wires e3
  simp only at hfs hwires hrs
  rw [hwires] at hwg
  obtain ⟨w, ok, v1, v2, v3⟩ := ram_verdict hl hno hc j2 j6 j7 j3 j4 j5 hwg
  rw [v1] at e3 hgrow
  refine ⟨pre', b, t1, us', u, t2, w, ok, post', b2, ch 0, k1, j1, e3, hcl, ?_, ?_⟩
  · intro d hd V hV
    obtain ⟨o1, o2⟩ := hout d hd V hV
    refine ⟨o1, ?_, by rw [o2, ← v2]⟩
    obtain ⟨x, hx⟩ := hgrow
    rw [o1]
    simp only at hx ⊢
    rw [← hx, List.append_assoc, List.getElem?_append_right (le_refl _), Nat.sub_self]
    rfl
  · intro hok
    rw [← hfs]
    rcases v3 hok with h | h | ⟨q1, q2⟩
    · exact .inl h
    · exact .inr (.inl h)
    · exact .inr (.inr ⟨q1, q2, fun hpl hwf => j1.plain hwd hpl q1 hwf⟩)

end
/-! ### a concrete program -/

/-- `exMixV` with a hash for which the digests of at most 128 openings do not collide. -/
noncomputable def exHuntV : BView GF128 := { exMixV with hash := innFrom 0 }

theorem exHunt_good {d : GF128} (hd : lsb d = true) : (exMixK.at exHuntV d).Good where
  ne := ⟨BView.env_good _ hd, exNet_good.dec_enc, exNet_good.enc_length, exNet_good.decD_encD, exNet_good.encD_length, exNet_good.ext⟩
  sz := Nat.one_pos
  cap := Nat.one_pos
  keys := fun _ => rfl
  room := fun k => by show 1 ≤ 3; decide
  sv := exMix_good.sv
  lo := exMix_good.lo
  hi := exMix_good.hi
  split := exMix_good.split

theorem innFrom_bits_zero {l : List Bool} (hl : l.length ≤ 128) (h : (innFrom 0 (l.map bit) : GF128) = 0) : ∀ b ∈ l, b = false := by
  have e : (wordF (bitsNum l) : GF128) = wordF 0 := by
    have h1 := packList_sum (F := GF128) hl 0
    rw [pow_zero, one_mul, packList_eq, h] at h1
    simp only [Nat.zero_add] at h1
    rw [wordF_eq, wordF_eq, ← h1]
    simp [bit_false]
  have hlt : bitsNum l < 2 ^ 128 := lt_of_lt_of_le (bitsNum_lt l) (Nat.pow_le_pow_right (by decide) hl)
  have h0 := wordF_inj hlt (by decide) e
  intro b hb
  obtain ⟨i, hi⟩ := List.mem_iff_getElem?.1 hb
  have := bitsNum_testBit l hi
  rw [h0, Nat.zero_testBit] at this
  exact this.symm

/-- With this hash there are no collisions on the lists of openings of one committed session. -/
theorem exHunt_hash {C : MCom GF128} (hC : C.b.opened.length ≤ 128) {d1 d2 : GF128} {V1 V2 : MVer GF128} {ch1 ch2 : List Cheat}
    (h1 : V1.b = verImg d1 C.b ch1) (h2 : V2.b = verImg d2 C.b ch2) (h : exHuntV.hash V1.b.digest = exHuntV.hash V2.b.digest) :
    V1.b.digest = V2.b.digest := by
  have key : ∀ (d : GF128) (l : List (GF128 × Bool)) (off : Nat), innFrom off (l.map (fun o => openVer d (keyOf d o.1) o.2)) =
      innFrom off (l.map Prod.fst) + innFrom off ((l.map (fun o => lsb o.1 ^^ o.2)).map bit) * d := by
    intro d l
    induction l with
    | nil => intro off; simp [innFrom]
    | cons o l ih =>
      intro off
      rw [List.map_cons, innFrom, ih, openVer_keyOf]
      simp only [List.map_cons, innFrom]
      ring
  by_cases hd : d1 = d2
  · rw [h1, h2, hd]; rfl
  · rw [h1, h2] at h ⊢
    simp only [verImg] at h ⊢
    have h' : innFrom 0 (C.b.opened.map (fun o => openVer d1 (keyOf d1 o.1) o.2)) = innFrom 0 (C.b.opened.map (fun o => openVer d2 (keyOf d2 o.1) o.2)) := h
    rw [key, key] at h'
    have hz : innFrom 0 ((C.b.opened.map (fun o => lsb o.1 ^^ o.2)).map bit) * (d1 - d2) = 0 := by linear_combination h'
    rcases mul_eq_zero.1 hz with hz | hz
    · have := innFrom_bits_zero (by rw [List.length_map]; exact hC) hz
      refine List.map_congr_left (fun o ho => ?_)
      have e := this _ (List.mem_map.2 ⟨o, ho, rfl⟩)
      rw [openVer_keyOf, openVer_keyOf, e, bit_false, zero_mul, zero_mul]
    · exact absurd (sub_eq_zero.1 hz) hd

/-- Reads and reveals the lowest bit of what it read, until that is `false`, at most `n` times; then reveals a wire. -/
def exHuntLoop : Nat → Branch UOp (Branch BOp Unit)
  | 0 => .fin (.fin ())
  | n + 1 => .ops [.read (if n = 1 then [1, 0] else [0, 1]), .bool (.reveal (11 + 6 * (1 - n)))] (fun o =>
      if o.getLast? = some true then exHuntLoop n else .fin (.ops [.reveal 1] (fun o => if o.length = 5 then .fin () else .undef)))

/-- Uses a memory if its first input is set; otherwise undefined. -/
def exHunt (a b c : Bool) : RamTree := .ops [.input a, .input b, .input c, .reveal 0] (fun o =>
  if o = [true] then .fin (.ops [.write [0, 1] [1, 2], .write [1, 0] [0, 0]] (fun _ => exHuntLoop 2)) else .undef)

theorem exHunt_widths (a b c : Bool) :
    (exHunt a b c).Every (fun _ => True) (fun t1 => t1.Every (UOp.Widths exRam) (fun _ => True) ∧ t1.Counts (2 ^ (exRam.ssz - 1)) 0) := by
  refine ⟨fun _ _ => trivial, fun o => ?_⟩
  show Branch.Every _ _ (if o = [true] then _ else _)
  split
  · refine ⟨⟨?_, fun _ => ⟨?_, fun o => ?_⟩⟩, fun _ o => ?_⟩
    · intro x hx
      simp only [List.mem_cons, List.not_mem_nil, or_false] at hx
      rcases hx with rfl | rfl <;> exact ⟨rfl, rfl⟩
    · intro x hx
      simp only [List.mem_cons, List.not_mem_nil, or_false] at hx
      rcases hx with rfl | rfl <;> trivial
    · show Branch.Every _ _ (if _ then _ else _)
      split
      · refine ⟨?_, fun o => ?_⟩
        · intro x hx
          simp only [List.mem_cons, List.not_mem_nil, or_false] at hx
          rcases hx with rfl | rfl <;> trivial
        · show Branch.Every _ _ (if _ then _ else _)
          split <;> trivial
      · trivial
    · show Branch.Counts _ _ (if o.getLast? = some true then _ else _)
      by_cases ho : o.getLast? = some true
      · rw [if_pos ho]
        intro o'
        show Branch.Counts _ _ (if o'.getLast? = some true then _ else _)
        by_cases ho' : o'.getLast? = some true
        · rw [if_pos ho']; exact ⟨by decide, by decide⟩
        · rw [if_neg ho']; exact ⟨by decide, by decide⟩
      · rw [if_neg ho]; exact ⟨by decide, by decide⟩
  · trivial

theorem exHunt_pre : (exHunt true false true).path plainStep Plain.outs ⟨[], [], []⟩ = some ([.input true, .input false, .input true, .reveal 0],
    ⟨[true, false, true], [true], []⟩, .ops [.write [0, 1] [1, 2], .write [1, 0] [0, 0]] (fun _ => exHuntLoop 2)) := rfl

theorem exHunt_path : ∃ u, (Branch.ops [.write [0, 1] [1, 2], .write [1, 0] [0, 0]] (fun _ => exHuntLoop 2)).path (uplainStep exRam) (fun x => x.bp.outs)
      ⟨⟨[true, false, true], [true], []⟩, []⟩ = some ([.write [0, 1] [1, 2], .write [1, 0] [0, 0], .read [1, 0], .bool (.reveal 11), .read [0, 1],
        .bool (.reveal 17)], u, .ops [.reveal 1] (fun o => if o.length = 5 then .fin () else .undef)) ∧
    u.bp.outs = [true, true, false] ∧ u.bp.claims = [] ∧ u.log = [⟨1, true, 2⟩, ⟨2, true, 3⟩, ⟨2, false, 3⟩, ⟨1, false, 2⟩] ∧
    ∃ l, u.bp.wires = true :: false :: l :=
  ⟨_, rfl, rfl, rfl, rfl, _, rfl⟩

/-- The hypotheses of C105 are met by the honest prover for six values of `Delta`; the loop goes round twice, and the verifier has what was
revealed on the way, `true` from the check, and the wire revealed at the end. -/
theorem exHunt_sound : ∃ (p : SProg (MPrv GF128)) (C : MCom GF128) (dg : GF128),
    BranchCommitted 32768 [] p exMixK exHuntV (ramTreeGen empLib exRam ⟨[], [], []⟩ (exHunt true false true)) C dg ∧ MixSeeds exHuntV C ∧ 6 ≤ exDeltas.card ∧
    (∀ d ∈ exDeltas, ∃ V, BranchAccepts 32768 [] p exMixK exHuntV (ramTreeGen empLib exRam ⟨[], [], []⟩ (exHunt true false true)) d V ∧
      V.b.outs = [true, true, false, true, false]) ∧
    ∀ d1 ∈ exDeltas, ∀ d2 ∈ exDeltas, ∀ V1 V2,
      BranchAccepts 32768 [] p exMixK exHuntV (ramTreeGen empLib exRam ⟨[], [], []⟩ (exHunt true false true)) d1 V1 →
      BranchAccepts 32768 [] p exMixK exHuntV (ramTreeGen empLib exRam ⟨[], [], []⟩ (exHunt true false true)) d2 V2 →
      exHuntV.hash V1.b.digest = exHuntV.hash V2.b.digest → V1.b.digest = V2.b.digest := by
  have hlsb : ∀ d ∈ exDeltas, lsb d = true := by
    intro d hd
    simp only [exDeltas, Finset.mem_image, Finset.mem_range] at hd
    obtain ⟨n, hn, rfl⟩ := hd
    show (BitVec.ofNat 128 (2 * n + 1)).getLsbD 0 = true
    interval_cases n <;> decide
  have hx0 : (gX : GF128) ≠ 0 := by decide
  have triv : ∀ n k, lastBatch n k = 0 ∨ 1 ≤ lastBatch n k := fun n k => by omega
  obtain ⟨u, hu, ho, hcl, hlog, l, hwires⟩ := exHunt_path
  have hpath : ∀ w, (Branch.ops [.reveal 1] (fun o => if o.length = 5 then .fin () else .undef)).path plainStep Plain.outs
      ⟨u.bp.wires ++ w, u.bp.outs ++ [true], u.bp.claims⟩ =
        some ([.reveal 1], ⟨u.bp.wires ++ w, [true, true, false, true, false], []⟩, ()) := by
    intro w
    rw [ho, hcl, hwires]
    rfl
  have hwf : WrittenFirst u.log := by
    rw [hlog]
    intro i e he hop
    match i, he with
    | 0, he => cases he; cases hop
    | 1, he => cases he; cases hop
    | 2, he => cases he; exact ⟨3, rfl⟩
    | 3, he => cases he; exact ⟨2, rfl⟩
    | n + 4, he => cases he
  have hacc : ∀ d, lsb d = true → ∃ V, BranchAccepts 32768 [] (branchProver (exMixK.at exHuntV 1) (ramTreeGen empLib exRam ⟨[], [], []⟩ (exHunt true false true)))
      exMixK exHuntV (ramTreeGen empLib exRam ⟨[], [], []⟩ (exHunt true false true)) d V ∧ V.b.outs = [true, true, false, true, false] := by
    intro d hd
    obtain ⟨_, ops, h1, _, h2⟩ := C102_memory (exMixK.at exHuntV d) (exHunt_good hd) Nat.one_pos (Nat.le_refl 1) (Nat.le_refl 1) Nat.one_pos
      (S := 32768) (by decide) C97_circuits (c := exRam) (by decide) (exHunt true false true) exHunt_pre hu (by rw [hlog]; decide) (by rw [hlog]; decide) hwf
    have h3 := h2 (fun w => ⟨_, _, hpath w, by simp, triv _ _⟩) (triv _ _) []
    rw [branchProver_at exMixK exHuntV d 1] at h3
    obtain ⟨⟨_, _, _, _, _, c', P, V, k1, k2, k3⟩, _⟩ := h3 _ .init
    obtain ⟨⟨_, _, _, k4, _⟩, k5⟩ := h3 c' k1
    obtain ⟨⟨ch, _, _, _, mp, _, _, _, k6, k7, _⟩, _⟩ := k4 P V k2 k3
    obtain ⟨w, post, b2, k8, k9, k10⟩ := k5 P V k2 k3
    rw [hpath w] at k8
    cases k8
    exact ⟨V, ⟨hd, ⟨c', k1, k3⟩, k6, k7⟩, k10⟩
  obtain ⟨V, hV, hVo⟩ := hacc 1 lsb_one
  obtain ⟨C, dg, hC, _, _, _, hop, _⟩ := C105_committed (me := exMixK) (v := exHuntV) (fun k => by show 1 ≤ 3; decide) (by decide) 1 V _ lsb_one
    hV.2.1.choose_spec.1 hV.2.1.choose_spec.2
  refine ⟨_, C, dg, hC, C105_unit rfl rfl rfl rfl rfl (fun _ _ => hx0) (fun _ => hx0) (fun _ => one_ne_zero) hC, ?_, fun d hd => hacc d (hlsb d hd), ?_⟩
  · rw [exDeltas, Finset.card_image_of_injOn]
    · simp
    · intro a ha b hb h
      have := congrArg (fun x : GF128 => x.bits.toNat) h
      simp at this ha hb
      omega
  · intro d1 hd1 d2 hd2 V1 V2 h1 h2 hh
    obtain ⟨⟨_, e1⟩, _⟩ := branchAccepts_facts (fun k => by show 1 ≤ 3; decide) (by decide) hC h1
    obtain ⟨⟨_, e2⟩, _⟩ := branchAccepts_facts (fun k => by show 1 ≤ 3; decide) (by decide) hC h2
    have hl : C.b.opened.length = 5 := by
      have := congrArg List.length (hop.symm.trans hVo)
      simpa using this
    exact exHunt_hash (by omega) e1 e2 hh

/-- So C105_partial applies to it. -/
example : ∃ pre' b t1 us' u t2, (exHunt true false true).PathLike ⟨[], [], []⟩ pre' b t1 ∧ t1.TraceLike exRam ⟨b, []⟩ us' u t2 := by
  obtain ⟨p, C, dg, h1, h2, h3, h4, h5⟩ := exHunt_sound
  obtain ⟨pre', b, t1, us', u, t2, w, ok, post', b2, r, k1, k2, _⟩ := C105_partial (fun k => by show 1 ≤ 3; decide) (by decide) C97_circuits empLib_noIn
    (by decide) (by decide) (exHunt_widths true false true) h1 h2 exDeltas h3 (fun d hd => (h4 d hd).imp (fun _ h => h.1)) h5
  exact ⟨pre', b, t1, us', u, t2, k1, k2⟩

theorem Branch.alike_refl {o α : Type} {R : o → o → Prop} {Q : α → α → Prop} (hR : ∀ x, R x x) (hQ : ∀ a, Q a a) (t : Branch o α) : t.Alike R Q t := by
  induction t with
  | fin a => exact hQ a
  | undef => trivial
  | ops l k ih => exact ⟨List.forall₂_same.2 (fun x _ => hR x), ih⟩

/-- The hypotheses of C105_public are met: the verifier of this program is the same for all values of the three inputs, although with the other value
of the first one the prover itself takes another path. -/
example (a b c : Bool) : branchVerifier exMix (ramTreeGen empLib exRam ⟨[], [], []⟩ (exHunt true false true)) =
    branchVerifier exMix (ramTreeGen empLib exRam ⟨[], [], []⟩ (exHunt a b c)) := by
  have hB : ∀ o : BOp, BOp.same o o := by intro o; cases o <;> simp [BOp.same]
  have hU : ∀ o : UOp, UOp.same o o := by intro o; cases o <;> simp [UOp.same, hB]
  refine C105_public exMix (by decide) ?_ (exHunt_widths true false true)
  exact ⟨.cons trivial (.cons trivial (.cons trivial (.cons rfl .nil))), fun o => Branch.alike_refl hB
    (fun t => Branch.alike_refl hU (fun t => Branch.alike_refl hB (fun _ => rfl) t) t) _⟩

/-- The hypothesis of C105_path. -/
example (ch : Nat → GF128) : WalkLike ch (.ops [.input false, .reveal 0] (fun o => if o = [true] then .fin (.ops [.pack [0]] (fun _ => .fin (.fin ()))) else .undef))
    [.input true, .reveal 0] [.pack [0]] [] ⟨⟨[true], [true], []⟩, [packList [true]], []⟩ :=
  ⟨⟨⟨[true], [true], []⟩, _, ⟨⟨[true], [true], []⟩, [packList [true]], []⟩, .fin (), ⟨[true], [true], []⟩,
    .ops (l1 := [.input true, .reveal 0]) (l2 := []) (.cons trivial (.cons rfl .nil)) rfl (.fin _ _),
    .ops (l1 := [.pack [0]]) (l2 := []) (.cons rfl .nil) rfl (.fin _ _), .fin _ _, rfl⟩⟩

end EmpZk
