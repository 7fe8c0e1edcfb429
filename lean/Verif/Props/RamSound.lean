/-
C104: soundness of a program with a memory (`ZKRAM`) against any prover on the network: what an accepting verifier can conclude about the
values the memory returned, and what it cannot.
-/
import Verif.Lemmas.RamSound
import Verif.Props.MixSound
import Verif.Props.RamNet
import Verif.Props.ZkRam

namespace EmpZk

section
variable {F : Type} [Field F] [PackField F] [DecidableEq F]
variable {α : Type} {S : Nat} {junk : List Byte} {p : SProg α} {me : MixEnv F} {v : BView F} {pre : List BOp} {ops : List MOp} {post : List BOp}

/-- What the check of a memory shows on plain values, for any values returned by the memory and any sorted rows. -/
theorem ram_verdict {lib : CmpLib} (hl : lib.Good) (hno : lib.NoIn) {c : RamCfg} (hc : c.isz + c.ssz + 1 ≤ 64 ∧ 1 ≤ c.isz ∧ c.vsz ≤ 64) {g : RNet} {u : UPlain}
    {sm s : MPlain F} (g3 : CSim c g u sm) (h3 : 3 ≤ u.log.length) (hlen : u.log.length ≤ 2 ^ (c.ssz - 1)) {bb bb' : List MOp}
    (hb : checkGen lib c g = some bb) (t2 : List.Forall₂ MOp.same bb bb') {ch : Nat → F} (f2 : mplainOps ch sm bb' = some s) {ws : List Bool}
    (hwg : s.bp.wires <+: ws) :
    ∃ t ok, s.bp = ⟨u.bp.wires ++ t, u.bp.outs ++ [ok], u.bp.claims⟩ ∧ s.rs = [ch 0] ∧ (ok = true →
      (∃ k < u.log.length, ws[u.bp.wires.length + k * rowW c + (rowW c - 1)]? = some true) ∨
      (prodAt (ch 0) ((s.fs.drop u.log.length).take u.log.length) = prodAt (ch 0) (s.fs.take u.log.length) ∧
        ¬ ((s.fs.drop u.log.length).take u.log.length).Perm (s.fs.take u.log.length)) ∨
      (ReadsLastWrite u.log ∧
        ∀ (i : Nat) (e : Acc Nat), u.log[i]? = some e → e.op = false → (∀ (j : Nat) (f : Acc Nat), j < i → u.log[j]? = some f → f.idx ≠ e.idx) →
          ∀ f ∈ u.log, e.idx ≤ f.idx)) := by
  have hss : 1 ≤ c.ssz := by
    by_contra h0
    rw [show c.ssz - 1 = 0 by omega] at hlen
    omega
  obtain ⟨bits, rest, c1, c2, c3, c4⟩ := csim_check hl hno hc g3 h3 hlen hb
  rw [c2] at t2
  obtain ⟨rows, r1, r2, r3⟩ := check_rows c1 (fun o ho => (c3 o ho).1) t2
  obtain ⟨t, c5⟩ := c4 rows r1 r2
  obtain ⟨fs', c6⟩ := c5 ch
  rw [r3, c6] at f2
  split at f2
  case isFalse => cases f2
  case isTrue hprod =>
  rw [Option.some.injEq] at f2
  subst f2
  have hin : ∀ l : List RamEnt, (l.map (fun e => (wordF (ramPacked c e) : F))) = (l.map (ramPacked c)).map wordF := by
    intro l; rw [List.map_map]; rfl
  refine ⟨rows.flatMap (rowBits c) ++ t, ramCond c rows, rfl, rfl, ?_⟩
  intro hok
  simp only
  rw [List.take_left' (by rw [List.length_map, rowsOfLog_length]), List.drop_left' (by rw [List.length_map, rowsOfLog_length]),
    List.take_left' (by rw [List.length_map, r1])]
  by_cases hx : ∃ k < u.log.length, ws[u.bp.wires.length + k * rowW c + (rowW c - 1)]? = some true
  · exact .inl hx
  by_cases hperm : (rows.map (fun e => (wordF (ramPacked c e) : F))).Perm ((rowsOfLog u.log).map (fun e => wordF (ramPacked c e)))
  · refine .inr (.inr ?_)
    have hfits : ∀ e ∈ rowsOfLog u.log, e.Fits c := by
      intro e he
      obtain ⟨i, hi, rfl⟩ := List.getElem_of_mem he
      rw [rowsOfLog_length] at hi
      have := g3.fits u.log[i] (List.getElem_mem hi)
      have hp2 : 2 ^ (c.ssz - 1) ≤ 2 ^ c.ssz := Nat.pow_le_pow_right (by decide) (by omega)
      simp only [rowsOfLog, List.getElem_mapIdx]
      exact ⟨this.1, by show i < _; omega, this.2⟩
    have hlt : ∀ l : List RamEnt, ∀ n ∈ l.map (ramPacked c), n < 2 ^ 128 := by
      intro l n hn
      obtain ⟨e, _, rfl⟩ := List.mem_map.1 hn
      exact ramPacked_lt hc e
    have htop : ∀ e ∈ rows, e.idx < 2 ^ c.isz ∧ e.step < 2 ^ c.ssz ∧ e.val < 2 ^ c.vsz := by
      intro e he
      obtain ⟨k, hk⟩ := List.mem_iff_getElem?.1 he
      have hkl := (List.getElem?_eq_some_iff.1 hk).1
      obtain ⟨y, hy⟩ := hwg
      have hat : RowsAt c u.bp.wires.length rows ws := by
        simp only at hy
        rw [← hy, ← List.append_assoc, List.append_assoc]
        exact (rowsAt_flatMap c _ rows).app _
      refine ⟨row_top hat hk (r2 e he) (fun h => hx ⟨k, by omega, h⟩), (r2 e he).2⟩
    rw [hin, hin] at hperm
    obtain ⟨q1, q2⟩ := C46_partial c hc hss (rowsOfLog u.log) rows hfits (rowsOfLog_step u.log) (by rw [rowsOfLog_length]; omega) htop hok
      (perm_wordF (hlt rows) (hlt _) hperm)
    rw [rowsOfLog_acc] at q1
    refine ⟨q1, ?_⟩
    intro i e he hop hj f hf
    obtain ⟨hi, rfl⟩ := List.getElem?_eq_some_iff.1 he
    obtain ⟨j, hjl, rfl⟩ := List.getElem_of_mem hf
    have := q2 i (by rw [rowsOfLog_length]; exact hi) (by simpa [rowsOfLog] using hop)
      (fun j hj' => by simpa [rowsOfLog] using hj j u.log[j] hj' (List.getElem?_eq_getElem (by omega)))
      ((rowsOfLog u.log)[j]'(by rw [rowsOfLog_length]; exact hjl)) (List.getElem_mem _)
    simpa [rowsOfLog] using this
  · exact .inr (.inl ⟨hprod, hperm⟩)

/-- C104 (what holds). Fix everything but the verifier's `Delta`, and let the prover run any program; the verifier runs a program with a memory
and its check.  If the verifier accepts for at least six values of `Delta`, the challenges of the batches are not bad for the committed values and
the verifier's hash does not collide on the lists it hashes, then the session is a run of the verifier's program on some inputs in which
the memory returned some values, all claims are true, and the outputs and the result `ok` of the check are what the verifier saw.  If the check
gave `true`, then: the extra index bit of a committed sorted row is set; or the challenge of the comparison is a root of the difference of
two different products; or every read returned the latest value written to its address, only the smallest address may have been read before
it was accessed, and a program without `access` that writes every address before reading it was run as written.  Missing: that nothing forces the
extra bits to be zero (`C104_stale`), and `access` with the write flag, which does not store its argument (`C104_false`). -/
theorem C104_partial (hroom : ∀ k, me.sz ≤ (me.auth k).length) (hsz : 0 < me.sz) {lib : CmpLib} (hl : lib.Good) (hno : lib.NoIn) {c : RamCfg}
    (hc : c.isz + c.ssz + 1 ≤ 64 ∧ 1 ≤ c.isz ∧ c.vsz ≤ 64) {us : List UOp} (hw : ∀ o ∈ us, o.Widths c) (h3 : 3 ≤ accesses us)
    (hlen : accesses us ≤ 2 ^ (c.ssz - 1)) {b0 : Plain} (hpre : plainRun pre = some b0) (hgen : ramGen lib c b0.wires us = some ops)
    {C : MCom F} {dg : F} (hC : MixCommitted S junk p me v pre ops post C dg) (hs : MixSeeds v C)
    (D : Finset F) (hD6 : 6 ≤ D.card) (hD : ∀ d ∈ D, ∃ V, MixAccepts S junk p me v pre ops post d V)
    (hhash : ∀ d1 ∈ D, ∀ d2 ∈ D, ∀ V1 V2, MixAccepts S junk p me v pre ops post d1 V1 → MixAccepts S junk p me v pre ops post d2 V2 →
      v.hash V1.b.digest = v.hash V2.b.digest → V1.b.digest = V2.b.digest) :
    ∃ pre' us' post' b u t ok b2 r, List.Forall₂ BOp.same pre pre' ∧ List.Forall₂ UOp.same us us' ∧ List.Forall₂ BOp.same post post' ∧
      plainRun pre' = some b ∧ UTrace c ⟨b, []⟩ us' u ∧
      post'.foldlM plainStep ⟨u.bp.wires ++ t, u.bp.outs ++ [ok], u.bp.claims⟩ = some b2 ∧ (∀ x ∈ b2.claims, x = false) ∧
      (∀ d ∈ D, ∀ V, MixAccepts S junk p me v pre ops post d V → V.b.outs = b2.outs ∧ V.b.outs[u.bp.outs.length]? = some ok ∧ V.rs = [r]) ∧
      (ok = true →
        (∃ k < accesses us, (C.b.wires.map lsb)[u.bp.wires.length + k * rowW c + (rowW c - 1)]? = some true) ∨
        (prodAt r (((C.fw.map Prod.fst).drop (accesses us)).take (accesses us)) = prodAt r ((C.fw.map Prod.fst).take (accesses us)) ∧
          ¬ (((C.fw.map Prod.fst).drop (accesses us)).take (accesses us)).Perm ((C.fw.map Prod.fst).take (accesses us))) ∨
        (ReadsLastWrite u.log ∧
          (∀ (i : Nat) (e : Acc Nat), u.log[i]? = some e → e.op = false → (∀ (j : Nat) (f : Acc Nat), j < i → u.log[j]? = some f → f.idx ≠ e.idx) →
            ∀ f ∈ u.log, e.idx ≤ f.idx) ∧
          ((∀ o ∈ us, o.Plain) → WrittenFirst u.log → uplainOps c ⟨b, []⟩ us' = some u))) := by
  have hss : 1 ≤ c.ssz := by
    by_contra h0
    rw [show c.ssz - 1 = 0 by omega] at hlen
    omega
  have h64 : accesses us < 2 ^ 64 := by
    have : 2 ^ (c.ssz - 1) < 2 ^ 64 := Nat.pow_lt_pow_right (by decide) (by omega)
    omega
  simp only [ramGen, Option.bind_eq_bind, Option.bind_eq_some_iff, Option.some.injEq, Prod.exists] at hgen
  obtain ⟨a, g, ha, bb, hb, rfl⟩ := hgen
  obtain ⟨cn1, cn2⟩ := uGens_count ha
  rw [show (ramInit c).step = 0 from rfl, Nat.zero_add] at cn1
  rw [List.length_nil, Nat.zero_add] at cn2
  have h5 : ∀ is, MOp.mulN is ∈ a ++ bb → is.length = 5 := by
    intro is his
    rcases List.mem_append.1 his with h | h
    · exact absurd rfl (uGens_kinds ha _ h is)
    · exact checkGen_kinds (by omega) (by omega) (by omega) hb is h
  obtain ⟨pre', ops', post', pl, s1, s2, s3, hrun, hcl, hfs, hwires, hrs, hout⟩ := C103_extraction hroom hsz h5 hC hs D hD6 hD hhash
  obtain ⟨ch, hch⟩ : ∃ ch : Nat → F, Begins ch pl.rs := ⟨fun i => (pl.rs[i]?).getD 0, fun i r hr => by simp only [hr, Option.getD_some]⟩
  have hrun' := hrun ch hch
  simp only [mplainRun, Option.bind_eq_bind, Option.bind_eq_some_iff, Option.some.injEq] at hrun'
  obtain ⟨b, e1, s, e2, b2, e3, hpl⟩ := hrun'
  obtain ⟨a', bb', rfl, t1, t2⟩ := same_split s2
  rw [mplainOps_append, Option.bind_eq_some_iff] at e2
  obtain ⟨sm, f1, f2⟩ := e2
  have hl0 : b0.wires.length = b.wires.length := plainRun_len s1 rfl hpre e1
  have hsim0 : CSim c ⟨b0.wires, 0, ramInit c, []⟩ ⟨b, []⟩ (⟨b, [], []⟩ : MPlain F) := ⟨rfl, hl0, rfl, rfl, rfl, rfl, rfl, by simp⟩
  obtain ⟨us', u, g1, g2, g3⟩ := csim_steps hc hss hsim0 (by omega) hw ha t1 f1
  have hlog : u.log.length = accesses us := by rw [← g3.step, cn1]
  subst hpl
  have hgrow := (plainRun_grows post' e3).1
  have hwg := plainRun_wires_grow post' e3
  simp only at hfs hwires hrs
  rw [hwires] at hwg
  obtain ⟨t, ok, v1, v2, v3⟩ := ram_verdict hl hno hc g3 (by omega) (by omega) hb t2 f2 hwg
  rw [v1] at e3 hgrow
  refine ⟨pre', us', post', b, u, t, ok, b2, ch 0, s1, g1, s3, e1, g2, e3, hcl, ?_, ?_⟩
  · intro d hd V hV
    obtain ⟨o1, o2⟩ := hout d hd V hV
    refine ⟨o1, ?_, by rw [o2, ← v2]⟩
    obtain ⟨x, hx⟩ := hgrow
    rw [o1]
    simp only at hx ⊢
    rw [← hx, List.append_assoc, List.getElem?_append_right (le_refl _), Nat.sub_self]
    rfl
  · intro hok
    rw [← hfs, ← hlog]
    rcases v3 hok with h | h | ⟨q1, q2⟩
    · exact .inl h
    · exact .inr (.inl h)
    · refine .inr (.inr ⟨q1, q2, fun hpl hwf => ?_⟩)
      exact g2.plain (forall₂_all (P := UOp.Widths c) (fun _ _ => UOp.same_widths) g1 hw)
        (forall₂_all (P := UOp.Plain) (fun _ _ => UOp.same_plain) g1 hpl) q1 hwf

/-- C104. Conversely the prover can bring about every run: whatever values it makes the memory return, and whatever sorted rows it commits to (of the
widths of the rows), as long as their packed words are those of the accesses up to order, there are inputs with which the session goes through
under every interleaving, nobody complains, and both parties have the outputs of that run and the value of the condition on these rows. -/
theorem C104_runs (me : MixEnv F) (hg : me.Good) (ht : 0 < me.ne.e.threads) (htc : me.ne.e.threads ≤ me.ne.e.checkSz)
    (hts : me.ne.e.threads ≤ me.sz) (hp : 0 < me.ne.e.polySz) {S : Nat} (hS : 0 < S) {lib : CmpLib} (hl : lib.Good) (hno : lib.NoIn) {c : RamCfg}
    (hc : c.isz + c.ssz + 1 ≤ 64 ∧ 1 ≤ c.isz ∧ c.vsz ≤ 64) {pre pre' post post' : List BOp} {us us' : List UOp} {ops : List MOp}
    (hw : ∀ o ∈ us, o.Widths c) (h3 : 3 ≤ accesses us) (hlen : accesses us ≤ 2 ^ (c.ssz - 1)) {b0 : Plain} (hpre : plainRun pre = some b0)
    (hgen : ramGen lib c b0.wires us = some ops) (hsp : List.Forall₂ BOp.same pre pre') (hsu : List.Forall₂ UOp.same us us')
    (hsq : List.Forall₂ BOp.same post post') {b : Plain} (hpre' : plainRun pre' = some b) {u : UPlain} (hu : UTrace c ⟨b, []⟩ us' u)
    {rows : List RamEnt} (hrows : ∀ e ∈ rows, e.idx < 2 ^ (c.isz + 1) ∧ e.step < 2 ^ c.ssz ∧ e.val < 2 ^ c.vsz)
    (hperm : (rows.map (ramPacked c)).Perm ((rowsOfLog u.log).map (ramPacked c)))
    (hpost : ∀ t, ∃ b2, post'.foldlM plainStep ⟨u.bp.wires ++ t, u.bp.outs ++ [ramCond c rows], u.bp.claims⟩ = some b2 ∧ ∀ x ∈ b2.claims, x = false)
    (ha : lastBatch (mixAnds pre ops post) me.ne.e.checkSz = 0 ∨ me.ne.e.threads ≤ lastBatch (mixAnds pre ops post) me.ne.e.checkSz)
    (hm : lastBatch (mixMuls ops) me.sz = 0 ∨ me.ne.e.threads ≤ lastBatch (mixMuls ops) me.sz) :
    ∃ ops', List.Forall₂ MOp.same ops ops' ∧
      ∀ junk (n : PNet (MPrv F) (MVer F)), PReach S (pnetInit S junk (mixProver me pre' ops' post') (mixVerifier me pre ops post)) n →
        MixFine S me pre' ops' post' n ∧ RamOuts u (ramCond c rows) post' n := by
  have hss : 1 ≤ c.ssz := by
    by_contra h0
    rw [show c.ssz - 1 = 0 by omega] at hlen
    omega
  simp only [ramGen, Option.bind_eq_bind, Option.bind_eq_some_iff, Option.some.injEq, Prod.exists] at hgen
  obtain ⟨a, g, hga, bb, hgb, rfl⟩ := hgen
  obtain ⟨cn1, cn2⟩ := uGens_count hga
  rw [show (ramInit c).step = 0 from rfl, Nat.zero_add] at cn1
  have hl0 : b0.wires.length = b.wires.length := plainRun_len hsp rfl hpre hpre'
  have hsim0 : CSim c ⟨b0.wires, 0, ramInit c, []⟩ ⟨b, []⟩ (⟨b, [], []⟩ : MPlain F) := ⟨rfl, hl0, rfl, rfl, rfl, rfl, rfl, by simp⟩
  obtain ⟨a', s, k1, k2, k3⟩ := csim_fwds hc hss hsim0 (by omega) hw hga hsu hu
  have hlog : u.log.length = accesses us := by rw [← k3.step, cn1]
  obtain ⟨bits, rest, c1, c2, c3, c4⟩ := csim_check hl hno hc k3 (by omega) (by omega) hgb
  have hrl : rows.length = u.log.length := by
    have := hperm.length_eq
    rwa [List.length_map, List.length_map, rowsOfLog_length] at this
  obtain ⟨t, c5⟩ := c4 rows hrl hrows
  obtain ⟨b2, q1, q2⟩ := hpost (rows.flatMap (rowBits c) ++ t)
  have hsame : List.Forall₂ MOp.same (a ++ bb) (a' ++ (((rows.flatMap (rowBits c)).map BOp.input).map MOp.bool ++ rest)) := by
    refine List.rel_append (R := MOp.same) k1 ?_
    rw [c2]
    exact List.rel_append (R := MOp.same) (inputs_same (by rw [c1, flatMap_rowBits_length, hrl])) (same_refls _)
  refine ⟨_, hsame, fun junk n hn => ?_⟩
  have hrun : ∀ ch : Nat → F, ∃ mp, mplainRun ch pre' (a' ++ (((rows.flatMap (rowBits c)).map BOp.input).map MOp.bool ++ rest)) post' = some mp ∧
      mp.bp = b2 := by
    intro ch
    obtain ⟨fs', hf⟩ := c5 ch
    have hpw : (rows.map (fun e => (wordF (ramPacked c e) : F))).Perm ((rowsOfLog u.log).map (fun e => wordF (ramPacked c e))) := by
      have := hperm.map (wordF (F := F))
      rwa [List.map_map, List.map_map] at this
    rw [if_pos (prodAt_perm _ hpw)] at hf
    exact ⟨⟨b2, (rowsOfLog u.log).map (fun e => wordF (ramPacked c e)) ++ (rows.map (fun e => wordF (ramPacked c e)) ++ fs'), [ch 0]⟩,
      by
        rw [mplainRun, hpre', Option.bind_eq_bind, Option.bind_some, mplainOps_append, k2, Option.bind_some, hf]
        simp only [q1, Option.bind_eq_bind, Option.bind_some], rfl⟩
  rw [mixVerifier_same me hsp hsame hsq] at hn
  rw [mixAnds_same hsp hsame hsq] at ha
  rw [mixMuls_same hsame] at hm
  have hfine := C96_session me hg ht htc hts hp hS pre' _ post'
    (fun ch => by obtain ⟨mp, h1, h2⟩ := hrun ch; exact ⟨mp, h1, by rw [h2]; exact q2⟩) ha hm junk hn
  refine ⟨hfine, fun P V hP hV => ?_⟩
  obtain ⟨_, _, _, hd, _⟩ := hfine
  obtain ⟨⟨ch, mp, h1, h2, h3, _⟩, _⟩ := hd P V hP hV
  obtain ⟨mp', h1', h2'⟩ := hrun ch
  rw [h1, Option.some.injEq] at h1'
  subst h1'
  rw [h2'] at h2 h3
  exact ⟨_, b2, q1, h2, h3⟩

end
/-! ### what a prover can get away with -/

/-- The instructions of a program that can be run honestly exist. -/
theorem ramGen_exists {us : List UOp} {u : UPlain} (hu : uplainOps exRam ⟨⟨[false, true], [], []⟩, []⟩ us = some u) (h3 : 3 ≤ u.log.length)
    (hlen : u.log.length ≤ 4) : ∃ ops, ramGen empLib exRam [false, true] us = some ops := by
  obtain ⟨ops, _, _, _, h, _⟩ := ram_session exMix exMix_good (by decide) (by decide) (by decide) (by decide) (S := 32768) (by decide) C97_circuits
    (c := exRam) (by unfold RamCfg.Ok; decide) [.pub false, .pub true] us [] (b0 := ⟨[false, true], [], []⟩) rfl hu h3 hlen
  exact ⟨ops, h⟩

/-- A session of the attacker: the verifier runs `us` and returns `outs`. -/
theorem ram_attack {us : List UOp} {ops : List MOp} {u : UPlain} {rows : List RamEnt} (hw : ∀ o ∈ us, o.Widths exRam) (h3 : 3 ≤ accesses us)
    (hlen : accesses us ≤ 4) (hgen : ramGen empLib exRam [false, true] us = some ops) (hsu : List.Forall₂ UOp.same us us)
    (hu : UTrace exRam ⟨⟨[false, true], [], []⟩, []⟩ us u) (hrows : ∀ e ∈ rows, e.idx < 2 ^ 3 ∧ e.step < 2 ^ 3 ∧ e.val < 2 ^ 2)
    (hperm : (rows.map (ramPacked exRam)).Perm ((rowsOfLog u.log).map (ramPacked exRam))) (hcl : u.bp.claims = []) :
    ∃ ops' c' P V, PReach 32768 (pnetInit 32768 [] (mixProver exMix [.pub false, .pub true] ops' [])
      (mixVerifier exMix [.pub false, .pub true] ops [])) c' ∧ c'.p = .done P ∧ c'.q = .done V ∧ V.b.outs = u.bp.outs ++ [ramCond exRam rows] ∧
      V.b.cheats = [] ∧ V.warns = 0 := by
  have triv : ∀ n k, lastBatch n k = 0 ∨ 1 ≤ lastBatch n k := fun n k => by omega
  obtain ⟨ops', _, h2⟩ := C104_runs exMix exMix_good (by decide) (by decide) (by decide) (by decide) (S := 32768) (by decide) C97_circuits empLib_noIn
    (c := exRam) (by decide) (pre := [.pub false, .pub true]) (pre' := [.pub false, .pub true]) (post := []) (post' := []) hw h3 hlen
    (b0 := ⟨[false, true], [], []⟩) rfl hgen (.cons rfl (.cons rfl .nil)) hsu .nil rfl hu hrows hperm
    (fun t => ⟨_, rfl, by rw [hcl]; simp⟩) (triv _ _) (triv _ _)
  have h3 := h2 []
  obtain ⟨⟨_, _, _, _, _, c', P, V, k1, k2, k3⟩, _⟩ := h3 _ .init
  obtain ⟨⟨_, _, _, k4, _⟩, k5⟩ := h3 c' k1
  obtain ⟨⟨ch, mp, _, _, _, k6, k7, _⟩, _⟩ := k4 P V k2 k3
  obtain ⟨t, b2, k8, _, k10⟩ := k5 P V k2 k3
  rw [List.foldlM_nil] at k8
  cases k8
  exact ⟨ops', c', P, V, k1, k2, k3, k10, k6, k7⟩

/-- Address 0 is written with 0, then 3 is stored through `access` with the write flag, then read. -/
def exAccess : List UOp := [.write [0, 0] [0, 0], .access 1 [0, 0] [1, 1], .read [0, 0], .bool (.reveal 11)]

/-- C104 is false as stated: `access` with the write flag does not bind what is stored to its argument.  The program takes no input and its plain run
outputs `true`; a prover can make the verifier accept, with `true` from the check, and output `false`. -/
theorem C104_false : (∃ u, uplainOps exRam ⟨⟨[false, true], [], []⟩, []⟩ exAccess = some u ∧ u.bp.outs = [true] ∧ WrittenFirst u.log) ∧
    ∃ ops ops' c' P V, ramGen empLib exRam [false, true] exAccess = some ops ∧
      PReach 32768 (pnetInit 32768 [] (mixProver exMix [.pub false, .pub true] ops' []) (mixVerifier exMix [.pub false, .pub true] ops [])) c' ∧
      c'.p = .done P ∧ c'.q = .done V ∧ V.b.outs = [false, true] ∧ V.b.cheats = [] ∧ V.warns = 0 := by
  constructor
  · refine ⟨_, rfl, rfl, ?_⟩
    intro i e he hop
    match i, he with
    | 0, he => cases he; cases hop
    | 1, he => cases he; cases hop
    | 2, he => cases he; exact ⟨3, rfl⟩
    | n + 3, he => cases he
  · obtain ⟨ops, hops⟩ : ∃ ops, ramGen empLib exRam [false, true] exAccess = some ops := ramGen_exists (u := ⟨_, _⟩) rfl (by decide) (by decide)
    obtain ⟨ops', c', P, V, h1, h2, h3, h4, h5, h6⟩ := ram_attack (us := exAccess) (ops := ops)
      (rows := [⟨0, 0, true, 0⟩, ⟨0, 1, true, 0⟩, ⟨0, 2, false, 0⟩])
      (by intro o ho; simp only [exAccess, List.mem_cons, List.not_mem_nil, or_false] at ho; rcases ho with rfl | rfl | rfl | rfl <;> simp [UOp.Widths, exRam])
      (by decide) (by decide) hops (.cons rfl (.cons rfl (.cons rfl (.cons rfl .nil))))
      (.cons ⟨_, _, rfl, rfl, rfl⟩ (.cons ⟨_, _, _, 0, rfl, rfl, rfl, by decide, rfl⟩ (.cons ⟨_, 0, rfl, by decide, rfl⟩ (.cons ⟨_, rfl, rfl⟩ (.nil _)))))
      (by decide) (by decide) rfl
    exact ⟨ops, ops', c', P, V, hops, h1, h2, h3, h4, h5, h6⟩

/-- Address 0 is written with 0 and then with 3, and read. -/
def exStale : List UOp := [.write [0, 0] [0, 0], .write [0, 0] [1, 1], .read [0, 0], .bool (.reveal 10)]

/-- C104, the extra index bit: nothing forces it to be zero, so that a prover can make the verifier accept, with `true` from the check, after a
read that returned a value overwritten before.  The program takes no input, uses no `access`, and its plain run outputs `true`. -/
theorem C104_stale : (∃ u, uplainOps exRam ⟨⟨[false, true], [], []⟩, []⟩ exStale = some u ∧ u.bp.outs = [true] ∧ WrittenFirst u.log) ∧
    ∃ ops ops' c' P V, ramGen empLib exRam [false, true] exStale = some ops ∧
      PReach 32768 (pnetInit 32768 [] (mixProver exMix [.pub false, .pub true] ops' []) (mixVerifier exMix [.pub false, .pub true] ops [])) c' ∧
      c'.p = .done P ∧ c'.q = .done V ∧ V.b.outs = [false, true] ∧ V.b.cheats = [] ∧ V.warns = 0 := by
  constructor
  · refine ⟨_, rfl, rfl, ?_⟩
    intro i e he hop
    match i, he with
    | 0, he => cases he; cases hop
    | 1, he => cases he; cases hop
    | 2, he => cases he; exact ⟨3, rfl⟩
    | n + 3, he => cases he
  · obtain ⟨ops, hops⟩ : ∃ ops, ramGen empLib exRam [false, true] exStale = some ops := ramGen_exists (u := ⟨_, _⟩) rfl (by decide) (by decide)
    obtain ⟨ops', c', P, V, h1, h2, h3, h4, h5, h6⟩ := ram_attack (us := exStale) (ops := ops)
      (rows := [⟨4, 0, true, 0⟩, ⟨4, 2, false, 0⟩, ⟨0, 1, true, 3⟩])
      (by intro o ho; simp only [exStale, List.mem_cons, List.not_mem_nil, or_false] at ho; rcases ho with rfl | rfl | rfl | rfl <;> simp [UOp.Widths, exRam])
      (by decide) (by decide) hops (.cons rfl (.cons rfl (.cons rfl (.cons rfl .nil))))
      (.cons ⟨_, _, rfl, rfl, rfl⟩ (.cons ⟨_, _, rfl, rfl, rfl⟩ (.cons ⟨_, 0, rfl, by decide, rfl⟩ (.cons ⟨_, rfl, rfl⟩ (.nil _)))))
      (by decide) (by decide) rfl
    exact ⟨ops, ops', c', P, V, hops, h1, h2, h3, h4, h5, h6⟩

/-! ### an honest session -/

/-- Two writes and a read. -/
def exHonest : List UOp := [.write [0, 1] [1, 0], .write [1, 0] [0, 0], .read [0, 1]]

/-- The hypotheses of `C104_partial` are met by an honest prover of a program that writes two addresses (inputs of the prover) and reads one of
them, for six values of `Delta`. -/
example : ∃ (ops : List MOp) (p : SProg (MPrv GF128)) (C : MCom GF128) (dg : GF128), ramGen empLib exRam [true, false] exHonest = some ops ∧
    MixCommitted 32768 [] p exMixK exMixV [.input true, .input false] ops [] C dg ∧ MixSeeds exMixV C ∧ 6 ≤ exDeltas.card ∧
    (∀ d ∈ exDeltas, ∃ V, MixAccepts 32768 [] p exMixK exMixV [.input true, .input false] ops [] d V ∧ V.b.outs = [true]) ∧
    (∀ d1 ∈ exDeltas, ∀ d2 ∈ exDeltas, ∀ V1 V2, MixAccepts 32768 [] p exMixK exMixV [.input true, .input false] ops [] d1 V1 →
      MixAccepts 32768 [] p exMixK exMixV [.input true, .input false] ops [] d2 V2 →
      exMixV.hash V1.b.digest = exMixV.hash V2.b.digest → V1.b.digest = V2.b.digest) ∧
    (∀ o ∈ exHonest, o.Widths exRam) ∧ accesses exHonest = 3 ∧ plainRun [.input true, .input false] = some ⟨[true, false], [], []⟩ := by
  have triv : ∀ n k, lastBatch n k = 0 ∨ 1 ≤ lastBatch n k := fun n k => by omega
  have hlsb : ∀ d ∈ exDeltas, lsb d = true := by
    intro d hd
    simp only [exDeltas, Finset.mem_image, Finset.mem_range] at hd
    obtain ⟨n, hn, rfl⟩ := hd
    show (BitVec.ofNat 128 (2 * n + 1)).getLsbD 0 = true
    interval_cases n <;> decide
  have hx0 : (gX : GF128) ≠ 0 := by decide
  have hu : uplainOps exRam ⟨⟨[true, false], [], []⟩, []⟩ exHonest =
      some ⟨⟨_, [], []⟩, [⟨1, true, 2⟩, ⟨2, true, 3⟩, ⟨1, false, 2⟩]⟩ := rfl
  have hwf : WrittenFirst ([⟨1, true, 2⟩, ⟨2, true, 3⟩, ⟨1, false, 2⟩] : List (Acc Nat)) := by
    intro i e he hop
    match i, he with
    | 0, he => cases he; cases hop
    | 1, he => cases he; cases hop
    | 2, he => cases he; exact ⟨2, rfl⟩
    | n + 3, he => cases he
  have hses := fun d (hd : lsb d = true) => C97_session (exMixK.at exMixV d) (exMixK_good hd) Nat.one_pos (Nat.le_refl 1) (Nat.le_refl 1) Nat.one_pos
    (S := 32768) (by decide) C97_circuits (c := exRam) (by decide) [.input true, .input false] exHonest [] (b0 := ⟨[true, false], [], []⟩) rfl hu
    (by decide) (by decide) hwf (fun t => ⟨_, rfl, by simp⟩)
  obtain ⟨_, ops, hops, _⟩ := hses 1 lsb_one
  have hacc : ∀ d, lsb d = true → ∃ V, MixAccepts 32768 [] (mixProver (exMixK.at exMixV 1) [.input true, .input false] ops [])
      exMixK exMixV [.input true, .input false] ops [] d V ∧ V.b.outs = [true] := by
    intro d hd
    obtain ⟨_, ops', h1, _, h2⟩ := hses d hd
    rw [hops, Option.some.injEq] at h1
    subst h1
    have h3 := h2 (triv _ _) (triv _ _) []
    rw [mixProver_at exMixK exMixV d 1] at h3
    obtain ⟨⟨_, _, _, _, _, c', P, V, k1, k2, k3⟩, _⟩ := h3 _ .init
    obtain ⟨⟨_, _, _, k4, _⟩, k5⟩ := h3 c' k1
    obtain ⟨⟨ch, mp, _, _, _, k6, k7, _⟩, _⟩ := k4 P V k2 k3
    obtain ⟨t, b2, k8, _, k10⟩ := k5 P V k2 k3
    rw [List.foldlM_nil] at k8
    cases k8
    exact ⟨V, ⟨hd, ⟨c', k1, k3⟩, k6, k7⟩, k10⟩
  obtain ⟨V, hV, hVo⟩ := hacc 1 lsb_one
  obtain ⟨C, dg, hC, _, _, _, ho, _⟩ := C103_committed (me := exMixK) (v := exMixV) (fun k => by show 1 ≤ 3; decide) (by decide) 1 V _ lsb_one
    hV.2.1.choose_spec.1 hV.2.1.choose_spec.2
  refine ⟨ops, _, C, dg, hops, hC, C103_unit rfl rfl rfl rfl rfl (fun _ _ => hx0) (fun _ => hx0) (fun _ => one_ne_zero) hC, ?_,
    fun d hd => hacc d (hlsb d hd), ?_, ?_, rfl, rfl⟩
  · rw [exDeltas, Finset.card_image_of_injOn]
    · simp
    · intro a ha b hb h
      have := congrArg (fun x : GF128 => x.bits.toNat) h
      simp at this ha hb
      omega
  · intro d1 hd1 d2 hd2 V1 V2 h1 h2 hh
    obtain ⟨⟨_, e1⟩, _⟩ := mixAccepts_facts (fun k => by show 1 ≤ 3; decide) (by decide) hC h1
    obtain ⟨⟨_, e2⟩, _⟩ := mixAccepts_facts (fun k => by show 1 ≤ 3; decide) (by decide) hC h2
    have hl : C.b.opened.length = 1 := by
      have := congrArg List.length (ho.symm.trans hVo)
      simpa using this
    obtain ⟨x, hx⟩ := List.length_eq_one_iff.1 hl
    rw [e1, e2] at hh ⊢
    simp only [verImg, hx, List.map_cons, List.map_nil] at hh ⊢
    simpa [exMixV] using hh
  · intro o ho
    simp only [exHonest, List.mem_cons, List.not_mem_nil, or_false] at ho
    rcases ho with rfl | rfl | rfl <;> simp [UOp.Widths, exRam]

end EmpZk
