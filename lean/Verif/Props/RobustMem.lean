/-
C111, from the statement instead of a run: a program whose statement holds for one witness is safe for every party that runs it, whatever the
peer sends; the same for programs with a memory.
-/
import Verif.Props.Robust
import Verif.Props.Traffic
import Verif.Props.RoNet
import Verif.Props.ExtNet
import Verif.Props.ConvNet

namespace EmpZk

section
variable {F : Type} [Field F] [BlockField F] [DecidableEq F] {μ : Type}

/-- If the statement of a program holds for one witness (`pre'`, `ops'`, `post'`, plainly evaluated), then no prover can drive a verifier of
the program, with any keys of the same number, into an undefined operation. -/
theorem C111_verifier_statement {me me' : MixEnv F} (hm : me.SameV me') (hg : me'.Good) (ht : 0 < me'.ne.e.threads)
    (htc : me'.ne.e.threads ≤ me'.ne.e.checkSz) (hts : me'.ne.e.threads ≤ me'.sz) (hp : 0 < me'.ne.e.polySz)
    {pre pre' post post' : List BOp} {ops ops' : List MOp}
    (h1 : pre.map BOp.erase = pre'.map BOp.erase) (h2 : ops.map MOp.erase = ops'.map MOp.erase) (h3 : post.map BOp.erase = post'.map BOp.erase)
    (hrun : ∀ ch : Nat → F, ∃ mp, mplainRun ch pre' ops' post' = some mp ∧ ∀ b ∈ mp.bp.claims, b = false)
    (ha : lastBatch (mixAnds pre' ops' post') me'.ne.e.checkSz = 0 ∨ me'.ne.e.threads ≤ lastBatch (mixAnds pre' ops' post') me'.ne.e.checkSz)
    (hmu : lastBatch (mixMuls ops') me'.sz = 0 ∨ me'.ne.e.threads ≤ lastBatch (mixMuls ops') me'.sz)
    {S : Nat} (hS : 0 < S) (h8 : S % 8 = 0) (p : SProg μ) {junk : List Byte} {c : PNet μ (MVer F)}
    (hc : PReach S (pnetInit S junk p (mixVerifier me pre ops post)) c) : c.q ≠ .fail ∧ stepQ S c ≠ .ub := by
  obtain ⟨c', P, V, k1, _, k3⟩ := (C96_session me' hg ht htc hts hp hS pre' ops' post' hrun ha hmu [] PReach.init).2.2.2.2.2
  exact C111_verifier hm h1 h2 h3 k1 k3 hS h8 p hc

/-- The same for the prover, with any witness, also one for which the statement is false. Missing: conversions (`C111_false`). -/
theorem C111_prover_statement_partial {me me' : MixEnv F} (hm : me.Same me') (hg : me'.Good) (ht : 0 < me'.ne.e.threads)
    (htc : me'.ne.e.threads ≤ me'.ne.e.checkSz) (hts : me'.ne.e.threads ≤ me'.sz) (hp : 0 < me'.ne.e.polySz)
    {pre pre' post post' : List BOp} {ops ops' : List MOp}
    (h1 : pre.map BOp.erase = pre'.map BOp.erase) (h2 : ops.map MOp.erase = ops'.map MOp.erase) (h3 : post.map BOp.erase = post'.map BOp.erase)
    (hrun : ∀ ch : Nat → F, ∃ mp, mplainRun ch pre' ops' post' = some mp ∧ ∀ b ∈ mp.bp.claims, b = false)
    (ha : lastBatch (mixAnds pre' ops' post') me'.ne.e.checkSz = 0 ∨ me'.ne.e.threads ≤ lastBatch (mixAnds pre' ops' post') me'.ne.e.checkSz)
    (hmu : lastBatch (mixMuls ops') me'.sz = 0 ∨ me'.ne.e.threads ≤ lastBatch (mixMuls ops') me'.sz)
    {S : Nat} (q : RProg μ) {junk : List Byte} {c : PNet (MPrv F) μ} (hc : PReach S (pnetInit S junk (mixProver me pre ops post) q) c) :
    c.p ≠ .fail ∧ c.p ≠ .stop := by
  obtain ⟨c', P, V, k1, k2, _⟩ :=
    (C96_session me' hg ht htc hts hp (S := 8) (by decide) pre' ops' post' hrun ha hmu [] PReach.init).2.2.2.2.2
  exact C111_prover_partial hm h1 h2 h3 k1 k2 q hc

/-- A program with a memory that some witness satisfies: it makes at least three and at most `2^(step_sz-1)` accesses, reads no address
before writing it, and what comes after the check holds. Then the verifier is safe with every prover, and the prover with every verifier, for
whatever other witness whose accesses are inside the memory. -/
theorem C111_memory {me me' : MixEnv F} (hv : me.SameV me') (hs : me.Same me') (hg : me'.Good) (ht : 0 < me'.ne.e.threads)
    (htc : me'.ne.e.threads ≤ me'.ne.e.checkSz) (hts : me'.ne.e.threads ≤ me'.sz) (hp : 0 < me'.ne.e.polySz) {S : Nat} (hS : 0 < S) (h8 : S % 8 = 0)
    {lib : CmpLib} (hl : lib.Good) {cfg : RamCfg} (hcfg : cfg.isz + cfg.ssz + 1 ≤ 64 ∧ 1 ≤ cfg.isz ∧ cfg.vsz ≤ 64)
    {pre' post' : List BOp} {us' : List UOp} {b0 : Plain} (hpre : plainRun pre' = some b0) {u : UPlain}
    (hu : uplainOps cfg ⟨b0, []⟩ us' = some u) (h3 : 3 ≤ u.log.length) (hlen : u.log.length ≤ 2 ^ (cfg.ssz - 1)) (hw : WrittenFirst u.log)
    (hpost : ∀ t, ∃ b2, post'.foldlM plainStep ⟨u.bp.wires ++ t, u.bp.outs ++ [true], u.bp.claims⟩ = some b2 ∧ ∀ b ∈ b2.claims, b = false)
    {ops' : List MOp} (hops : ramGen lib cfg b0.wires us' = some ops')
    (ha : lastBatch (mixAnds pre' ops' post') me'.ne.e.checkSz = 0 ∨ me'.ne.e.threads ≤ lastBatch (mixAnds pre' ops' post') me'.ne.e.checkSz)
    (hmu : lastBatch (2 * ((u.log.length - 1) % 4)) me'.sz = 0 ∨ me'.ne.e.threads ≤ lastBatch (2 * ((u.log.length - 1) % 4)) me'.sz)
    {pre post : List BOp} {us : List UOp} (e1 : pre.map BOp.erase = pre'.map BOp.erase) (e2 : us.map UOp.erase = us'.map UOp.erase)
    (e3 : post.map BOp.erase = post'.map BOp.erase) {bits : List Bool} (hb : bits.length = b0.wires.length) {ops : List MOp}
    (hgen : ramGen lib cfg bits us = some ops) :
    (∀ (p : SProg μ) junk c, PReach S (pnetInit S junk p (mixVerifier me pre ops post)) c → c.q ≠ .fail ∧ stepQ S c ≠ .ub) ∧
    (∀ (q : RProg μ) junk c, PReach S (pnetInit S junk (mixProver me pre ops post) q) c → c.p ≠ .fail ∧ c.p ≠ .stop) := by
  obtain ⟨-, o, k1, -, k2⟩ := C97_session me' hg ht htc hts hp hS hl hcfg pre' us' post' hpre hu h3 hlen hw hpost
  rw [hops, Option.some.injEq] at k1
  subst k1
  obtain ⟨c', P, V, r1, r2, r3⟩ := (k2 ha hmu [] _ PReach.init).1.2.2.2.2.2
  have e := ramGen_both lib cfg hb e2 ops ops' hgen hops
  exact ⟨fun p _ _ hc => C111_verifier hv e1 e e3 r1 r3 hS h8 p hc, fun q _ _ hc => C111_prover_partial hs e1 e e3 r1 r2 q hc⟩

/-- The same for a read-only memory, also with its automatic checks. -/
theorem C111_readonly {me me' : MixEnv F} (hv : me.SameV me') (hs : me.Same me') (hg : me'.Good) (ht : 0 < me'.ne.e.threads)
    (htc : me'.ne.e.threads ≤ me'.ne.e.checkSz) (hts : me'.ne.e.threads ≤ me'.sz) (hp : 0 < me'.ne.e.polySz) {S : Nat} (hS : 0 < S) (h8 : S % 8 = 0)
    {lib : CmpLib} (hl : lib.Good) {cfg : RoCfg} (hcfg : cfg.isz ≤ 64 ∧ cfg.vsz ≤ 64)
    {pre' post' : List BOp} {data : List (List Nat)} {us' : List VOp} {b0 : Plain} (hpre : plainRun pre' = some b0)
    {vbs : List (List Bool)} (hd : data.mapM (pick b0.wires) = some vbs) (hw : ∀ d ∈ data, d.length = cfg.vsz)
    (h0 : 0 < data.length) (hsz : data.length ≤ 2 ^ cfg.isz) (hbig : data.length < 2 ^ 60) {u : VPlain}
    (hu : vplainOps cfg (vbs.map bitsNum) ⟨b0, 0⟩ us' = some u) {b2 : Plain} (hpost : post'.foldlM plainStep u.bp = some b2)
    (hcl : ∀ b ∈ b2.claims, b = false) {r' : List MOp × List BOp} (hops : roProg lib cfg b0.wires data us' post' = some r')
    (ha : lastBatch (mixAnds pre' r'.1 r'.2) me'.ne.e.checkSz = 0 ∨ me'.ne.e.threads ≤ lastBatch (mixAnds pre' r'.1 r'.2) me'.ne.e.checkSz)
    (hmu : lastBatch (mixMuls r'.1) me'.sz = 0 ∨ me'.ne.e.threads ≤ lastBatch (mixMuls r'.1) me'.sz)
    {pre post : List BOp} {us : List VOp} (e1 : pre.map BOp.erase = pre'.map BOp.erase) (e2 : us.map VOp.erase = us'.map VOp.erase)
    (e3 : post.map BOp.erase = post'.map BOp.erase) {bits : List Bool} (hb : bits.length = b0.wires.length) {r : List MOp × List BOp}
    (hgen : roProg lib cfg bits data us post = some r) :
    (∀ (p : SProg μ) junk c, PReach S (pnetInit S junk p (mixVerifier me pre r.1 r.2)) c → c.q ≠ .fail ∧ stepQ S c ≠ .ub) ∧
    (∀ (q : RProg μ) junk c, PReach S (pnetInit S junk (mixProver me pre r.1 r.2) q) c → c.p ≠ .fail ∧ c.p ≠ .stop) := by
  obtain ⟨o, o2, k1, k2⟩ := C99_session me' hg ht htc hts hp hS hl hcfg pre' data us' post' hpre hd hw h0 hsz hbig hu hpost hcl
  rw [hops, Option.some.injEq] at k1
  subst k1
  obtain ⟨c', P, V, r1, r2, r3⟩ := (k2 ha hmu [] _ PReach.init).1.2.2.2.2.2
  obtain ⟨e, e'⟩ := roProg_both lib cfg hb data e2 e3 r _ hgen hops
  exact ⟨fun p _ _ hc => C111_verifier hv e1 e e' r1 r3 hS h8 p hc, fun q _ _ hc => C111_prover_partial hs e1 e e' r1 r2 q hc⟩

/-- The same for a memory of several words per cell. -/
theorem C111_wide {me me' : MixEnv F} (hv : me.SameV me') (hs : me.Same me') (hg : me'.Good) (ht : 0 < me'.ne.e.threads)
    (htc : me'.ne.e.threads ≤ me'.ne.e.checkSz) (hts : me'.ne.e.threads ≤ me'.sz) (hp : 0 < me'.ne.e.polySz) {S : Nat} (hS : 0 < S) (h8 : S % 8 = 0)
    {lib : CmpLib} (hl : lib.Good) {cfg : RxCfg} (hcfg : cfg.isz ≤ 32 ∧ cfg.ssz ≤ 31 ∧ 64 < cfg.vsz ∧ cfg.vsz < 2 ^ 64)
    {pre' post' : List BOp} {us' : List XOp} {b0 : Plain} (hpre : plainRun pre' = some b0) {u : XPlain}
    (hu : xplainOps cfg ⟨b0, []⟩ us' = some u) (h3 : 3 ≤ u.log.length) (hlen : u.log.length ≤ 2 ^ (cfg.ssz - 1))
    (hpost : ∀ t, ∃ b2, post'.foldlM plainStep ⟨u.bp.wires ++ t, u.bp.outs ++ [true], u.bp.claims⟩ = some b2 ∧ ∀ b ∈ b2.claims, b = false)
    {ops' : List MOp} (hops : extGen lib cfg b0.wires us' = some ops')
    (ha : lastBatch (mixAnds pre' ops' post') me'.ne.e.checkSz = 0 ∨ me'.ne.e.threads ≤ lastBatch (mixAnds pre' ops' post') me'.ne.e.checkSz)
    (hmu : lastBatch (2 * ((u.log.length - 1) % 4)) me'.sz = 0 ∨ me'.ne.e.threads ≤ lastBatch (2 * ((u.log.length - 1) % 4)) me'.sz)
    {pre post : List BOp} {us : List XOp} (e1 : pre.map BOp.erase = pre'.map BOp.erase) (e2 : us.map XOp.erase = us'.map XOp.erase)
    (e3 : post.map BOp.erase = post'.map BOp.erase) {bits : List Bool} (hb : bits.length = b0.wires.length) {ops : List MOp}
    (hgen : extGen lib cfg bits us = some ops) :
    (∀ (p : SProg μ) junk c, PReach S (pnetInit S junk p (mixVerifier me pre ops post)) c → c.q ≠ .fail ∧ stepQ S c ≠ .ub) ∧
    (∀ (q : RProg μ) junk c, PReach S (pnetInit S junk (mixProver me pre ops post) q) c → c.p ≠ .fail ∧ c.p ≠ .stop) := by
  obtain ⟨-, -, o, k1, -, k2⟩ := C100_session me' hg ht htc hts hp hS hl hcfg pre' us' post' hpre hu h3 hlen hpost
  rw [hops, Option.some.injEq] at k1
  subst k1
  obtain ⟨c', P, V, r1, r2, r3⟩ := (k2 ha hmu [] _ PReach.init).1.2.2.2.2.2
  have e := extGen_both lib cfg hb e2 ops ops' hgen hops
  exact ⟨fun p _ _ hc => C111_verifier hv e1 e e3 r1 r3 hS h8 p hc, fun q _ _ hc => C111_prover_partial hs e1 e e3 r1 r2 q hc⟩

/-- The verifier of a program with conversions whose statement holds for one witness is safe with every prover. -/
theorem C111_conversions_statement {ce ce' : ConvEnv F} (he : ce.SameV ce') (hg : ce'.Good) (hl : ce'.Lucky) (ht : 0 < ce'.ne.e.threads)
    (htc : ce'.ne.e.threads ≤ ce'.ne.e.checkSz) (hp : 0 < ce'.ne.e.polySz) (hat : 0 < ce'.base.threads) (hac : ce'.base.threads ≤ ce'.base.checkSz)
    (hap : 0 < ce'.base.polySz) {ops ops' : List COp} (ho : ops.map COp.erase = ops'.map COp.erase) (hcan : ∀ o ∈ ops', o.CanonC)
    {cp : CPlain} (hrun : cplainRun ce' ops' = some cp) (hcb : ∀ b ∈ cp.b.claims, b = false) (hca : ∀ x ∈ cp.a.claims, x = 0)
    (ha : lastBatch cp.ands ce'.ne.e.checkSz = 0 ∨ ce'.ne.e.threads ≤ lastBatch cp.ands ce'.ne.e.checkSz)
    (hm : lastBatch cp.muls ce'.base.checkSz < 32 ∨ ce'.base.threads ≤ lastBatch cp.muls ce'.base.checkSz)
    {S : Nat} (hS : 0 < S) (h8 : S % 8 = 0) (p : SProg μ) {junk : List Byte} {c : PNet μ (CVer F)}
    (hc : PReach S (pnetInit S junk p (convVerifier ce ops)) c) : c.q ≠ .fail ∧ stepQ S c ≠ .ub := by
  obtain ⟨c', P, V, k1, _, k3⟩ := (C98_session ce' hg hl ht htc hp hat hac hap hS ops' hcan hrun hcb hca ha hm [] PReach.init).2.2.2.2.2
  exact C111_conversions he ho k1 k3 hS h8 p hc

/-- Branching programs: if on every way through the program, for whatever opened bits, the statement holds for some witness (which may be
another one for each way), neither party can be driven into undefined behaviour. -/
theorem C111_branching_statement {me me' : MixEnv F} (hv : me.SameV me') (hs : me.Same me') (hg : me'.Good) (ht : 0 < me'.ne.e.threads)
    (htc : me'.ne.e.threads ≤ me'.ne.e.checkSz) (hts : me'.ne.e.threads ≤ me'.sz) (hp : 0 < me'.ne.e.polySz) {S : Nat} (hS : 0 < S) (h8 : S % 8 = 0)
    {t : SessTree} (hd : t.Defined)
    (hw : ∀ pre ops post, t.Way pre ops post → ∃ pre' ops' post', pre.map BOp.erase = pre'.map BOp.erase ∧
      ops.map MOp.erase = ops'.map MOp.erase ∧ post.map BOp.erase = post'.map BOp.erase ∧
      (∀ ch : Nat → F, ∃ mp, mplainRun ch pre' ops' post' = some mp ∧ ∀ b ∈ mp.bp.claims, b = false) ∧
      (lastBatch (mixAnds pre' ops' post') me'.ne.e.checkSz = 0 ∨ me'.ne.e.threads ≤ lastBatch (mixAnds pre' ops' post') me'.ne.e.checkSz) ∧
      (lastBatch (mixMuls ops') me'.sz = 0 ∨ me'.ne.e.threads ≤ lastBatch (mixMuls ops') me'.sz)) :
    (∀ (p : SProg μ) junk c, PReach S (pnetInit S junk p (branchVerifier me t)) c → c.q ≠ .fail ∧ stepQ S c ≠ .ub) ∧
    (∀ (q : RProg μ) junk c, PReach S (pnetInit S junk (branchProver me t) q) c → c.p ≠ .fail ∧ c.p ≠ .stop) := by
  refine ⟨fun p junk c hc => ⟨fun hf => ?_, reach_no_ub hS h8 hc⟩, fun q junk c hc => ?_⟩
  · obtain ⟨pre, ops, post, w, h⟩ := branchR_route me hd (hf ▸ reach_rpath hc)
    obtain ⟨pre', ops', post', e1, e2, e3, hrun, ha, hmu⟩ := hw pre ops post w
    obtain ⟨c', P, V, k1, _, k3⟩ := (C96_session me' hg ht htc hts hp hS pre' ops' post' hrun ha hmu [] PReach.init).2.2.2.2.2
    exact ralike_safe (mixVerifier_alike (W := False) (E := True) hv e1 e2 e3 (fun _ _ _ => trivial)) (k3 ▸ reach_rpath k1) h
  · have key : ¬ c.p.Dead := by
      intro hdead
      obtain ⟨pre, ops, post, w, y, h, hy⟩ := branchS_route me hd hdead (reach_spath hc)
      obtain ⟨pre', ops', post', e1, e2, e3, hrun, ha, hmu⟩ := hw pre ops post w
      obtain ⟨c', P, V, k1, k2, _⟩ := (C96_session me' hg ht htc hts hp hS pre' ops' post' hrun ha hmu [] PReach.init).2.2.2.2.2
      have hsafe := alike_safe (mixProver_alike (W := fun _ _ _ => True) hs e1 e2 e3) (k2 ▸ reach_spath k1)
      rcases hy with rfl | rfl
      · exact hsafe.1 h
      · exact hsafe.2 h
    exact ⟨fun h => key (.inl h), fun h => key (.inr h)⟩

end

/-- The statement "`0 = x & !y`" holds for the witness 1, 1; with any other witness neither party can be driven into undefined behaviour. -/
example (x y : Bool) (p : SProg Unit) (q : RProg Unit) :
    (∀ c, PReach 32768 (pnetInit 32768 [] p (mixVerifier exMix [.input x, .input y, .not 1, .and 0 2] [] [.poly (.inner false [(3, 3)])])) c →
      c.q ≠ .fail ∧ stepQ 32768 c ≠ .ub) ∧
    (∀ c, PReach 32768 (pnetInit 32768 [] (mixProver exMix [.input x, .input y, .not 1, .and 0 2] [] [.poly (.inner false [(3, 3)])]) q) c →
      c.p ≠ .fail ∧ c.p ≠ .stop) := by
  have hs : exMix.SameV exMix := ⟨⟨rfl, rfl, rfl, fun _ => rfl, fun _ _ => rfl⟩, rfl, rfl, fun _ => rfl, fun _ => rfl, fun _ => rfl⟩
  exact ⟨fun c hc => C111_verifier_statement (pre := [.input x, .input y, .not 1, .and 0 2])
      (pre' := [.input true, .input true, .not 1, .and 0 2]) (ops' := []) (post' := [.poly (.inner false [(3, 3)])]) hs
      exMix_good (by decide) (by decide) (by decide) (by decide) rfl rfl rfl (fun ch => ⟨_, rfl, by decide⟩) (by decide) (by decide)
      (by decide) (by decide) p hc,
    fun c hc => C111_prover_statement_partial (pre := [.input x, .input y, .not 1, .and 0 2])
      (pre' := [.input true, .input true, .not 1, .and 0 2]) (ops' := []) (post' := [.poly (.inner false [(3, 3)])])
      exMix_self exMix_good (by decide) (by decide) (by decide) (by decide) rfl rfl rfl (fun ch => ⟨_, rfl, by decide⟩) (by decide) (by decide) q hc⟩

/-- The program of `Props/RamNet.lean`, run with a witness that accesses one cell only and by other directions: neither party can be driven
into undefined behaviour. -/
example : ∃ ops, ramGen empLib exRam [true, true, false, true] exUs = some ops ∧
    (∀ (p : SProg Unit) junk c,
      PReach 32768 (pnetInit 32768 junk p (mixVerifier exMix [.input true, .input true, .input false, .input true] ops [])) c →
        c.q ≠ .fail ∧ stepQ 32768 c ≠ .ub) ∧
    (∀ (q : RProg Unit) junk c,
      PReach 32768 (pnetInit 32768 junk (mixProver exMix [.input true, .input true, .input false, .input true] ops []) q) c →
        c.p ≠ .fail ∧ c.p ≠ .stop) := by
  have hs : exMix.SameV exMix := ⟨⟨rfl, rfl, rfl, fun _ => rfl, fun _ _ => rfl⟩, rfl, rfl, fun _ => rfl, fun _ => rfl, fun _ => rfl⟩
  have triv : ∀ n k, lastBatch n k = 0 ∨ 1 ≤ lastBatch n k := fun n k => by omega
  obtain ⟨u, hu, _, hcl, hlog⟩ := exUs_plain
  obtain ⟨u', hu', hlog'⟩ := exUs_other
  obtain ⟨ops', _, _, _, h1, _⟩ := ram_session exMix exMix_good (by decide) (by decide) (by decide) (by decide) (S := 32768) (by decide)
    C97_circuits (c := exRam) ⟨by decide, by decide, by decide⟩ [.input true, .input false, .input true, .input false] exUs []
    (b0 := ⟨[true, false, true, false], [], []⟩) rfl hu (by rw [hlog]; decide) (by rw [hlog]; decide)
  obtain ⟨ops, _, _, _, h2, _⟩ := ram_session exMix exMix_good (by decide) (by decide) (by decide) (by decide) (S := 32768) (by decide)
    C97_circuits (c := exRam) ⟨by decide, by decide, by decide⟩ [.input true, .input true, .input false, .input true] exUs []
    (b0 := ⟨[true, true, false, true], [], []⟩) rfl hu' (by rw [hlog']; decide) (by rw [hlog']; decide)
  refine ⟨ops, h2, C111_memory (lib := empLib) (cfg := exRam) (pre' := [.input true, .input false, .input true, .input false]) (post' := [])
    (us' := exUs) (b0 := ⟨[true, false, true, false], [], []⟩) (u := u) hs exMix_self exMix_good (by decide) (by decide) (by decide) (by decide)
    (S := 32768) (by decide) (by decide) C97_circuits (by decide) rfl hu (by rw [hlog]; decide) (by rw [hlog]; decide) ?_ (fun t => ⟨_, rfl, by rw [hcl]; simp⟩)
    h1 (triv _ _) (triv _ _) (pre := [.input true, .input true, .input false, .input true]) (post := []) (us := exUs) rfl rfl rfl (bits := [true, true, false, true]) rfl h2⟩
  rw [hlog]
  intro i e he hop
  match i, he with
  | 0, he => cases he; cases hop
  | 1, he => cases he; cases hop
  | 2, he => cases he; exact ⟨2, rfl⟩
  | 3, he => cases he; exact ⟨3, rfl⟩
  | n + 4, he => cases he

theorem exVs_other : ∃ u, vplainOps exRo [2, 1] ⟨⟨[false, true], [], []⟩, 0⟩ exVs = some u ∧ u.bp.claims = [] ∧
    ∃ b2, [BOp.reveal 3].foldlM plainStep u.bp = some b2 ∧ b2.claims = [] := ⟨_, rfl, rfl, _, rfl, rfl⟩

/-- The program of `Props/RoNet.lean` with other contents and addresses. -/
example : ∃ r, roProg empLib exRo [false, true] exRoData exVs [.reveal 3] = some r ∧
    (∀ (p : SProg Unit) junk c, PReach 32768 (pnetInit 32768 junk p (mixVerifier exMix [.input false, .input true] r.1 r.2)) c →
      c.q ≠ .fail ∧ stepQ 32768 c ≠ .ub) ∧
    (∀ (q : RProg Unit) junk c, PReach 32768 (pnetInit 32768 junk (mixProver exMix [.input false, .input true] r.1 r.2) q) c →
      c.p ≠ .fail ∧ c.p ≠ .stop) := by
  have hs : exMix.SameV exMix := ⟨⟨rfl, rfl, rfl, fun _ => rfl, fun _ _ => rfl⟩, rfl, rfl, fun _ => rfl, fun _ => rfl, fun _ => rfl⟩
  have triv : ∀ n k, lastBatch n k = 0 ∨ 1 ≤ lastBatch n k := fun n k => by omega
  obtain ⟨u, hu, _, hcl, _⟩ := exVs_plain
  obtain ⟨b2, hb2, hc2⟩ : ∃ b2, [BOp.reveal 3].foldlM plainStep u.bp = some b2 ∧ b2.claims = [] := by
    cases hu
    exact ⟨_, rfl, rfl⟩
  obtain ⟨u', hu', _, b3, hb3, hc3⟩ := exVs_other
  obtain ⟨o1, q1, h1, _⟩ := C99_session exMix exMix_good (by decide) (by decide) (by decide) (by decide) (S := 32768) (by decide) empLib_good
    (c := exRo) (by decide) [.input true, .input false] exRoData exVs [.reveal 3] (b0 := ⟨[true, false], [], []⟩) rfl
    (vbs := [[true, false], [false, true]]) rfl (by decide) (by decide) (by decide) (by decide) hu hb2 (by rw [hc2]; simp)
  obtain ⟨o2, q2, h2, _⟩ := C99_session exMix exMix_good (by decide) (by decide) (by decide) (by decide) (S := 32768) (by decide) empLib_good
    (c := exRo) (by decide) [.input false, .input true] exRoData exVs [.reveal 3] (b0 := ⟨[false, true], [], []⟩) rfl
    (vbs := [[false, true], [true, false]]) rfl (by decide) (by decide) (by decide) (by decide) hu' hb3 (by rw [hc3]; simp)
  exact ⟨(o2, q2), h2, C111_readonly (lib := empLib) (cfg := exRo) (pre' := [.input true, .input false]) (post' := [.reveal 3]) (data := exRoData)
    (us' := exVs) (b0 := ⟨[true, false], [], []⟩) (u := u) hs exMix_self exMix_good (by decide) (by decide) (by decide) (by decide)
    (S := 32768) (by decide) (by decide) empLib_good (by decide) rfl (vbs := [[true, false], [false, true]]) rfl (by decide) (by decide)
    (by decide) (by decide) hu hb2 (by rw [hc2]; simp) h1 (triv _ _) (triv _ _) (pre := [.input false, .input true]) (post := [.reveal 3])
    (us := exVs) rfl rfl rfl (bits := [false, true]) rfl h2⟩

theorem exXs_other : ∃ u, xplainOps exExt ⟨⟨[true, false, false, true], [], []⟩, []⟩ exXs = some u ∧ u.bp.claims = [] ∧
    u.log = [⟨1, true, [0, 1]⟩, ⟨2, true, [3, 0]⟩, ⟨1, false, [0, 1]⟩, ⟨2, false, [3, 0]⟩] := ⟨_, rfl, rfl, rfl⟩

/-- The program of `Props/ExtNet.lean` with other contents. -/
example : ∃ ops, extGen empLib exExt [true, false, false, true] exXs = some ops ∧
    (∀ (p : SProg Unit) junk c,
      PReach 32768 (pnetInit 32768 junk p (mixVerifier exMix [.input true, .input false, .input false, .input true] ops [])) c →
        c.q ≠ .fail ∧ stepQ 32768 c ≠ .ub) ∧
    (∀ (q : RProg Unit) junk c,
      PReach 32768 (pnetInit 32768 junk (mixProver exMix [.input true, .input false, .input false, .input true] ops []) q) c →
        c.p ≠ .fail ∧ c.p ≠ .stop) := by
  have hs : exMix.SameV exMix := ⟨⟨rfl, rfl, rfl, fun _ => rfl, fun _ _ => rfl⟩, rfl, rfl, fun _ => rfl, fun _ => rfl, fun _ => rfl⟩
  have triv : ∀ n k, lastBatch n k = 0 ∨ 1 ≤ lastBatch n k := fun n k => by omega
  obtain ⟨u, hu, _, hcl, hlog⟩ := exXs_plain
  obtain ⟨u', hu', hcl', hlog'⟩ := exXs_other
  obtain ⟨_, _, o1, h1, _⟩ := C100_session exMix exMix_good (by decide) (by decide) (by decide) (by decide) (S := 32768) (by decide) empLib_good
    (c := exExt) (by decide) [.input true, .input false, .input true, .input false] exXs [] (b0 := ⟨[true, false, true, false], [], []⟩) rfl hu
    (by rw [hlog]; decide) (by rw [hlog]; decide) (fun t => ⟨_, rfl, by rw [hcl]; simp⟩)
  obtain ⟨_, _, o2, h2, _⟩ := C100_session exMix exMix_good (by decide) (by decide) (by decide) (by decide) (S := 32768) (by decide) empLib_good
    (c := exExt) (by decide) [.input true, .input false, .input false, .input true] exXs [] (b0 := ⟨[true, false, false, true], [], []⟩) rfl hu'
    (by rw [hlog']; decide) (by rw [hlog']; decide) (fun t => ⟨_, rfl, by rw [hcl']; simp⟩)
  exact ⟨o2, h2, C111_wide (lib := empLib) (cfg := exExt) (pre' := [.input true, .input false, .input true, .input false]) (post' := [])
    (us' := exXs) (b0 := ⟨[true, false, true, false], [], []⟩) (u := u) hs exMix_self exMix_good (by decide) (by decide) (by decide) (by decide)
    (S := 32768) (by decide) (by decide) empLib_good (by decide) rfl hu (by rw [hlog]; decide) (by rw [hlog]; decide)
    (fun t => ⟨_, rfl, by rw [hcl]; simp⟩) h1 (triv _ _) (triv _ _) (pre := [.input true, .input false, .input false, .input true]) (post := [])
    (us := exXs) rfl rfl rfl (bits := [true, false, false, true]) rfl h2⟩

/-- The verifier of the session in `C111_false`, from its statement. -/
example (p : SProg Unit) {c : PNet Unit (CVer GF128)} (hc : PReach 32768 (pnetInit 32768 [] p (convVerifier exQuiet exOneConv)) c) :
    c.q ≠ .fail ∧ stepQ 32768 c ≠ .ub := by
  obtain ⟨cp, hcp⟩ : ∃ cp, cplainRun exQuiet exOneConv = some cp := by
    cases h : cplainRun exQuiet exOneConv with
    | none => have := exQuiet_run; rw [h] at this; simp at this
    | some cp => exact ⟨cp, rfl⟩
  have h := exQuiet_run
  rw [hcp, Option.map_some, Option.some.injEq] at h
  simp only [Prod.mk.injEq] at h
  obtain ⟨e1, e2, e3⟩ := h
  exact C111_conversions_statement ⟨⟨rfl, rfl, rfl, fun _ => rfl, fun _ _ => rfl⟩, rfl, rfl, rfl, fun _ => rfl, fun _ => rfl, fun _ _ => rfl, rfl, rfl,
    fun _ => rfl, fun _ _ => rfl, fun _ => rfl, rfl, rfl⟩ exQuiet_good exQuiet_lucky (by decide) (by decide) (by decide) (by decide) (by decide)
    (by decide) rfl
    (by
      intro o ho
      simp only [exOneConv, List.mem_cons, List.not_mem_nil, or_false] at ho
      rcases ho with rfl | rfl <;> simp only [COp.CanonC, AOp.CanonC]
      decide) hcp (by rw [e1]; simp) (by rw [e2]; simp)
    (by show lastBatch cp.ands 2 = 0 ∨ 1 ≤ lastBatch cp.ands 2; omega) (Or.inl (by rw [e3]; decide)) (by decide) (by decide) p hc

/-- `x & y` is opened; if it is set, `x & !y = 0` is claimed, otherwise `x & x & y = 0`: each way holds for some witness. -/
def exClaims (x y : Bool) : SessTree :=
  .ops [.input x, .input y, .and 0 1, .reveal 2] (fun o => match o with
    | [true] => .ops [.not 1, .poly (.inner false [(0, 3)])] (fun _ => .fin (.fin (.fin ())))
    | [false] => .ops [.poly (.inner false [(0, 2)])] (fun _ => .fin (.fin (.fin ())))
    | _ => .undef)

theorem exClaims_ways {x y : Bool} {pre post : List BOp} {ops : List MOp} (h : (exClaims x y).Way pre ops post) :
    ops = [] ∧ post = [] ∧ (pre = [.input x, .input y, .and 0 1, .reveal 2, .poly (.inner false [(0, 2)])] ∨
      pre = [.input x, .input y, .and 0 1, .reveal 2, .not 1, .poly (.inner false [(0, 3)])]) := by
  obtain ⟨o1, t1, o2, t2, o3, h1, h2, h3⟩ := h
  cases h1 with
  | ops z hz h1 =>
    obtain ⟨b, rfl⟩ := List.length_eq_one_iff.1 hz
    cases b
    · cases h1 with
      | ops _ _ h1 => cases h1; cases h2; cases h3; exact ⟨rfl, rfl, .inl rfl⟩
    · cases h1 with
      | ops _ _ h1 => cases h1; cases h2; cases h3; exact ⟨rfl, rfl, .inr rfl⟩

/-- Whatever the inputs and whatever a dishonest prover opens. -/
example (x y : Bool) :
    (∀ (p : SProg Unit) junk c, PReach 32768 (pnetInit 32768 junk p (branchVerifier exMix (exClaims x y))) c → c.q ≠ .fail ∧ stepQ 32768 c ≠ .ub) ∧
    (∀ (q : RProg Unit) junk c, PReach 32768 (pnetInit 32768 junk (branchProver exMix (exClaims x y)) q) c → c.p ≠ .fail ∧ c.p ≠ .stop) := by
  have hs : exMix.SameV exMix := ⟨⟨rfl, rfl, rfl, fun _ => rfl, fun _ _ => rfl⟩, rfl, rfl, fun _ => rfl, fun _ => rfl, fun _ => rfl⟩
  refine C111_branching_statement hs exMix_self exMix_good (by decide) (by decide) (by decide) (by decide) (by decide) (by decide) ?_ ?_
  · intro z hz
    obtain ⟨b, rfl⟩ := List.length_eq_one_iff.1 hz
    cases b
    · intro _ _; trivial
    · intro _ _; trivial
  · intro pre ops post w
    obtain ⟨rfl, rfl, rfl | rfl⟩ := exClaims_ways w
    · exact ⟨[.input true, .input false, .and 0 1, .reveal 2, .poly (.inner false [(0, 2)])], [], [], rfl, rfl, rfl,
        fun ch => ⟨_, rfl, by decide⟩, by decide, by decide⟩
    · exact ⟨[.input true, .input true, .and 0 1, .reveal 2, .not 1, .poly (.inner false [(0, 3)])], [], [], rfl, rfl, rfl,
        fun ch => ⟨_, rfl, by decide⟩, by decide, by decide⟩

end EmpZk
