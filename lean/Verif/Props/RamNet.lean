/-
C97: a whole program with a memory (`ZKRAM`: reads, writes, accesses, the check) in a boolean session, over the byte channel, under every
interleaving of the two parties.
-/
import Verif.Lemmas.EmpLib
import Verif.Props.MixNet

namespace EmpZk

section
variable {F : Type} [Field F] [BlockField F] [DecidableEq F]

/-- At the end of a session with outputs `u.bp.outs` before the check and `ok` from the check, both parties have the outputs of the plain
program (`t`: the wires the check makes). -/
def RamOuts (u : UPlain) (ok : Bool) (post : List BOp) (c : PNet (MPrv F) (MVer F)) : Prop :=
  ∀ P V, c.p = .done P → c.q = .done V → ∃ t b2, post.foldlM plainStep ⟨u.bp.wires ++ t, u.bp.outs ++ [ok], u.bp.claims⟩ = some b2 ∧
    P.b.outs = b2.outs ∧ V.b.outs = b2.outs

/-- The session with the value `ok` of the condition. -/
theorem ram_session (me : MixEnv F) (hg : me.Good) (ht : 0 < me.ne.e.threads) (htc : me.ne.e.threads ≤ me.ne.e.checkSz)
    (hts : me.ne.e.threads ≤ me.sz) (hp : 0 < me.ne.e.polySz) {S : Nat} (hS : 0 < S) {lib : CmpLib} (hl : lib.Good) {c : RamCfg} (hc : c.Ok)
    (pre : List BOp) (us : List UOp) (post : List BOp) {b0 : Plain} (hpre : plainRun pre = some b0) {u : UPlain}
    (hu : uplainOps c ⟨b0, []⟩ us = some u) (h3 : 3 ≤ u.log.length) (hlen : u.log.length ≤ 2 ^ (c.ssz - 1)) :
    ∃ (ops : List MOp) (ok : Bool) (log rows : List RamEnt), ramGen lib c b0.wires us = some ops ∧ mixMuls ops = 2 * ((u.log.length - 1) % 4) ∧
      log.map RowOf.acc = u.log ∧ (∀ i (h : i < log.length), log[i].step = i) ∧ rows.Perm log ∧ ReadsMem u.log ∧
      (ok = true ↔ rows.IsChain RowOf.Adj) ∧ (WrittenFirst u.log → ok = true) ∧
      ((∀ t, ∃ b2, post.foldlM plainStep ⟨u.bp.wires ++ t, u.bp.outs ++ [ok], u.bp.claims⟩ = some b2 ∧ ∀ b ∈ b2.claims, b = false) →
       (lastBatch (mixAnds pre ops post) me.ne.e.checkSz = 0 ∨ me.ne.e.threads ≤ lastBatch (mixAnds pre ops post) me.ne.e.checkSz) →
       (lastBatch (mixMuls ops) me.sz = 0 ∨ me.ne.e.threads ≤ lastBatch (mixMuls ops) me.sz) →
       ∀ junk (n : PNet (MPrv F) (MVer F)), PReach S (pnetInit S junk (mixProver me pre ops post) (mixVerifier me pre ops post)) n →
         MixFine S me pre ops post n ∧ RamOuts u ok post n) := by
  have h0 : RSim c ⟨b0.wires, 0, ramInit c, []⟩ ⟨b0, []⟩ (⟨b0, [], []⟩ : MPlain F) := ⟨rfl, rfl, rfl, ramInit_inv c, rfl, rfl⟩
  have hpow : 2 ^ (c.ssz - 1) ≤ 2 ^ c.ssz := Nat.pow_le_pow_right (by decide) (by omega)
  obtain ⟨a, g, s, k1, k2, k3, k4⟩ := rsim_steps hc us h0 (by omega) hu
  obtain ⟨b, t, ok, rows, l1, l2, l3, l4, l5, l6⟩ := rsim_check hl hc k2 h3 hlen
  refine ⟨a ++ b, ok, g.ram.log, rows, ?_, ?_, k2.inv.acc, k2.inv.steps, l3, k2.inv.reads, l4, l5, ?_⟩
  · simp only [ramGen, k1, l1, Option.bind_eq_bind, Option.bind_some]
  · rw [mixMuls_append, k3, l2, Nat.zero_add]
  · intro hpost ha hm junk n hn
    obtain ⟨b2, q1, q2⟩ := hpost t
    have hrun : ∀ ch : Nat → F, ∃ mp, mplainRun ch pre (a ++ b) post = some mp ∧ mp.bp = b2 := by
      intro ch
      obtain ⟨fs', hf⟩ := l6 ch
      refine ⟨⟨b2, fs', [ch 0]⟩, ?_, rfl⟩
      simp only [mplainRun, hpre, mplainOps_append, k4, hf, q1, Option.bind_eq_bind, Option.bind_some]
    have hfine := C96_session me hg ht htc hts hp hS pre (a ++ b) post
      (fun ch => by obtain ⟨mp, h1, h2⟩ := hrun ch; exact ⟨mp, h1, by rw [h2]; exact q2⟩) ha hm junk hn
    refine ⟨hfine, fun P V hP hV => ?_⟩
    obtain ⟨_, _, _, hd, _⟩ := hfine
    obtain ⟨⟨ch, mp, h1, h2, h3, _⟩, _⟩ := hd P V hP hV
    obtain ⟨mp', h1', h2'⟩ := hrun ch
    rw [h1, Option.some.injEq] at h1'
    subst h1'
    rw [h2'] at h2 h3
    exact ⟨t, b2, q1, h2, h3⟩

/-- C97. A program that makes at least three and at most `2^(step_sz-1)` accesses and reads no address before writing it: its instructions and
those of the check are well defined; reads return the latest value written (the plain program); every configuration any interleaving reaches
is fine, and at the end both parties have the outputs of the plain program, and `true` from the check. -/
theorem C97_session (me : MixEnv F) (hg : me.Good) (ht : 0 < me.ne.e.threads) (htc : me.ne.e.threads ≤ me.ne.e.checkSz)
    (hts : me.ne.e.threads ≤ me.sz) (hp : 0 < me.ne.e.polySz) {S : Nat} (hS : 0 < S) {lib : CmpLib} (hl : lib.Good) {c : RamCfg}
    (hc : c.isz + c.ssz + 1 ≤ 64 ∧ 1 ≤ c.isz ∧ c.vsz ≤ 64)
    (pre : List BOp) (us : List UOp) (post : List BOp) {b0 : Plain} (hpre : plainRun pre = some b0) {u : UPlain}
    (hu : uplainOps c ⟨b0, []⟩ us = some u) (h3 : 3 ≤ u.log.length) (hlen : u.log.length ≤ 2 ^ (c.ssz - 1)) (hw : WrittenFirst u.log)
    (hpost : ∀ t, ∃ b2, post.foldlM plainStep ⟨u.bp.wires ++ t, u.bp.outs ++ [true], u.bp.claims⟩ = some b2 ∧ ∀ b ∈ b2.claims, b = false) :
    ReadsLastWrite u.log ∧ ∃ ops, ramGen lib c b0.wires us = some ops ∧ mixMuls ops = 2 * ((u.log.length - 1) % 4) ∧
      ((lastBatch (mixAnds pre ops post) me.ne.e.checkSz = 0 ∨ me.ne.e.threads ≤ lastBatch (mixAnds pre ops post) me.ne.e.checkSz) →
       (lastBatch (2 * ((u.log.length - 1) % 4)) me.sz = 0 ∨ me.ne.e.threads ≤ lastBatch (2 * ((u.log.length - 1) % 4)) me.sz) →
       ∀ junk (n : PNet (MPrv F) (MVer F)), PReach S (pnetInit S junk (mixProver me pre ops post) (mixVerifier me pre ops post)) n →
         MixFine S me pre ops post n ∧ RamOuts u true post n) := by
  obtain ⟨ops, ok, log, rows, k1, k2, k3, k4, k5, k6, k7, k8, k9⟩ := ram_session me hg ht htc hts hp hS hl hc pre us post hpre hu h3 hlen
  rw [k8 hw] at k9
  rw [k2] at k9
  exact ⟨k6.prev.last, ops, k1, k2, k9 hpost⟩

/-- C97. If the program reads an address that was not accessed before and is not the least one, the check reveals `false`, and that is all:
under every interleaving both parties carry on to the end, nobody stops, no cheating is recorded. -/
theorem C97_unwritten (me : MixEnv F) (hg : me.Good) (ht : 0 < me.ne.e.threads) (htc : me.ne.e.threads ≤ me.ne.e.checkSz)
    (hts : me.ne.e.threads ≤ me.sz) (hp : 0 < me.ne.e.polySz) {S : Nat} (hS : 0 < S) {lib : CmpLib} (hl : lib.Good) {c : RamCfg}
    (hc : c.isz + c.ssz + 1 ≤ 64 ∧ 1 ≤ c.isz ∧ c.vsz ≤ 64)
    (pre : List BOp) (us : List UOp) (post : List BOp) {b0 : Plain} (hpre : plainRun pre = some b0) {u : UPlain}
    (hu : uplainOps c ⟨b0, []⟩ us = some u) (h3 : 3 ≤ u.log.length) (hlen : u.log.length ≤ 2 ^ (c.ssz - 1))
    {i : Nat} {e f : Acc Nat} (hi : u.log[i]? = some e) (hop : e.op = false)
    (hno : ∀ (j : Nat) (d : Acc Nat), j < i → u.log[j]? = some d → d.idx ≠ e.idx) (hf : f ∈ u.log) (hlt : f.idx < e.idx)
    (hpost : ∀ t, ∃ b2, post.foldlM plainStep ⟨u.bp.wires ++ t, u.bp.outs ++ [false], u.bp.claims⟩ = some b2 ∧ ∀ b ∈ b2.claims, b = false) :
    ∃ ops, ramGen lib c b0.wires us = some ops ∧ mixMuls ops = 2 * ((u.log.length - 1) % 4) ∧
      ((lastBatch (mixAnds pre ops post) me.ne.e.checkSz = 0 ∨ me.ne.e.threads ≤ lastBatch (mixAnds pre ops post) me.ne.e.checkSz) →
       (lastBatch (2 * ((u.log.length - 1) % 4)) me.sz = 0 ∨ me.ne.e.threads ≤ lastBatch (2 * ((u.log.length - 1) % 4)) me.sz) →
       ∀ junk (n : PNet (MPrv F) (MVer F)), PReach S (pnetInit S junk (mixProver me pre ops post) (mixVerifier me pre ops post)) n →
         MixFine S me pre ops post n ∧ RamOuts u false post n) := by
  obtain ⟨ops, ok, log, rows, k1, k2, k3, k4, k5, k6, k7, k8, k9⟩ := ram_session me hg ht htc hts hp hS hl hc pre us post hpre hu h3 hlen
  have hok : ok = false := by
    rw [← Bool.not_eq_true, k7]
    intro hch
    have hfirst := chain_first log rows k5 k4 hch
    rw [← k3, List.getElem?_map, Option.map_eq_some_iff] at hi
    obtain ⟨r, hr, rfl⟩ := hi
    obtain ⟨hil, rfl⟩ := List.getElem?_eq_some_iff.1 hr
    rw [← k3] at hf
    obtain ⟨q, hq, rfl⟩ := List.mem_map.1 hf
    have := hfirst i hil hop (fun j hj => by
      refine hno j log[j].acc hj ?_
      rw [← k3, List.getElem?_map, List.getElem?_eq_getElem (by omega)]; rfl) q hq
    exact absurd hlt (by show ¬ q.idx < log[i].idx; omega)
  subst hok
  rw [k2] at k9
  exact ⟨ops, k1, k2, k9 hpost⟩

end

/-- C97. The comparison circuits of emp-tool meet what C97, C99 and C100 ask of the circuits of the check: on wires that exist, one gate per new
wire, the last of them says whether the two lists of bits are equal (`eq`) and the top bit of the difference (`lt`). -/
theorem C97_circuits : empLib.Good := empLib_good

/-- Three-bit operands 5 and 6: not equal; 5 < 6 read as the sign of the difference. -/
example : ((empLib.eq 6 [0, 1, 2] [3, 4, 5]).foldlM plainStep ⟨[true, false, true, false, true, true], [], []⟩).map (fun b => b.wires.getLast?)
      = some (some false) ∧
    ((empLib.lt 6 [0, 1, 2] [3, 4, 5]).foldlM plainStep ⟨[true, false, true, false, true, true], [], []⟩).map (fun b => b.wires.getLast?)
      = some (some true) := by decide

/-! ### a concrete program -/

/-- Three-bit steps, two-bit addresses and values. -/
def exRam : RamCfg := ⟨2, 3, 2⟩

/-- Two writes, a read, an access that reads; the value read is revealed. -/
def exUs : List UOp := [.write [0, 1] [1, 2], .write [1, 0] [0, 0], .read [0, 1], .access 3 [1, 0] [2, 2], .bool (.reveal 12), .bool (.reveal 13)]

theorem exUs_plain : ∃ u, uplainOps exRam ⟨⟨[true, false, true, false], [], []⟩, []⟩ exUs = some u ∧ u.bp.outs = [false, true] ∧ u.bp.claims = [] ∧
    u.log = [⟨1, true, 2⟩, ⟨2, true, 3⟩, ⟨1, false, 2⟩, ⟨2, false, 3⟩] := ⟨_, rfl, rfl, rfl, rfl⟩

/-- The hypotheses of C97 are met by a program whose four accesses are checked; both parties output what was read and `true`. -/
example : ∃ ops, ramGen empLib exRam [true, false, true, false] exUs = some ops ∧
    ∃ c' P V, PReach 32768 (pnetInit 32768 [] (mixProver exMix [.input true, .input false, .input true, .pub false] ops [])
      (mixVerifier exMix [.input true, .input false, .input true, .pub false] ops [])) c' ∧ c'.p = .done P ∧ c'.q = .done V ∧
      V.b.outs = [false, true, true] ∧ P.b.outs = [false, true, true] ∧ V.b.cheats = [] ∧ V.warns = 0 := by
  obtain ⟨u, hu, ho, hcl, hlog⟩ := exUs_plain
  have triv : ∀ n k, lastBatch n k = 0 ∨ 1 ≤ lastBatch n k := fun n k => by omega
  obtain ⟨_, ops, h1, _, h2⟩ := C97_session exMix exMix_good (by decide) (by decide) (by decide) (by decide) (S := 32768) (by decide) C97_circuits
    (c := exRam) (by decide) [.input true, .input false, .input true, .pub false] exUs [] (b0 := ⟨[true, false, true, false], [], []⟩) rfl hu
    (by rw [hlog]; decide) (by rw [hlog]; decide)
    (by
      rw [hlog]
      intro i e he hop
      match i, he with
      | 0, he => cases he; cases hop
      | 1, he => cases he; cases hop
      | 2, he => cases he; exact ⟨2, rfl⟩
      | 3, he => cases he; exact ⟨3, rfl⟩
      | n + 4, he => cases he)
    (fun t => ⟨_, rfl, by rw [hcl]; simp⟩)
  refine ⟨ops, h1, ?_⟩
  have h3 := h2 (triv _ _) (triv _ _) []
  obtain ⟨⟨_, _, _, _, _, c', P, V, k1, k2, k3⟩, _⟩ := h3 _ .init
  obtain ⟨⟨_, _, _, k4, _⟩, k5⟩ := h3 c' k1
  obtain ⟨⟨ch, mp, _, _, _, k6, k7, _⟩, _⟩ := k4 P V k2 k3
  obtain ⟨t, b2, k8, k9, k10⟩ := k5 P V k2 k3
  rw [List.foldlM_nil] at k8
  cases k8
  rw [ho] at k9 k10
  exact ⟨c', P, V, k1, k2, k3, k10, k9, k6, k7⟩

/-- The hypotheses of C97_unwritten: the third call reads address 2, never written, while address 1 is in use. -/
example : ∃ u, uplainOps exRam ⟨⟨[true, false, true, false], [], []⟩, []⟩ [.write [0, 1] [1, 2], .read [0, 1], .read [1, 0]] = some u ∧
    u.log[2]? = some ⟨2, false, 0⟩ ∧ (⟨1, true, 2⟩ : Acc Nat) ∈ u.log ∧ (∀ (j : Nat) (d : Acc Nat), j < 2 → u.log[j]? = some d → d.idx ≠ 2) := by
  refine ⟨_, rfl, rfl, by decide, ?_⟩
  intro j d hj hd
  match j, hj, hd with
  | 0, _, hd => cases hd; decide
  | 1, _, hd => cases hd; decide

end EmpZk
