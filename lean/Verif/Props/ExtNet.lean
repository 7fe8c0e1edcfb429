/-
C100: a whole program with a memory of several words per cell (`ZkRamExt`: reads, writes, the check) in a boolean session, over the byte
channel, under every interleaving of the two parties.
-/
import Verif.Lemmas.EmpLib
import Verif.Lemmas.ExtCheckNet
import Verif.Props.MixNet
import Verif.Props.RamExt

namespace EmpZk

section
variable {F : Type} [Field F] [BlockField F] [DecidableEq F]

/-- At the end of a session with outputs `u.bp.outs` before the check, both parties have the outputs of the plain program and `true` from the
check (`t`: the wires the check makes). -/
def ExtOuts (u : XPlain) (post : List BOp) (c : PNet (MPrv F) (MVer F)) : Prop :=
  ∀ P V, c.p = .done P → c.q = .done V → ∃ t b2, post.foldlM plainStep ⟨u.bp.wires ++ t, u.bp.outs ++ [true], u.bp.claims⟩ = some b2 ∧
    P.b.outs = b2.outs ∧ V.b.outs = b2.outs

/-- C100. A program with cells of more than 64 bits that makes at least three and at most `2^(step_sz-1)` accesses and reads no address
before writing it (then the plain program is defined): its instructions and those of the check are well defined; reads return all words of the latest
value written (the plain program); every configuration any interleaving reaches is fine, and at the end both parties have the outputs of
the plain program, and `true` from the check. -/
theorem C100_session (me : MixEnv F) (hg : me.Good) (ht : 0 < me.ne.e.threads) (htc : me.ne.e.threads ≤ me.ne.e.checkSz)
    (hts : me.ne.e.threads ≤ me.sz) (hp : 0 < me.ne.e.polySz) {S : Nat} (hS : 0 < S) {lib : CmpLib} (hl : lib.Good) {c : RxCfg}
    (hc : c.isz ≤ 32 ∧ c.ssz ≤ 31 ∧ 64 < c.vsz ∧ c.vsz < 2 ^ 64)
    (pre : List BOp) (us : List XOp) (post : List BOp) {b0 : Plain} (hpre : plainRun pre = some b0) {u : XPlain}
    (hu : xplainOps c ⟨b0, []⟩ us = some u) (h3 : 3 ≤ u.log.length) (hlen : u.log.length ≤ 2 ^ (c.ssz - 1))
    (hpost : ∀ t, ∃ b2, post.foldlM plainStep ⟨u.bp.wires ++ t, u.bp.outs ++ [true], u.bp.claims⟩ = some b2 ∧ ∀ b ∈ b2.claims, b = false) :
    ReadsLastWrite u.log ∧ WrittenFirst u.log ∧ ∃ ops, extGen lib c b0.wires us = some ops ∧ mixMuls ops = 2 * ((u.log.length - 1) % 4) ∧
      ((lastBatch (mixAnds pre ops post) me.ne.e.checkSz = 0 ∨ me.ne.e.threads ≤ lastBatch (mixAnds pre ops post) me.ne.e.checkSz) →
       (lastBatch (2 * ((u.log.length - 1) % 4)) me.sz = 0 ∨ me.ne.e.threads ≤ lastBatch (2 * ((u.log.length - 1) % 4)) me.sz) →
       ∀ junk (n : PNet (MPrv F) (MVer F)), PReach S (pnetInit S junk (mixProver me pre ops post) (mixVerifier me pre ops post)) n →
         MixFine S me pre ops post n ∧ ExtOuts u post n) := by
  have hc' : c.Ok := ⟨hc.1, hc.2.1, by omega⟩
  have h0 : XSim c ⟨b0.wires, 0, extInit c, []⟩ ⟨b0, []⟩ (⟨b0, [], []⟩ : MPlain F) := ⟨rfl, rfl, rfl, extInit_inv c, rfl, rfl⟩
  have hpow : 2 ^ (c.ssz - 1) ≤ 2 ^ c.ssz := Nat.pow_le_pow_right (by decide) (by omega)
  obtain ⟨a, g, s, k1, k2, k3, k4⟩ := xsim_steps hc' us h0 (by omega) hu
  obtain ⟨b, t, l1, l2, l3⟩ := xsim_check hl hc' hc.2.2.1 hc.2.2.2 k2 h3 hlen
  have hm : mixMuls (a ++ b) = 2 * ((u.log.length - 1) % 4) := by rw [mixMuls_append, k3, l2, Nat.zero_add]
  refine ⟨k2.inv.reads.prev.last, fun i e he hop => ⟨e.val, k2.inv.reads i e he hop⟩, a ++ b, ?_, hm, ?_⟩
  · simp only [extGen, k1, l1, Option.bind_eq_bind, Option.bind_some]
  · intro hca hcm junk n hn
    obtain ⟨b2, q1, q2⟩ := hpost t
    have hrun : ∀ ch : Nat → F, ∃ mp, mplainRun ch pre (a ++ b) post = some mp ∧ mp.bp = b2 := by
      intro ch
      obtain ⟨fs', rs', hf⟩ := l3 ch
      refine ⟨⟨b2, fs', rs'⟩, ?_, rfl⟩
      simp only [mplainRun, hpre, mplainOps_append, k4, hf, q1, Option.bind_eq_bind, Option.bind_some]
    have hfine := C96_session me hg ht htc hts hp hS pre (a ++ b) post
      (fun ch => by obtain ⟨mp, h1, h2⟩ := hrun ch; exact ⟨mp, h1, by rw [h2]; exact q2⟩) hca (by rw [hm]; exact hcm) junk hn
    refine ⟨hfine, fun P V hP hV => ?_⟩
    obtain ⟨_, _, _, hd, _⟩ := hfine
    obtain ⟨⟨ch, mp, h1, h2, h3, _⟩, _⟩ := hd P V hP hV
    obtain ⟨mp', h1', h2'⟩ := hrun ch
    rw [h1, Option.some.injEq] at h1'
    subst h1'
    rw [h2'] at h2 h3
    exact ⟨t, b2, q1, h2, h3⟩

end

/-- C100 (cells of one word). With cells of at most 64 bits no program that makes an access survives its check. -/
theorem C100_one_word {lib : CmpLib} {c : RxCfg} (hc : c.isz ≤ 32 ∧ c.ssz ≤ 31 ∧ 1 ≤ c.vsz ∧ c.vsz ≤ 64) (b0 : Plain) (us : List XOp) {u : XPlain}
    (hu : xplainOps c ⟨b0, []⟩ us = some u) (hne : u.log ≠ []) (hlen : u.log.length ≤ 2 ^ c.ssz) :
    extGen lib c b0.wires us = none := by
  have hc' : c.Ok := ⟨hc.1, hc.2.1, hc.2.2.1⟩
  have h0 : XSim c ⟨b0.wires, 0, extInit c, []⟩ ⟨b0, []⟩ (⟨b0, [], []⟩ : MPlain GF128) := ⟨rfl, rfl, rfl, extInit_inv c, rfl, rfl⟩
  obtain ⟨a, g, s, k1, k2, _, _⟩ := xsim_steps hc' us h0 hlen hu
  have hl : g.st.log ≠ [] := by intro h; apply hne; rw [← k2.inv.acc, h]; rfl
  have h1 := C70_one_word c hc.2.2.1 hc.2.2.2 g.st (by rw [k2.inv.list, List.length_map, k2.inv.step])
    (by rw [k2.inv.list]; intro h; exact hl (List.map_eq_nil_iff.1 h))
    (by
      intro r hr
      rw [k2.inv.list] at hr
      obtain ⟨e, he, rfl⟩ := List.mem_map.1 hr
      have hw : c.words = 1 := by unfold RxCfg.words; omega
      rw [extRow_length (by omega) (k2.inv.fits e he).2.2.1, hw])
  simp only [extGen, k1, Option.bind_eq_bind, Option.bind_some, xCheckGen, h1, Option.bind_none]

/-- C100 (an address never written). A read of an address to which nothing was written is undefined, whatever was called before. -/
theorem C100_unwritten {c : RxCfg} (hc : c.isz ≤ 32 ∧ c.ssz ≤ 31 ∧ 1 ≤ c.vsz) (b0 : Plain) (us : List XOp) {u : XPlain}
    (hu : xplainOps c ⟨b0, []⟩ us = some u) (hlen : u.log.length ≤ 2 ^ c.ssz) (ix : List Nat) {ib : List Bool}
    (hi : pick u.bp.wires ix = some ib) (ha : bitsNum ib < 2 ^ c.isz) (hno : lastWrite u.log (bitsNum ib) = none) (more : List XOp) :
    xGens c ⟨b0.wires, 0, extInit c, []⟩ (us ++ .read ix :: more) = none := by
  have h0 : XSim c ⟨b0.wires, 0, extInit c, []⟩ ⟨b0, []⟩ (⟨b0, [], []⟩ : MPlain GF128) := ⟨rfl, rfl, rfl, extInit_inv c, rfl, rfl⟩
  obtain ⟨a, g, s, k1, k2, _, _⟩ := xsim_steps hc us h0 hlen hu
  have hm := k2.inv.mem _ ha
  rw [hno] at hm
  have hr := C70_unwritten c g.st _ hm
  have happ : ∀ (l r : List XOp) (g0 g1 : XNet) (a : List MOp), xGens c g0 l = some (a, g1) → xGens c g1 r = none → xGens c g0 (l ++ r) = none := by
    intro l r
    induction l with
    | nil => intro g0 g1 a h h'; simp only [xGens, Option.some.injEq, Prod.mk.injEq] at h; rw [List.nil_append, h.2]; exact h'
    | cons o l ih =>
      intro g0 g1 a h h'
      simp only [xGens, Option.bind_eq_bind, Option.bind_eq_some_iff, Option.some.injEq, Prod.mk.injEq, Prod.exists] at h
      obtain ⟨x, g2, hx, y, g3, hy, _, rfl⟩ := h
      simp only [List.cons_append, xGens, hx, Option.bind_eq_bind, Option.bind_some, ih g2 g3 y hy h', Option.bind_none]
  refine happ us _ _ g a k1 ?_
  have hb : pick g.bits ix = some ib := by rw [k2.bits]; exact hi
  simp only [xGens, xGen, hb, hr, Option.bind_eq_bind, Option.bind_some, Option.bind_none]

/-! ### a concrete program -/

/-- Three-bit steps, two-bit addresses, cells of 100 bits (two words). -/
def exExt : RxCfg := ⟨2, 3, 100⟩

/-- Two writes, two reads; a bit of each word read is revealed. -/
def exXs : List XOp := [.write [0, 1] [[1, 2], [0]], .write [1, 0] [[0, 0], [2, 2, 1]], .read [0, 1], .read [1, 0], .bool (.reveal 13), .bool (.reveal 76)]

theorem exXs_plain : ∃ u, xplainOps exExt ⟨⟨[true, false, true, false], [], []⟩, []⟩ exXs = some u ∧ u.bp.outs = [true, true] ∧ u.bp.claims = [] ∧
    u.log = [⟨1, true, [2, 1]⟩, ⟨2, true, [3, 3]⟩, ⟨1, false, [2, 1]⟩, ⟨2, false, [3, 3]⟩] := ⟨_, rfl, rfl, rfl, rfl⟩

/-- The hypotheses of C100 are met by a program whose four accesses are checked; both parties output what was read and `true`. -/
example : ∃ ops, extGen empLib exExt [true, false, true, false] exXs = some ops ∧
    ∃ c' P V, PReach 32768 (pnetInit 32768 [] (mixProver exMix [.input true, .input false, .input true, .pub false] ops [])
      (mixVerifier exMix [.input true, .input false, .input true, .pub false] ops [])) c' ∧ c'.p = .done P ∧ c'.q = .done V ∧
      V.b.outs = [true, true, true] ∧ P.b.outs = [true, true, true] ∧ V.b.cheats = [] ∧ V.warns = 0 := by
  obtain ⟨u, hu, ho, hcl, hlog⟩ := exXs_plain
  have triv : ∀ n k, lastBatch n k = 0 ∨ 1 ≤ lastBatch n k := fun n k => by omega
  obtain ⟨_, _, ops, h1, _, h2⟩ := C100_session exMix exMix_good (by decide) (by decide) (by decide) (by decide) (S := 32768) (by decide) empLib_good
    (c := exExt) (by decide) [.input true, .input false, .input true, .pub false] exXs [] (b0 := ⟨[true, false, true, false], [], []⟩) rfl hu
    (by rw [hlog]; decide) (by rw [hlog]; decide) (fun t => ⟨_, rfl, by rw [hcl]; simp⟩)
  refine ⟨ops, h1, ?_⟩
  have h3 := h2 (triv _ _) (triv _ _) []
  obtain ⟨⟨_, _, _, _, _, c', P, V, k1, k2, k3⟩, _⟩ := h3 _ .init
  obtain ⟨⟨_, _, _, k4, _⟩, k5⟩ := h3 c' k1
  obtain ⟨⟨ch, mp, _, _, _, k6, k7, _⟩, _⟩ := k4 P V k2 k3
  obtain ⟨t, b2, k8, k9, k10⟩ := k5 P V k2 k3
  rw [List.foldlM_nil] at k8
  cases k8
  rw [ho] at k9 k10
  exact ⟨c', P, V, k1, k2, k3, k10, k9, k6, k7⟩

/-- One word per cell: a write and a read. -/
example : extGen empLib ⟨2, 3, 64⟩ [true, false] [.write [0, 1] [[0, 0]], .read [0, 1]] = none :=
  C100_one_word (c := ⟨2, 3, 64⟩) (by decide) ⟨[true, false], [], []⟩ _ (u := ⟨_, [⟨1, true, [3]⟩, ⟨1, false, [3]⟩]⟩) rfl (by simp) (by simp)

/-- Address 2 is read when only address 1 was written. -/
example : xGens exExt ⟨[true, false], 0, extInit exExt, []⟩ ([.write [0, 1] [[0], [1]]] ++ .read [1, 0] :: []) = none :=
  C100_unwritten (c := exExt) (by decide) ⟨[true, false], [], []⟩ [.write [0, 1] [[0], [1]]] (u := ⟨_, [⟨1, true, [1, 0]⟩]⟩) rfl (by simp [exExt]) [1, 0]
    (ib := [false, true]) rfl (by decide) rfl []

end EmpZk
