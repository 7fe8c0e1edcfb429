/-
C99: a whole program with a read-only memory (`ROZKRAM`: `init`, reads, the automatic checks after every eight reads per element, checks the
program asks for) in a boolean session, over the byte channel, under every interleaving of the two parties.
-/
import Verif.Lemmas.RoProg
import Verif.Lemmas.EmpLib
import Verif.Props.MixNet

namespace EmpZk

section
variable {F : Type} [Field F] [BlockField F] [DecidableEq F]

/-- C99. For every program with a read-only memory whose addresses are inside the contents: all its instructions, those of all checks
included, are well defined; every configuration any interleaving reaches is fine; and at the end both parties have the outputs of the plain
program, where a read returns the element at the address and a check of `n` rows opens `n - 1` times `true`. -/
theorem C99_session (me : MixEnv F) (hg : me.Good) (ht : 0 < me.ne.e.threads) (htc : me.ne.e.threads ≤ me.ne.e.checkSz)
    (hts : me.ne.e.threads ≤ me.sz) (hp : 0 < me.ne.e.polySz) {S : Nat} (hS : 0 < S) {lib : CmpLib} (hl : lib.Good) {c : RoCfg}
    (hc : c.isz ≤ 64 ∧ c.vsz ≤ 64) (pre : List BOp) (data : List (List Nat)) (us : List VOp) (post : List BOp) {b0 : Plain}
    (hpre : plainRun pre = some b0) {vbs : List (List Bool)} (hd : data.mapM (pick b0.wires) = some vbs) (hw : ∀ d ∈ data, d.length = c.vsz)
    (h0 : 0 < data.length) (hsz : data.length ≤ 2 ^ c.isz) (hbig : data.length < 2 ^ 60) {u : VPlain}
    (hu : vplainOps c (vbs.map bitsNum) ⟨b0, 0⟩ us = some u) {b2 : Plain} (hpost : post.foldlM plainStep u.bp = some b2)
    (hcl : ∀ b ∈ b2.claims, b = false) :
    ∃ ops post', roProg lib c b0.wires data us post = some (ops, post') ∧
      ((lastBatch (mixAnds pre ops post') me.ne.e.checkSz = 0 ∨ me.ne.e.threads ≤ lastBatch (mixAnds pre ops post') me.ne.e.checkSz) →
       (lastBatch (mixMuls ops) me.sz = 0 ∨ me.ne.e.threads ≤ lastBatch (mixMuls ops) me.sz) →
       ∀ junk (n : PNet (MPrv F) (MVer F)), PReach S (pnetInit S junk (mixProver me pre ops post') (mixVerifier me pre ops post')) n →
         MixFine S me pre ops post' n ∧ ∀ P V, n.p = .done P → n.q = .done V → P.b.outs = b2.outs ∧ V.b.outs = b2.outs) := by
  have hvl : vbs.length = data.length := by
    clear hu hw h0 hsz hbig
    induction data generalizing vbs with
    | nil => rw [List.mapM_nil] at hd; cases hd; rfl
    | cons d ds ih =>
      rw [List.mapM_cons] at hd
      simp only [Option.bind_eq_bind, Option.bind_eq_some_iff, Option.pure_def, Option.some.injEq] at hd
      obtain ⟨vb, _, vbs', h2, rfl⟩ := hd
      simp [ih h2]
  have hvals : ∀ v ∈ vbs.map bitsNum, v < 2 ^ c.vsz := by
    clear hu h0 hsz hbig hvl
    induction data generalizing vbs with
    | nil => rw [List.mapM_nil] at hd; cases hd; simp
    | cons d ds ih =>
      rw [List.mapM_cons] at hd
      simp only [Option.bind_eq_bind, Option.bind_eq_some_iff, Option.pure_def, Option.some.injEq] at hd
      obtain ⟨vb, h1, vbs', h2, rfl⟩ := hd
      intro v hv
      rw [List.map_cons] at hv
      rcases List.mem_cons.1 hv with rfl | hv
      · have := bitsNum_lt vb
        rwa [pick_length h1, hw d (by simp)] at this
      · exact ih h2 (fun d h => hw d (by simp [h])) v hv
  have hml : (vbs.map bitsNum).length = data.length := by rw [List.length_map, hvl]
  set g0 : RoNet := ⟨b0.wires, List.range b0.wires.length, 0, 0, ⟨[], [], [], 0⟩, []⟩ with hg0
  have huw : pick g0.bits g0.uw = some b0.wires := by
    have := pick_range' [] b0.wires
    rwa [List.nil_append, List.length_nil, ← List.range_eq_range'] at this
  obtain ⟨a, g, k1, k2, k3, k4, k5⟩ := vInit_run (F := F) hc data (i := 0) (g := g0) (u := ⟨b0, 0⟩) huw hd hw (by omega)
  have hinv : RoInv c (vbs.map bitsNum) g.st := by
    rw [k2]
    refine ⟨rfl, by simp [hg0], ?_, by simp [hg0, roRows_length], ?_, ?_⟩
    · simp only [hg0, List.nil_append]
      rw [List.take_of_length_le (by rw [roRows_length])]
    · simp only [hg0, hml]; omega
    · intro e he; exact roRows_mem (by simpa [hg0] using he)
  have hvg : VG c (vbs.map bitsNum) g ⟨b0, 0⟩ := by
    refine ⟨hinv.mid, by rw [k2], k3, ?_⟩
    rw [k4, k2]
    simp [hg0, roRows_length, hvl]
  obtain ⟨b, g1, l1, l2, l3⟩ := vstep_all (F := F) (lib := lib) hl hc (by omega) (by omega) (by omega) hvals us hvg hinv hu
  obtain ⟨post', b', m1, m2, m3, m4⟩ := vBools_run post l2 hpost
  refine ⟨a ++ b, post', by simp only [roProg, ← hg0, k1, l1, m1, Option.bind_eq_bind, Option.bind_some], fun ha hm junk n hn => ?_⟩
  have hrun : ∀ ch : Nat → F, ∃ mp, mplainRun ch pre (a ++ b) post' = some mp ∧ mp.bp = b' := by
    intro ch
    obtain ⟨s, q1, q2⟩ := (k5.trans l3) ch (⟨b0, [], []⟩ : MPlain F) ⟨rfl, rfl, rfl, rfl, rfl, rfl⟩
    refine ⟨{ s with bp := b' }, ?_, rfl⟩
    have hb : s.bp = ⟨g1.bits, u.bp.outs, u.bp.claims⟩ := by rw [← q2.wires, ← q2.outs, ← q2.claims]
    simp only [mplainRun, hpre, q1, hb, m2, Option.bind_eq_bind, Option.bind_some]
  have hfine := C96_session me hg ht htc hts hp hS pre (a ++ b) post'
    (fun ch => by obtain ⟨mp, h1, h2⟩ := hrun ch; exact ⟨mp, h1, by rw [h2, m4]; exact hcl⟩) ha hm junk hn
  refine ⟨hfine, fun P V hP hV => ?_⟩
  obtain ⟨_, _, _, hdone, _⟩ := hfine
  obtain ⟨⟨ch, mp, h1, h2, h3, _⟩, _⟩ := hdone P V hP hV
  obtain ⟨mp', h1', h2'⟩ := hrun ch
  rw [h1, Option.some.injEq] at h1'
  subst h1'
  rw [h2', m3] at h2 h3
  exact ⟨h2, h3⟩

end

/-! ### a concrete program -/

/-- One-bit addresses, two-bit values. -/
def exRo : RoCfg := ⟨1, 2⟩

/-- Contents 1 and 2 (wires 0, 1 and wires 1, 0); a read of address 1 and one of address 0, a gate on what was read, a check. -/
def exVs : List VOp := [.read [0], .read [1], .bool (.xor 3 4), .bool (.reveal 6), .check, .read [0], .bool (.reveal 8)]

/-- The contents, one after the other, as wires of the program. -/
def exRoData : List (List Nat) := [[0, 1], [1, 0]]

theorem exVs_plain : ∃ u, vplainOps exRo [1, 2] ⟨⟨[true, false], [], []⟩, 0⟩ exVs = some u ∧ u.bp.outs = [false, true, true, true, true] ∧
    u.bp.claims = [] ∧ u.since = 1 := ⟨_, rfl, rfl, rfl, rfl⟩

/-- Enough reads for an automatic check: the sixteenth one is followed by a check of eighteen rows. -/
example : ∃ u, vplainOps exRo [1, 2] ⟨⟨[true, false], [], []⟩, 0⟩ ((List.replicate 16 (VOp.read [0])) ++ [.bool (.reveal 2)]) = some u ∧
    u.since = 0 ∧ u.bp.outs = List.replicate 17 true ++ [false] := ⟨_, rfl, rfl, rfl⟩

/-- The hypotheses of C99 are met; both parties output what was read and, for the check of four rows, three times `true`. -/
example : ∃ ops post, roProg empLib exRo [true, false] exRoData exVs [.reveal 3] = some (ops, post) ∧
    ∃ c' P V, PReach 32768 (pnetInit 32768 [] (mixProver exMix [.input true, .input false] ops post)
      (mixVerifier exMix [.input true, .input false] ops post)) c' ∧ c'.p = .done P ∧ c'.q = .done V ∧
      V.b.outs = [false, true, true, true, true, true] ∧ P.b.outs = [false, true, true, true, true, true] ∧ V.b.cheats = [] ∧ V.warns = 0 := by
  obtain ⟨u, hu, ho, hcl, _⟩ := exVs_plain
  have triv : ∀ n k, lastBatch n k = 0 ∨ 1 ≤ lastBatch n k := fun n k => by omega
  obtain ⟨b2, hb2, ho2, hc2⟩ : ∃ b2, [BOp.reveal 3].foldlM plainStep u.bp = some b2 ∧ b2.outs = [false, true, true, true, true, true] ∧ b2.claims = [] := by
    cases hu
    exact ⟨_, rfl, rfl, rfl⟩
  obtain ⟨ops, post, h1, h2⟩ := C99_session exMix exMix_good (by decide) (by decide) (by decide) (by decide) (S := 32768) (by decide) empLib_good
    (c := exRo) (by decide) [.input true, .input false] exRoData exVs [.reveal 3] (b0 := ⟨[true, false], [], []⟩) rfl
    (vbs := [[true, false], [false, true]]) rfl (by decide) (by decide) (by decide) (by decide) hu hb2 (by rw [hc2]; simp)
  refine ⟨ops, post, h1, ?_⟩
  have h3 := h2 (triv _ _) (triv _ _) []
  obtain ⟨⟨_, _, _, _, _, c', P, V, k1, k2, k3⟩, _⟩ := h3 _ .init
  obtain ⟨⟨_, _, _, k4, _⟩, k5⟩ := h3 c' k1
  obtain ⟨⟨ch, mp, _, _, _, k6, k7, _⟩, _⟩ := k4 P V k2 k3
  obtain ⟨k9, k10⟩ := k5 P V k2 k3
  rw [ho2] at k9 k10
  exact ⟨c', P, V, k1, k2, k3, k10, k9, k6, k7⟩

end EmpZk
