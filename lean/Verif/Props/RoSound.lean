/-
C106: soundness of a program with a read-only memory (`ROZKRAM`) against any prover on the network: what an accepting verifier can conclude about
the values the memory returned, and what it cannot.
-/
import Verif.Lemmas.RoTraceFwd
import Verif.Props.BranchSound

namespace EmpZk

section
variable {F : Type} [Field F] [PackField F] [DecidableEq F]
variable {α : Type} {S : Nat} {junk : List Byte} {p : SProg α} {me : MixEnv F} {v : BView F} {pre : List BOp} {ops : List MOp} {post1 : List BOp}

theorem mapM_pick {ws : List Bool} {w : Nat} (ds : List (List Nat)) : ∀ {vbs : List (List Bool)}, ds.mapM (pick ws) = some vbs → (∀ d ∈ ds, d.length = w) →
    vbs.length = ds.length ∧ ∀ v ∈ vbs.map bitsNum, v < 2 ^ w := by
  induction ds with
  | nil => intro vbs h _; rw [List.mapM_nil] at h; cases h; simp
  | cons d ds ih =>
    intro vbs h hw
    rw [List.mapM_cons] at h
    simp only [Option.bind_eq_bind, Option.bind_eq_some_iff, Option.pure_def, Option.some.injEq] at h
    obtain ⟨vb, h1, vbs', h2, rfl⟩ := h
    obtain ⟨i1, i2⟩ := ih h2 (fun d h => hw d (by simp [h]))
    refine ⟨by simp [i1], ?_⟩
    intro v hv
    rw [List.map_cons] at hv
    rcases List.mem_cons.1 hv with rfl | hv
    · have := bitsNum_lt vb
      rwa [pick_length h1, hw d (by simp)] at this
    · exact i2 v hv

theorem VOp.same_widths {c : RoCfg} {o o' : VOp} (h : VOp.same o o') (hw : o.Widths c) : o'.Widths c := by
  cases o <;> cases o' <;> simp_all [VOp.same, VOp.Widths]

/-- The state before `init`, for any inputs. -/
theorem vsim_start {c : RoCfg} {b0 b : Plain} (h : b0.wires.length = b.wires.length) :
    VSim c [] ⟨b0.wires, List.range b0.wires.length, 0, 0, ⟨[], [], [], 0⟩, []⟩ ⟨b, [], [], []⟩ (⟨b, [], []⟩ : MPlain F) := by
  refine ⟨h, ?_, rfl, rfl, rfl, rfl, rfl, rfl, rfl, rfl, by simp⟩
  have := pick_range' [] b.wires
  rw [h]
  rwa [List.nil_append, List.length_nil, ← List.range_eq_range'] at this

/-- C106 (what holds). Fix everything but the verifier's `Delta`, and let the prover run any program; the verifier runs a program that puts `data` into a
read-only memory, makes the calls `us` and then the instructions `post`.  If the verifier accepts for at least six values of `Delta`, the challenges
of the batches are not bad for the committed values and the verifier's hash does not collide on the lists it hashes, then the session is a run of
the verifier's program on some inputs in which the reads returned some values, all claims are true, and the outputs are what the verifier saw.
If moreover all bits its checks revealed are true (the code stops with `cheat!` otherwise), then: at one of the checks the extra index bit of a
committed sorted row is set, or its challenge is a root of the difference of two different products; or every checked read of an address
inside the contents returned the element at that address, and a program whose addresses are inside and which ends with a check was run as
written.  Missing: that nothing forces the extra bits to be zero (`C106_stale`), and that reads after the last check are never checked
(`C106_unchecked`). -/
theorem C106_partial (hroom : ∀ k, me.sz ≤ (me.auth k).length) (hsz : 0 < me.sz) {lib : CmpLib} (hl : lib.Good) (hno : lib.NoIn) {c : RoCfg}
    (hc : c.isz ≤ 64 ∧ c.vsz ≤ 64) {data : List (List Nat)} {us : List VOp} {post : List BOp} (hw : ∀ o ∈ us, o.Widths c)
    (h0 : 0 < data.length) (hd : data.length ≤ 2 ^ c.isz) (hbig : data.length < 2 ^ 60) {b0 : Plain} (hpre : plainRun pre = some b0)
    (hgen : roProg lib c b0.wires data us post = some (ops, post1))
    {C : MCom F} {dg : F} (hC : MixCommitted S junk p me v pre ops post1 C dg) (hs : MixSeeds v C)
    (D : Finset F) (hD6 : 6 ≤ D.card) (hD : ∀ d ∈ D, ∃ V, MixAccepts S junk p me v pre ops post1 d V)
    (hhash : ∀ d1 ∈ D, ∀ d2 ∈ D, ∀ V1 V2, MixAccepts S junk p me v pre ops post1 d1 V1 → MixAccepts S junk p me v pre ops post1 d2 V2 →
      v.hash V1.b.digest = v.hash V2.b.digest → V1.b.digest = V2.b.digest) :
    ∃ pre' us' post' b vbs u b2 rs, List.Forall₂ BOp.same pre pre' ∧ List.Forall₂ VOp.same us us' ∧ List.Forall₂ BOp.same post post' ∧
      plainRun pre' = some b ∧ data.mapM (pick b.wires) = some vbs ∧ VTrace c data.length (anyBits data.length) ⟨b, [], [], []⟩ us' u ∧
      post'.foldlM plainStep u.bp = some b2 ∧ (∀ x ∈ b2.claims, x = false) ∧
      (∀ d ∈ D, ∀ V, MixAccepts S junk p me v pre ops post1 d V → V.b.outs = b2.outs ∧ V.rs = rs) ∧
      ((∀ i ∈ u.marks, b2.outs[i]? = some true) →
        (∃ g ∈ roChecks lib c b0.wires data us, ExtraBit c (C.b.wires.map lsb) g ∨ BadPoint (C.fw.map Prod.fst) rs g) ∨
        (ReadsRight (vbs.map bitsNum) u.done ∧
          ((∀ e ∈ u.done, e.idx < data.length) → u.since = [] → vplainOps c (vbs.map bitsNum) ⟨b, 0⟩ us' = some ⟨u.bp, 0⟩))) := by
  simp only [roProg, Option.bind_eq_bind, Option.bind_eq_some_iff, Option.some.injEq, Prod.mk.injEq, Prod.exists] at hgen
  obtain ⟨a, g, ha, bb, g1, hb, p1, hp1, rfl, rfl⟩ := hgen
  obtain ⟨i1, i2, i3, i4, i5, i6, i7⟩ := vInit_inv data ha
  simp only [List.length_nil, Nat.zero_add] at i1 i2 i3 i4
  have hginv : GInv data.length g := ⟨by omega, by omega, i3, by omega⟩
  have h5 : ∀ is, MOp.mulN is ∈ a ++ bb → is.length = 5 := by
    intro is his
    rcases List.mem_append.1 his with h | h
    · exact absurd rfl (i7 _ h is)
    · exact vGens_inv hbig h0 us hginv (by omega) hb is h
  obtain ⟨pre', ops', post1', pl, s1, s2, s3, hrun, hcl, hfs, hwires, hrs, hout⟩ := C103_extraction hroom hsz h5 hC hs D hD6 hD hhash
  obtain ⟨ch, hch⟩ : ∃ ch : Nat → F, Begins ch pl.rs := ⟨fun i => (pl.rs[i]?).getD 0, fun i r hr => by simp only [hr, Option.getD_some]⟩
  have hrun' := hrun ch hch
  simp only [mplainRun, Option.bind_eq_bind, Option.bind_eq_some_iff, Option.some.injEq] at hrun'
  obtain ⟨b, e1, s, e2, b3, e3, hpl⟩ := hrun'
  obtain ⟨a', bb', rfl, t1, t2⟩ := same_split s2
  rw [same_eq t1 i6, mplainOps_append, Option.bind_eq_some_iff] at e2
  obtain ⟨sm, f1, f2⟩ := e2
  have hl0 : b0.wires.length = b.wires.length := plainRun_len s1 rfl hpre e1
  obtain ⟨vbs, sm', hvb, n1, n2⟩ := vsim_init hc data (vsim_start (F := F) hl0) rfl (by simpa using hd) ha
  rw [n1 ch, Option.some.injEq] at f1
  subst f1
  simp only [List.nil_append] at n2
  obtain ⟨hvl, hvals⟩ := mapM_pick data hvb i5
  have hml : (vbs.map bitsNum).length = data.length := by rw [List.length_map, hvl]
  obtain ⟨us', u, g2, g3, g4, g5⟩ := vsim_backs hl hno hc (by omega) (by omega) hvals us n2 (by simp only [List.length_nil]; omega) hw hb t2 f2
  obtain ⟨post', b2, k1, k2, k3, k4⟩ := vsim_bools post g4 hp1 s3 e3
  subst hpl
  simp only at hcl hfs hwires hrs hout
  have hgrow := (plainRun_grows post' k2).1
  have hgrow3 := (plainRun_grows post1' e3).1
  have hwg := plainRun_wires_grow post1' e3
  rw [hwires] at hwg
  rw [hml] at g3
  refine ⟨pre', us', post', b, vbs, u, b2, s.rs, s1, g2, k1, e1, hvb, g3, k2, by rw [k4]; exact hcl, ?_, ?_⟩
  · intro d hd V hV
    obtain ⟨o1, o2⟩ := hout d hd V hV
    exact ⟨by rw [o1, k3], o2⟩
  · intro hm
    have hsites : roChecks lib c b0.wires data us = roSites lib c g us := by simp only [roChecks, ha]
    rw [hsites, ← hfs]
    rcases g5 _ s.fs s.rs b3.outs hwg (List.prefix_refl _) (List.prefix_refl _) hgrow3 (by rw [← k3]; exact hm) with q | q
    · exact .inl q
    · have hr : ReadsRight (vbs.map bitsNum) u.done := q (by intro e he; cases he)
      refine .inr ⟨hr, fun hin hsi => ?_⟩
      rw [← hml] at g3 hin
      have := g3.plain (forall₂_all (P := VOp.Widths c) (fun _ _ => VOp.same_widths) g2 hw) hgrow hm hsi hr hin
      rwa [hsi] at this

/-- C106. Conversely the prover can bring about every run: whatever values it makes the reads return, and whatever sorted rows it commits to at the
checks (of the widths of the rows), as long as their packed words are those of the contents and the reads up to order, there are inputs with
which the session goes through under every interleaving, nobody complains, and both parties have the outputs of that run. -/
theorem C106_runs (me : MixEnv F) (hg : me.Good) (ht : 0 < me.ne.e.threads) (htc : me.ne.e.threads ≤ me.ne.e.checkSz)
    (hts : me.ne.e.threads ≤ me.sz) (hp : 0 < me.ne.e.polySz) {S : Nat} (hS : 0 < S) {lib : CmpLib} (hl : lib.Good) (hno : lib.NoIn) {c : RoCfg}
    (hc : c.isz ≤ 64 ∧ c.vsz ≤ 64) {pre pre' post post' post1 : List BOp} {data : List (List Nat)} {us us' : List VOp} {ops : List MOp}
    (hw : ∀ o ∈ us, o.Widths c) (h0 : 0 < data.length) (hd : data.length ≤ 2 ^ c.isz) (hbig : data.length < 2 ^ 60) {b0 : Plain}
    (hpre : plainRun pre = some b0) (hgen : roProg lib c b0.wires data us post = some (ops, post1)) (hsp : List.Forall₂ BOp.same pre pre')
    (hsu : List.Forall₂ VOp.same us us') (hsq : List.Forall₂ BOp.same post post') {b : Plain} (hpre' : plainRun pre' = some b)
    {vbs : List (List Bool)} (hvb : data.mapM (pick b.wires) = some vbs) {u : VTr}
    (hu : VTrace c data.length (rowBitsOf c (vbs.map bitsNum)) ⟨b, [], [], []⟩ us' u) {b2 : Plain}
    (hpost : post'.foldlM plainStep u.bp = some b2) (hcl : ∀ x ∈ b2.claims, x = false)
    (ha : lastBatch (mixAnds pre ops post1) me.ne.e.checkSz = 0 ∨ me.ne.e.threads ≤ lastBatch (mixAnds pre ops post1) me.ne.e.checkSz)
    (hm : lastBatch (mixMuls ops) me.sz = 0 ∨ me.ne.e.threads ≤ lastBatch (mixMuls ops) me.sz) :
    ∃ ops' post1', List.Forall₂ MOp.same ops ops' ∧ List.Forall₂ BOp.same post1 post1' ∧
      ∀ junk (n : PNet (MPrv F) (MVer F)), PReach S (pnetInit S junk (mixProver me pre' ops' post1') (mixVerifier me pre ops post1)) n →
        MixFine S me pre' ops' post1' n ∧ ∀ P V, n.p = .done P → n.q = .done V → P.b.outs = b2.outs ∧ V.b.outs = b2.outs := by
  simp only [roProg, Option.bind_eq_bind, Option.bind_eq_some_iff, Option.some.injEq, Prod.mk.injEq, Prod.exists] at hgen
  obtain ⟨a, g, hga, bb, g1, hgb, p1, hp1, rfl, rfl⟩ := hgen
  obtain ⟨_, _, _, _, i5, i6, _⟩ := vInit_inv data hga
  have hl0 : b0.wires.length = b.wires.length := plainRun_len hsp rfl hpre hpre'
  obtain ⟨vbs2, sm, hvb2, n1, n2⟩ := vsim_init hc data (vsim_start (F := F) hl0) rfl (by simpa using hd) hga
  simp only at hvb2
  rw [hvb, Option.some.injEq] at hvb2
  subst hvb2
  simp only [List.nil_append] at n2
  obtain ⟨hvl, _⟩ := mapM_pick data hvb i5
  have hml : (vbs.map bitsNum).length = data.length := by rw [List.length_map, hvl]
  rw [← hml] at hu
  obtain ⟨bb', k1, k2⟩ := vsim_fwds hl hno hc (by omega) us n2 (by simp only [List.length_nil]; omega) hw hgb hsu hu
  obtain ⟨s1, _, k3⟩ := k2 (fun _ => 0) sm n2
  obtain ⟨post1', l1, l2⟩ := vsim_post post k3 hp1 hsq hpost
  have hsame : List.Forall₂ MOp.same (a ++ bb) (a ++ bb') := List.rel_append (R := MOp.same) (same_refls _) k1
  refine ⟨a ++ bb', post1', hsame, l1, fun junk n hn => ?_⟩
  have hrun : ∀ ch : Nat → F, ∃ mp, mplainRun ch pre' (a ++ bb') post1' = some mp ∧ mp.bp.outs = b2.outs ∧ mp.bp.claims = b2.claims := by
    intro ch
    obtain ⟨s2, q1, q2⟩ := k2 ch sm n2
    obtain ⟨b', r1, r2, r3⟩ := l2 s2 q2
    refine ⟨⟨b', s2.fs, s2.rs⟩, ?_, r2, r3⟩
    rw [mplainRun, hpre', Option.bind_eq_bind, Option.bind_some, mplainOps_append, n1 ch, Option.bind_some, q1]
    simp only [r1, Option.bind_eq_bind, Option.bind_some]
  rw [mixVerifier_same me hsp hsame l1] at hn
  rw [mixAnds_same hsp hsame l1] at ha
  rw [mixMuls_same hsame] at hm
  have hfine := C96_session me hg ht htc hts hp hS pre' _ post1'
    (fun ch => by obtain ⟨mp, h1, _, h2⟩ := hrun ch; exact ⟨mp, h1, by rw [h2]; exact hcl⟩) ha hm junk hn
  refine ⟨hfine, fun P V hP hV => ?_⟩
  obtain ⟨_, _, _, hdn, _⟩ := hfine
  obtain ⟨⟨ch, mp, h1, h2, h3, _⟩, _⟩ := hdn P V hP hV
  obtain ⟨mp', h1', h2', _⟩ := hrun ch
  rw [h1, Option.some.injEq] at h1'
  subst h1'
  rw [h2'] at h2 h3
  exact ⟨h2, h3⟩

end
/-! ### what a prover can get away with -/

/-- The instructions of a program that can be run honestly exist. -/
theorem roProg_exists {us : List VOp} {u : VPlain} (hu : vplainOps exRo [1, 2] ⟨⟨[true, false], [], []⟩, 0⟩ us = some u) (hcl : u.bp.claims = []) :
    ∃ ops post, roProg empLib exRo [true, false] exRoData us [] = some (ops, post) := by
  obtain ⟨ops, post, h, _⟩ := C99_session exMix exMix_good (by decide) (by decide) (by decide) (by decide) (S := 32768) (by decide) empLib_good
    (c := exRo) (by decide) [.pub true, .pub false] exRoData us [] (b0 := ⟨[true, false], [], []⟩) rfl
    (vbs := [[true, false], [false, true]]) rfl (by decide) (by decide) (by decide) (by decide) hu rfl (by rw [hcl]; simp)
  exact ⟨ops, post, h⟩

/-- A session of the attacker: the verifier runs `us` on the contents 1 and 2. -/
theorem ro_attack {us : List VOp} {ops : List MOp} {post : List BOp} {u : VTr} (hw : ∀ o ∈ us, o.Widths exRo)
    (hgen : roProg empLib exRo [true, false] exRoData us [] = some (ops, post)) (hsu : List.Forall₂ VOp.same us us)
    (hu : VTrace exRo 2 (rowBitsOf exRo [1, 2]) ⟨⟨[true, false], [], []⟩, [], [], []⟩ us u) (hcl : u.bp.claims = []) :
    ∃ ops' post' c' P V, PReach 32768 (pnetInit 32768 [] (mixProver exMix [.pub true, .pub false] ops' post')
      (mixVerifier exMix [.pub true, .pub false] ops post)) c' ∧ c'.p = .done P ∧ c'.q = .done V ∧ V.b.outs = u.bp.outs ∧
      V.b.cheats = [] ∧ V.warns = 0 := by
  have triv : ∀ n k, lastBatch n k = 0 ∨ 1 ≤ lastBatch n k := fun n k => by omega
  obtain ⟨ops', post', _, _, h2⟩ := C106_runs exMix exMix_good (by decide) (by decide) (by decide) (by decide) (S := 32768) (by decide) empLib_good
    empLib_noIn (c := exRo) (by decide) (pre := [.pub true, .pub false]) (pre' := [.pub true, .pub false]) (post := []) (post' := [])
    (data := exRoData) hw (by decide) (by decide) (by decide) (b0 := ⟨[true, false], [], []⟩) rfl hgen (.cons rfl (.cons rfl .nil)) hsu .nil rfl
    (vbs := [[true, false], [false, true]]) rfl hu rfl (by rw [hcl]; simp) (triv _ _) (triv _ _)
  have h3 := h2 []
  obtain ⟨⟨_, _, _, _, _, c', P, V, k1, k2, k3⟩, _⟩ := h3 _ .init
  obtain ⟨⟨_, _, _, k4, _⟩, k5⟩ := h3 c' k1
  obtain ⟨⟨ch, mp, _, _, _, k6, k7, _⟩, _⟩ := k4 P V k2 k3
  obtain ⟨_, k10⟩ := k5 P V k2 k3
  exact ⟨ops', post', c', P, V, k1, k2, k3, k10, k6, k7⟩

/-- Address 1, which holds 2, is read and what was read is revealed; then the memory is checked. -/
def exRoStale : List VOp := [.read [0], .bool (.reveal 2), .bool (.reveal 3), .check]

/-- C106 is false as stated, because of the extra index bit: nothing forces it to be zero, so that a prover can make the verifier accept, with only
`true` from the check, after a read that returned something else than the element at the address.  The program takes no input, and its plain run
reveals 2; the verifier gets 3. -/
theorem C106_stale : (∃ u, vplainOps exRo [1, 2] ⟨⟨[true, false], [], []⟩, 0⟩ exRoStale = some u ∧ u.bp.outs = [false, true, true, true] ∧ u.since = 0) ∧
    ∃ ops post ops' post' c' P V, roProg empLib exRo [true, false] exRoData exRoStale [] = some (ops, post) ∧
      PReach 32768 (pnetInit 32768 [] (mixProver exMix [.pub true, .pub false] ops' post') (mixVerifier exMix [.pub true, .pub false] ops post)) c' ∧
      c'.p = .done P ∧ c'.q = .done V ∧ V.b.outs = [true, true, true, true] ∧ V.b.cheats = [] ∧ V.warns = 0 := by
  constructor
  · exact ⟨_, rfl, rfl, rfl⟩
  · obtain ⟨ops, post, hops⟩ := roProg_exists (us := exRoStale) (u := ⟨_, _⟩) rfl rfl
    obtain ⟨ops', post', c', P, V, h1, h2, h3, h4, h5, h6⟩ := ro_attack (us := exRoStale) (ops := ops) (post := post)
      (by intro o ho; simp only [exRoStale, List.mem_cons, List.not_mem_nil, or_false] at ho; rcases ho with rfl | rfl | rfl | rfl <;> simp [VOp.Widths, exRo])
      hops (.cons rfl (.cons rfl (.cons rfl (.cons rfl .nil))))
      (.cons ⟨_, 3, rfl, by decide, .inl ⟨by decide, rfl⟩⟩ (.cons ⟨_, rfl, rfl⟩ (.cons ⟨_, rfl, rfl⟩
        (.cons ⟨by decide, _, ⟨[⟨3, 3⟩, ⟨0, 1⟩, ⟨1, 2⟩], by unfold RoEnt.Wide; decide, by decide, rfl⟩, rfl⟩ (.nil _))))) rfl
    exact ⟨ops, post, ops', post', c', P, V, hops, h1, h2, h3, h4, h5, h6⟩

/-- The same, without the check. -/
def exRoLoose : List VOp := [.read [0], .bool (.reveal 2), .bool (.reveal 3)]

/-- C106 is false as stated: destroying the memory does not check the reads since the last check, so that a program that does not ask for a check at
its end can be made to read anything (less than eight reads per element). -/
theorem C106_unchecked : (∃ u, vplainOps exRo [1, 2] ⟨⟨[true, false], [], []⟩, 0⟩ exRoLoose = some u ∧ u.bp.outs = [false, true]) ∧
    ∃ ops post ops' post' c' P V, roProg empLib exRo [true, false] exRoData exRoLoose [] = some (ops, post) ∧
      PReach 32768 (pnetInit 32768 [] (mixProver exMix [.pub true, .pub false] ops' post') (mixVerifier exMix [.pub true, .pub false] ops post)) c' ∧
      c'.p = .done P ∧ c'.q = .done V ∧ V.b.outs = [true, false] ∧ V.b.cheats = [] ∧ V.warns = 0 := by
  constructor
  · exact ⟨_, rfl, rfl⟩
  · obtain ⟨ops, post, hops⟩ := roProg_exists (us := exRoLoose) (u := ⟨_, _⟩) rfl rfl
    obtain ⟨ops', post', c', P, V, h1, h2, h3, h4, h5, h6⟩ := ro_attack (us := exRoLoose) (ops := ops) (post := post)
      (by intro o ho; simp only [exRoLoose, List.mem_cons, List.not_mem_nil, or_false] at ho; rcases ho with rfl | rfl | rfl <;> simp [VOp.Widths, exRo])
      hops (.cons rfl (.cons rfl (.cons rfl .nil)))
      (.cons ⟨_, 1, rfl, by decide, .inl ⟨by decide, rfl⟩⟩ (.cons ⟨_, rfl, rfl⟩ (.cons ⟨_, rfl, rfl⟩ (.nil _)))) rfl
    exact ⟨ops, post, ops', post', c', P, V, hops, h1, h2, h3, h4, h5, h6⟩

/-! ### an honest session -/

/-- The hypotheses of C106 are met by the honest prover of `exVs` (two reads, a gate, a check, a read) for six values of `Delta`; the contents are
inputs of the prover. -/
theorem exRo_sound : ∃ (ops : List MOp) (post1 : List BOp) (p : SProg (MPrv GF128)) (C : MCom GF128) (dg : GF128),
    roProg empLib exRo [true, false] exRoData exVs [] = some (ops, post1) ∧
    MixCommitted 32768 [] p exMixK exHuntV [.input true, .input false] ops post1 C dg ∧ MixSeeds exHuntV C ∧ 6 ≤ exDeltas.card ∧
    (∀ d ∈ exDeltas, ∃ V, MixAccepts 32768 [] p exMixK exHuntV [.input true, .input false] ops post1 d V ∧ V.b.outs = [false, true, true, true, true]) ∧
    (∀ d1 ∈ exDeltas, ∀ d2 ∈ exDeltas, ∀ V1 V2, MixAccepts 32768 [] p exMixK exHuntV [.input true, .input false] ops post1 d1 V1 →
      MixAccepts 32768 [] p exMixK exHuntV [.input true, .input false] ops post1 d2 V2 →
      exHuntV.hash V1.b.digest = exHuntV.hash V2.b.digest → V1.b.digest = V2.b.digest) ∧
    (∀ o ∈ exVs, o.Widths exRo) ∧ plainRun [.input true, .input false] = some ⟨[true, false], [], []⟩ := by
  have triv : ∀ n k, lastBatch n k = 0 ∨ 1 ≤ lastBatch n k := fun n k => by omega
  have hlsb : ∀ d ∈ exDeltas, lsb d = true := by
    intro d hd
    simp only [exDeltas, Finset.mem_image, Finset.mem_range] at hd
    obtain ⟨n, hn, rfl⟩ := hd
    show (BitVec.ofNat 128 (2 * n + 1)).getLsbD 0 = true
    interval_cases n <;> decide
  have hx0 : (gX : GF128) ≠ 0 := by decide
  obtain ⟨u, hu, hout, hcl, _⟩ := exVs_plain
  have hses := fun d (hd : lsb d = true) => C99_session (exMixK.at exHuntV d) (exHunt_good hd) Nat.one_pos (Nat.le_refl 1) (Nat.le_refl 1) Nat.one_pos
    (S := 32768) (by decide) empLib_good (c := exRo) (by decide) [.input true, .input false] exRoData exVs [] (b0 := ⟨[true, false], [], []⟩) rfl
    (vbs := [[true, false], [false, true]]) rfl (by decide) (by decide) (by decide) (by decide) hu rfl (by rw [hcl]; simp)
  obtain ⟨ops, post1, hops, _⟩ := hses 1 lsb_one
  have hacc : ∀ d, lsb d = true → ∃ V, MixAccepts 32768 [] (mixProver (exMixK.at exHuntV 1) [.input true, .input false] ops post1)
      exMixK exHuntV [.input true, .input false] ops post1 d V ∧ V.b.outs = [false, true, true, true, true] := by
    intro d hd
    obtain ⟨ops', post2, h1, h2⟩ := hses d hd
    rw [hops, Option.some.injEq, Prod.mk.injEq] at h1
    obtain ⟨rfl, rfl⟩ := h1
    have h3 := h2 (triv _ _) (triv _ _) []
    rw [mixProver_at exMixK exHuntV d 1] at h3
    obtain ⟨⟨_, _, _, _, _, c', P, V, k1, k2, k3⟩, _⟩ := h3 _ .init
    obtain ⟨⟨_, _, _, k4, _⟩, k5⟩ := h3 c' k1
    obtain ⟨⟨ch, mp, _, _, _, k6, k7, _⟩, _⟩ := k4 P V k2 k3
    obtain ⟨_, k10⟩ := k5 P V k2 k3
    exact ⟨V, ⟨hd, ⟨c', k1, k3⟩, k6, k7⟩, k10.trans hout⟩
  obtain ⟨V, hV, hVo⟩ := hacc 1 lsb_one
  obtain ⟨C, dg, hC, _, _, _, ho, _⟩ := C103_committed (me := exMixK) (v := exHuntV) (fun k => by show 1 ≤ 3; decide) (by decide) 1 V _ lsb_one
    hV.2.1.choose_spec.1 hV.2.1.choose_spec.2
  refine ⟨ops, post1, _, C, dg, hops, hC, C103_unit rfl rfl rfl rfl rfl (fun _ _ => hx0) (fun _ => hx0) (fun _ => one_ne_zero) hC, ?_,
    fun d hd => hacc d (hlsb d hd), ?_, ?_, rfl⟩
  · rw [exDeltas, Finset.card_image_of_injOn]
    · simp
    · intro a ha b hb h
      have := congrArg (fun x : GF128 => x.bits.toNat) h
      simp at this ha hb
      omega
  · intro d1 hd1 d2 hd2 V1 V2 h1 h2 hh
    obtain ⟨⟨_, e1⟩, _⟩ := mixAccepts_facts (fun k => by show 1 ≤ 3; decide) (by decide) hC h1
    obtain ⟨⟨_, e2⟩, _⟩ := mixAccepts_facts (fun k => by show 1 ≤ 3; decide) (by decide) hC h2
    have hl : C.b.opened.length = 5 := by
      have := congrArg List.length (ho.symm.trans hVo)
      simpa using this
    exact exHunt_hash (by omega) e1 e2 hh
  · intro o ho
    simp only [exVs, List.mem_cons, List.not_mem_nil, or_false] at ho
    rcases ho with rfl | rfl | rfl | rfl | rfl | rfl | rfl <;> simp [VOp.Widths, exRo]

/-- So C106_partial applies to it. -/
example : ∃ us' b u, List.Forall₂ VOp.same exVs us' ∧ VTrace exRo 2 (anyBits 2) ⟨b, [], [], []⟩ us' u := by
  obtain ⟨ops, post1, p, C, dg, h0, h1, h2, h3, h4, h5, h6, h7⟩ := exRo_sound
  obtain ⟨_, us', _, b, _, u, _, _, _, k2, _, _, _, k6, _⟩ := C106_partial (fun k => by show 1 ≤ 3; decide) (by decide) empLib_good empLib_noIn
    (c := exRo) (by decide) (data := exRoData) (us := exVs) h6 (by decide) (by decide) (by decide) h7 h0 h1 h2 exDeltas h3
    (fun d hd => (h4 d hd).imp (fun _ h => h.1)) h5
  exact ⟨us', b, u, k2, k6⟩

end EmpZk
