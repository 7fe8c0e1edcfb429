/-
C108: soundness of programs with bits, field elements and conversions against any prover on the network.
-/
import Verif.Spec.ConvCommit
import Verif.Lemmas.ConvCheat
import Verif.Lemmas.ConvAll
import Verif.Props.MixSound
import Verif.Props.ArithProtocol
import Verif.Props.ConvNet

namespace EmpZk

/-! ### the claim is false: conversions to bits -/

section
variable {F : Type} [Field F] [BlockField F] [DecidableEq F]

/-- C108. The attack of C81 over the network.  A prover that follows the code except that in one conversion of a field element `x ≥ 2` to
bits it sends the sum plus `p` is accepted, under every schedule, for every `Delta` up to one half of `p` (when `x + r < p` for the candidates
`r`); the outputs are those of a program in which the conversion gives the bits of `x - 2`. -/
theorem C108_wrong (ce : ConvEnv F) (hg : ce.Good) (hl : ce.Lucky) (ht : 0 < ce.ne.e.threads) (htc : ce.ne.e.threads ≤ ce.ne.e.checkSz)
    (hp : 0 < ce.ne.e.polySz) (hat : 0 < ce.base.threads) (hac : ce.base.threads ≤ ce.base.checkSz) (hap : 0 < ce.base.polySz)
    {S : Nat} (hS : 0 < S) (ops1 : List COp) (i : Nat) (ops2 : List COp) (hc1 : ∀ o ∈ ops1, o.CanonC) (hc2 : ∀ o ∈ ops2, o.CanonC)
    (hd : 2 * (fp ce.base.delta).val ≤ pN) {cp1 cp : CPlain} {x : Fp} (ho1 : cplainRun ce ops1 = some cp1)
    (hx : cp1.a.wires[i]? = some x) (h2 : 2 ≤ x.val) (hsm : ∀ k, ∀ M ∈ ce.candA k, x.val + (high64 M).toNat < pN)
    (ho : cheatRun ce ops1 i ops2 = some cp) (hcb : ∀ b ∈ cp.b.claims, b = false) (hca : ∀ x ∈ cp.a.claims, x = 0)
    (ha : lastBatch cp.ands ce.ne.e.checkSz = 0 ∨ ce.ne.e.threads ≤ lastBatch cp.ands ce.ne.e.checkSz)
    (hm : lastBatch cp.muls ce.base.checkSz < 32 ∨ ce.base.threads ≤ lastBatch cp.muls ce.base.checkSz)
    (junk : List Byte) {c : PNet (CPrv F) (CVer F)}
    (hreach : PReach S (pnetInit S junk (cheatProver ce ops1 i ops2) (convVerifier ce (ops1 ++ .a2b i :: ops2))) c) : ConvFine S ce cp c := by
  have hs : ce.ne.Sane := ⟨hg.ne, ht, htc, hp⟩
  have hsa : ce.env.Sane := ⟨hg.env, (mulTasks_isSome _ _).2 ⟨Nat.lt_of_lt_of_le hat hac, Or.inr ⟨hat, hac⟩⟩, hap⟩
  refine lock_network hS (lock_cheat hs hsa hg hl hd hc1 hc2 ho1 hx h2 hsm ho hcb hca ha ?_) junk hreach
  by_cases h0 : lastBatch cp.muls ce.base.checkSz = 0
  · exact Or.inl h0
  · exact Or.inr ((mulTasks_isSome _ _).2 ⟨by omega, hm.imp id (fun h => ⟨hat, h⟩)⟩)

end

/-- The session `exConv` of C98 for any `Delta` of the arithmetic part. -/
noncomputable def exConvAt (d : Fp) : ConvEnv GF128 := exConv.atA exEnvA.view (fun _ => List.replicate 11 (3, 22)) d

theorem exConvAt_good (d : Fp) : (exConvAt d).Good where
  ne := exConv_good.ne
  env := by
    have := AView.good exEnvA.view d
    exact ⟨this.delta, this.key, this.u, this.mac, this.pub, this.cor⟩
  av := exConv_good.av
  ed := exConv_good.ed
  N := exConv_good.N
  C := exConv_good.C
  ell := exConv_good.ell
  small := exConv_good.small
  auth := by
    intro k
    show List.Forall₂ (Auth (toW d)) ((List.replicate 11 ((3 : Fp), (22 : Fp))).map lab) ((List.replicate 11 ((3 : Fp), (22 : Fp))).map (keyAt d))
    rw [List.forall₂_map_left_iff, List.forall₂_map_right_iff, List.forall₂_same]
    intro c _
    exact auth_lab d c
  room := fun k => by
    show 11 ≤ ((List.replicate 11 ((3 : Fp), (22 : Fp))).map lab).length
    simp
  dig := exConv_good.dig
  sum := sumCirc_ok
  diff := diffCirc_ok

theorem exConvAt_cand (d : Fp) (k : Nat) {x : U128} (hx : x ∈ (exConvAt d).candA k) : (high64 x).toNat = 3 := by
  have hx' : x ∈ (List.replicate 11 ((3 : Fp), (22 : Fp))).map lab := hx
  obtain ⟨c, hc, rfl⟩ := List.mem_map.1 hx'
  rw [List.eq_of_mem_replicate hc]
  decide +kernel

theorem exConvAt_lucky (d : Fp) : (exConvAt d).Lucky where
  point := exConv_lucky.point
  bucket := by
    intro g j i _ _ a b ha hb
    rw [exConvAt_cand d _ (List.mem_of_getElem? ha), exConvAt_cand d _ (List.mem_of_getElem? hb)]
    decide

/-- The public constant 2 is converted to bits, and bit 1 is opened. -/
def exCheatProg : List COp := [.arith (.pub 2), .a2b 0, .bool (.reveal 1)]

/-- The prover of the attack does not depend on `Delta`. -/
theorem exCheat_prover (d : Fp) : cheatProver (exConvAt d) [.arith (.pub 2)] 0 [.bool (.reveal 1)] =
    cheatProver (exConvAt 0) [.arith (.pub 2)] 0 [.bool (.reveal 1)] := by rfl

theorem exCheat_run : (cheatRun exConv [.arith (.pub 2)] 0 [.bool (.reveal 1)]).map (fun cp => (cp.b.outs, cp.a.outs, cp.b.claims, cp.a.claims, cp.muls)) =
    some ([false], [], [], [], 0) ∧ (cplainRun exConv [.arith (.pub 2)]).map (fun cp => cp.a.wires) = some [2] ∧
    (cplainRun exConv exCheatProg).map (fun cp => cp.b.outs) = some [true] := by
  refine ⟨?_, ?_, ?_⟩ <;> decide +kernel

theorem exCheat_same {ops' : List COp} (h : List.Forall₂ COp.same exCheatProg ops') : ops' = exCheatProg := by
  unfold exCheatProg at h ⊢
  cases h with
  | cons h1 h =>
    cases h with
    | cons h2 h =>
      cases h with
      | cons h3 h =>
        cases h
        congr 1
        · rename_i o _ _
          cases o <;> simp only [COp.same, reduceCtorEq] at h1
          rename_i o
          cases o <;> simp [AOp.same] at h1
          subst h1
          rfl
        · congr 1
          · rename_i o _
            cases o <;> simp only [COp.same, reduceCtorEq] at h2
            exact h2.symm
          · rename_i o
            cases o <;> simp only [COp.same, reduceCtorEq] at h3
            rename_i o
            cases o <;> simp [BOp.same] at h3
            subst h3
            rfl

/-- C108. One prover program, which does not know `Delta`, is accepted under every schedule for every `Delta` up to one half of `p`; the program
has no inputs and opens `true`, but the verifier is given `false`. -/
theorem C108_attack (S : Nat) (hS : 0 < S) (junk : List Byte) (d : Fp) (hd : 2 * d.val ≤ pN) {c : PNet (CPrv GF128) (CVer GF128)}
    (hreach : PReach S (pnetInit S junk (cheatProver (exConvAt 0) [.arith (.pub 2)] 0 [.bool (.reveal 1)]) (convVerifier (exConvAt d) exCheatProg)) c) :
    (∃ c' P V, PReach S c c' ∧ c'.p = .done P ∧ c'.q = .done V) ∧ ∀ P V, c.p = .done P → c.q = .done V →
      V.b.cheats = [] ∧ V.a.accepted = true ∧ V.outs = [false] := by
  obtain ⟨h1, h2, _⟩ := exCheat_run
  obtain ⟨cp, hcp, e⟩ := Option.map_eq_some_iff.1 h1
  obtain ⟨cp1, hcp1, e1⟩ := Option.map_eq_some_iff.1 h2
  simp only [Prod.mk.injEq] at e
  obtain ⟨e2, e3, e4, e5, e6⟩ := e
  rw [← exCheat_prover d] at hreach
  have hf := C108_wrong (exConvAt d) (exConvAt_good d) (exConvAt_lucky d) (show 0 < 1 by decide) (show 1 ≤ 2 by decide) (show 0 < 2 by decide)
    (show 0 < 1 by decide) (show 1 ≤ 2 by decide) (show 0 < 2 by decide) hS [.arith (.pub 2)] 0 [.bool (.reveal 1)] (by
      intro o ho
      rw [List.mem_singleton] at ho
      subst ho
      simp only [COp.CanonC, AOp.CanonC]
      decide) (by
      intro o ho
      rw [List.mem_singleton] at ho
      subst ho
      trivial) (by
      show 2 * (fp (toW d)).val ≤ pN
      rw [fp_toW]
      exact hd) (cp1 := cp1) (cp := cp) (x := 2) hcp1 (by rw [e1]; rfl) (by decide +kernel) (by
      intro k M hM
      rw [exConvAt_cand d k hM]
      decide +kernel) hcp (by rw [e4]; simp) (by rw [e5]; simp) (by
      show lastBatch cp.ands 2 = 0 ∨ 1 ≤ lastBatch cp.ands 2
      omega) (Or.inl (by rw [e6]; show lastBatch 0 2 < 32; decide)) junk hreach
  obtain ⟨_, _, _, k4, _, c', P, V, k5, k6, k7⟩ := hf
  refine ⟨⟨c', P, V, k5, k6, k7⟩, ?_⟩
  intro P V hP hV
  obtain ⟨⟨_, m2, m3, _, _, m6, _, _⟩, _⟩ := k4 P V hP hV
  exact ⟨m3, m6, by rw [m2, e2]⟩

/-- C108. The claim is false, even when up to one half of all `Delta` are excepted. -/
theorem C108_false (n : Nat) (hn : n < 2 ^ 60) : ¬ ConvNetSound exConv exEnvA.view (fun _ => List.replicate 11 (3, 22)) n := by
  classical
  intro h
  have h1 := h 32768 [] exCheatProg (cheatProver (exConvAt 0) [.arith (.pub 2)] 0 [.bool (.reveal 1)]) (by decide) (by
    intro o ho
    simp only [exCheatProg, List.mem_cons, List.not_mem_nil, or_false] at ho
    rcases ho with rfl | rfl | rfl <;> simp only [COp.CanonC, AOp.CanonC]
    decide)
  have h2 := card_val_lt (2 ^ 60)
  rw [show min pN (2 ^ 60) = 2 ^ 60 from by decide] at h2
  have h3 : (Finset.univ.filter (fun u : Fp => u.val < 2 ^ 60)).card ≤ _ := Finset.card_le_card (t := Finset.univ.filter (fun d : Fp => ∃ V,
      ConvAccepts 32768 [] (cheatProver (exConvAt 0) [.arith (.pub 2)] 0 [.bool (.reveal 1)]) (exConv.atA exEnvA.view (fun _ => List.replicate 11 (3, 22)) d)
        exCheatProg V ∧ ¬ OutsOf exConv exCheatProg V)) (by
    intro d hd
    simp only [Finset.mem_filter, Finset.mem_univ, true_and] at hd ⊢
    have hd2 : 2 * d.val ≤ pN := by simp only [pN]; omega
    obtain ⟨⟨c', P, V, k1, k2, k3⟩, _⟩ := C108_attack 32768 (by decide) [] d hd2 PReach.init
    obtain ⟨m1, m2, m3⟩ := (C108_attack 32768 (by decide) [] d hd2 k1).2 P V k2 k3
    refine ⟨V, ⟨⟨c', k1, k3⟩, m1, m2⟩, ?_⟩
    rintro ⟨ops', cp, h4, h5, h6, _⟩
    rw [exCheat_same h4] at h5
    have h7 := exCheat_run.2.2
    rw [h5, Option.map_some, Option.some.injEq, ← h6, m3] at h7
    simp at h7)
  omega

/-! ### programs without conversions -/

section
variable {F : Type} [Field F] [BlockField F] [DecidableEq F]

/-- The messages of `p` commit it to `T`; `dg` is the digest of the boolean part received at the end, `fin` the last messages of the
arithmetic part. -/
def ConvCommitted {α : Type} (S : Nat) (junk : List Byte) (p : SProg α) (ce : ConvEnv F) (vb : BView F) (va : AView) (ops : List COp)
    (T : CTr F) (dg : F) (fin : AFin) : Prop :=
  ∃ c, PReach S (pnetInit S junk p (convCommit ce vb va ops)) c ∧ c.q = .done (T, dg, fin)

/-- The challenges of the session are not among the few bad ones, and the splits cover the batches; compare `C103_sound` and
`C64_extraction`. -/
structure ConvSeeds (vb : BView F) (va : AView) (T : CTr F) : Prop where
  ands : ∀ r ∈ T.b.andLog, ∀ tasks, splitTasks r.gates.length vb.threads = some tasks →
    errSum r.gates r.seeds tasks 0 = 0 → ∀ t ∈ tasks, ∀ g ∈ taskSlice r.gates t, g.Correct
  andCover : ∀ r ∈ T.b.andLog, r.gates.length % vb.threads < r.gates.length / vb.threads
  polys : ∀ r ∈ T.b.polyLog, chiSum r.seed (r.polys.map (fun s => (bit (s.map lsb).eval : F))) = 0 → ∀ s ∈ r.polys, (s.map lsb).eval = false
  muls : ∀ r ∈ T.a.mulLog, ∀ tasks, mulTasks r.gates.length va.threads = some tasks →
    mulErr r.gates r.seeds tasks = 0 → ∀ t ∈ tasks, ∀ g ∈ taskSlice r.gates t, g.Correct
  mulCover : ∀ r ∈ T.a.mulLog, r.gates.length < 32 ∨ r.gates.length % va.threads < r.gates.length / va.threads
  stmts : ∀ r ∈ T.a.polyLog, chiSum r.seed (r.polys.map APoly.value) = 0 → ∀ s ∈ r.polys, s.value = 0

variable {α : Type} {S : Nat} {junk : List Byte} {p : SProg α} {ce : ConvEnv F} {vb : BView F} {va : AView} {cand : Nat → List (Fp × Fp)}
  {ops : List COp}

theorem arithOps_canon (ho : ∀ o ∈ ops, o.CanonC) : ∀ o ∈ convAriths ops, o.CanonC := by
  induction ops with
  | nil => simp [convAriths]
  | cons o os ih =>
    have ih := ih (fun x hx => ho x (by simp [hx]))
    cases o with
    | arith o =>
      simp only [convAriths, List.forall_mem_cons]
      exact ⟨ho _ List.mem_cons_self, ih⟩
    | _ => exact ih

/-- C108. Whatever program the prover runs and whatever the schedule: if the verifier of a program without conversions returns, the messages
commit the prover to exactly one list of bits and one list of field elements, which depend neither on the schedule nor on the two secrets;
the keys the verifier holds are those of the committed values. -/
theorem C108_committed (hn : ∀ o ∈ ops, o.Direct) (ho : ∀ o ∈ ops, o.CanonC) :
    ∀ (d : F) (d' : Fp) (V : CVer F) (c : PNet α (CVer F)), lsb d = true →
      PReach S (pnetInit S junk p (convVerifier (ce.at vb va cand d d') ops)) c → c.q = .done V →
      ∃ T dg fin, ConvCommitted S junk p ce vb va ops T dg fin ∧
        (∀ T' dg' fin', ConvCommitted S junk p ce vb va ops T' dg' fin' → T' = T ∧ dg' = dg ∧ fin' = fin) ∧
        V.b.wires = T.b.wires.map (keyOf d) ∧ V.outs = T.outs ∧
        ((∀ m ∈ T.ms, m.CanonM) → V.a.wires = T.a.wires.map (keyAt d') ∧ V.a.outs = T.a.outs.map toW) := by
  intro d d' V c hd hc hq
  obtain ⟨q1, k1, k2⟩ := follows_reach (conv_follows (va := va) (cand := cand) (d' := d') hd hn) hc
  rw [hq] at k2
  cases k2 with
  | @done _ r hR =>
    obtain ⟨T, dg, fin⟩ := r
    obtain ⟨⟨ch, hb, _⟩, hO, hA⟩ := hR
    refine ⟨T, dg, fin, ⟨_, k1, rfl⟩, ?_, by rw [hb]; rfl, hO, ?_⟩
    · rintro T' dg' fin' ⟨c', h1, h2⟩
      have := preach_result h1 h2 k1 rfl
      simpa using this
    · intro hm
      have hall := all_reach (conv_all (ce := ce) (vb := vb) (va := va) ops) k1
      have hs : acomSession (ce.view va) (convAriths ops) T.ms fin = some T.a := CDone.arith hall
      obtain ⟨ab, chh, hi⟩ := averSession_img (ce.view va) d' (convAriths ops) (arithOps_canon ho) T.ms hm fin
      rw [hs, Option.map_some] at hi
      have hA : averSession ((ce.view va).env d') (convAriths ops) T.ms fin = some V.a := hA
      rw [hi, Option.some.injEq] at hA
      rw [← hA]
      exact ⟨rfl, rfl⟩

/-- What the acceptance with secrets `d`, `d'` says about the committed values. -/
theorem convAccepts_facts (hn : ∀ o ∈ ops, o.Direct) {T : CTr F} {dg : F} {fin : AFin} (hC : ConvCommitted S junk p ce vb va ops T dg fin)
    {d : F} {d' : Fp} {V : CVer F} (hd : lsb d = true) (h : ConvAccepts S junk p (ce.at vb va cand d d') ops V) :
    (∃ ch, V.b = verImg d T.b ch) ∧ (∀ x ∈ V.b.andLog, AndOK (vb.env d) x) ∧ (∀ x ∈ V.b.polyLog, PolyOK (vb.env d) x) ∧ dg = vb.hash V.b.digest ∧
      V.outs = T.outs ∧ averSession ((ce.view va).env d') (convAriths ops) T.ms fin = some V.a ∧ V.a.accepted = true := by
  obtain ⟨⟨c, hc, hq⟩, h1, h2⟩ := h
  obtain ⟨q1, k1, k2⟩ := follows_reach (conv_follows (va := va) (cand := cand) (d' := d') hd hn) hc
  rw [hq] at k2
  cases k2 with
  | @done _ b hR =>
    obtain ⟨c', j1, j2⟩ := hC
    have := preach_result j1 j2 k1 rfl
    subst this
    obtain ⟨⟨ch, hb, ha⟩, hO, hA⟩ := hR
    obtain ⟨a1, a2, a3⟩ := ha h1
    exact ⟨⟨ch, hb⟩, a1, a2, a3, hO, hA, h2⟩

/-- C108 for programs without conversions: bits and field elements over the same endpoint, in any order. If the verifier can be made to accept
for six secrets of the boolean part and five of the arithmetic part, the challenges are not among the bad ones, the words received are below
`p` and the hashes do not collide on what the verifiers hash, then the messages of the prover determine inputs with which the plain program
runs; all claims hold and the verifier's outputs are those of the program. Missing: programs with conversions, for which the claim is false
(`C108_false`), and words that are not below `p` (C20, C64). -/
theorem C108_partial (hn : ∀ o ∈ ops, o.Direct) (ho : ∀ o ∈ ops, o.CanonC) {T : CTr F} {dg : F} {fin : AFin}
    (hC : ConvCommitted S junk p ce vb va ops T dg fin) (hm : ∀ m ∈ T.ms, m.CanonM) (hs : ConvSeeds vb va T)
    [DecidableEq Fp] (D : Finset (F × Fp)) (hD6 : 6 ≤ (D.image Prod.fst).card) (hD5 : 5 ≤ (D.image Prod.snd).card)
    (hD : ∀ x ∈ D, lsb x.1 = true ∧ ∃ V, ConvAccepts S junk p (ce.at vb va cand x.1 x.2) ops V)
    (hhash : ∀ x ∈ D, ∀ y ∈ D, ∀ V W, ConvAccepts S junk p (ce.at vb va cand x.1 x.2) ops V → ConvAccepts S junk p (ce.at vb va cand y.1 y.2) ops W →
      (vb.hash V.b.digest = vb.hash W.b.digest → V.b.digest = W.b.digest) ∧ (va.hash V.a.stored = va.hash W.a.stored → V.a.stored = W.a.stored)) :
    ∃ ops' cp, List.Forall₂ COp.same ops ops' ∧ cplainRun ce ops' = some cp ∧ (∀ b ∈ cp.b.claims, b = false) ∧ (∀ x ∈ cp.a.claims, x = 0) ∧
      cp.b.wires = T.b.wires.map lsb ∧
      ∀ x ∈ D, ∀ V, ConvAccepts S junk p (ce.at vb va cand x.1 x.2) ops V → V.outs = cp.b.outs ∧ V.a.outs.map fp = cp.a.outs := by
  have hfacts := fun (x : F × Fp) (hx : x ∈ D) V => convAccepts_facts (V := V) (cand := cand) (d' := x.2) hn hC (hD x hx).1
  obtain ⟨c, hc1, hc2⟩ := hC
  have hdone := all_reach (conv_all (ce := ce) (vb := vb) (va := va) ops) hc1
  rw [hc2] at hdone
  obtain ⟨hg0, hp0, hac, hbool⟩ := hdone
  -- boolean part
  obtain ⟨hf, _, _, _, hclaims⟩ := mix_faith (v := vb) (C := ⟨T.b, [], ⟨[], [], [], 0⟩, 0, [], [], [], [], []⟩) (dg := dg) hg0 hp0 (by simp)
    ⟨hs.ands, hs.andCover, hs.polys, by simp, by simp, by simp⟩
    (A := fun d (V : MVer F) => ∃ x ∈ D, x.1 = d ∧ ∃ W, ConvAccepts S junk p (ce.at vb va cand x.1 x.2) ops W ∧ V = ⟨W.b, [], ⟨[], [], [], 0⟩, 0, [], [], 0⟩)
    (by
      rintro d V ⟨x, hx, rfl, W, hW, rfl⟩
      obtain ⟨h1, h2, h3, h4, _⟩ := hfacts x hx W hW
      exact ⟨h1, h2, h3, h4, rfl, rfl, by simp, by simp, by simp⟩) (D.image Prod.fst) hD6
    (by
      intro d hd
      obtain ⟨x, hx, rfl⟩ := Finset.mem_image.1 hd
      obtain ⟨_, W, hW⟩ := hD x hx
      exact ⟨_, x, hx, rfl, W, hW, rfl⟩)
    (by
      rintro _ _ _ _ _ _ ⟨x, hx, _, V, hV, rfl⟩ ⟨y, hy, _, W, hW, rfl⟩ he
      exact (hhash x hx y hy V W hV hW).1 he)
  obtain ⟨bs, b1, b2, b3⟩ := hbool hf
  -- arithmetic part
  obtain ⟨as, pl, a1, _, a3, a4, a5⟩ := C64_extraction (ce.view va) (convAriths ops) (arithOps_canon ho) T.ms hm fin T.a hac hs.muls hs.mulCover hs.stmts
    (D.image Prod.snd) hD5
    (by
      intro d' hd'
      obtain ⟨x, hx, rfl⟩ := Finset.mem_image.1 hd'
      obtain ⟨_, W, hW⟩ := hD x hx
      obtain ⟨_, _, _, _, _, h1, h2⟩ := hfacts x hx W hW
      exact ⟨W.a, h1, h2⟩)
    (by
      intro d1 hd1 d2 hd2 V1 V2 hV1 hV2 he
      obtain ⟨x, hx, rfl⟩ := Finset.mem_image.1 hd1
      obtain ⟨y, hy, rfl⟩ := Finset.mem_image.1 hd2
      obtain ⟨_, V, hV⟩ := hD x hx
      obtain ⟨_, W, hW⟩ := hD y hy
      obtain ⟨_, _, _, _, _, h1, _⟩ := hfacts x hx V hV
      obtain ⟨_, _, _, _, _, h2, _⟩ := hfacts y hy W hW
      rw [h1, Option.some.injEq] at hV1
      rw [h2, Option.some.injEq] at hV2
      subst hV1 hV2
      exact (hhash x hx y hy V W hV hW).2 he)
  obtain ⟨ops', cp, k1, k2, k3, k4⟩ := cplain_merge (ce := ce) hn (s := ⟨⟨[], [], []⟩, ⟨[], [], []⟩, 0, 0, 0⟩) b1 a1 b2 a3
  refine ⟨ops', cp, k1, k2, ?_, by rw [k4]; exact a4, by rw [k3]; rfl, ?_⟩
  · rw [k3]
    intro b hb
    simp only [ComSt.plain, List.mem_map] at hb
    obtain ⟨s, hss, rfl⟩ := hb
    exact hclaims s hss
  · intro x hx V hV
    obtain ⟨_, _, _, _, h1, h2, _⟩ := hfacts x hx V hV
    rw [k3, k4]
    exact ⟨h1.trans b3, (a5 x.2 (Finset.mem_image_of_mem _ hx) V.a h2).1⟩

end

/-! ### a concrete session without conversions -/

/-- Both programs run for `n` steps, the prover first whenever it can. -/
def prun {α β : Type} (S : Nat) : Nat → PNet α β → PNet α β
  | 0, c => c
  | n + 1, c =>
    match stepP S c with
    | some c' => prun S n c'
    | none =>
      match stepQ S c with
      | .ok c' => prun S n c'
      | _ => c

theorem prun_reach {α β : Type} {S : Nat} {c0 : PNet α β} (n : Nat) : ∀ {c : PNet α β}, PReach S c0 c → PReach S c0 (prun S n c) := by
  induction n with
  | zero => intro c h; exact h
  | succ n ih =>
    intro c h
    unfold prun
    split
    · rename_i h1; exact ih (.sndStep h h1)
    · split
      · rename_i h1; exact ih (.rcvStep h h1)
      · exact h

/-- `exConv` with buffers of one entry for the AND gates and the challenges of `exMixK`. -/
noncomputable def exConvK : ConvEnv GF128 := { exConv with ne := exMixK.ne }

/-- The prover's field elements. -/
def exConvV : AView := { exEnvA.view with checkSz := 1, polySz := 1, hash := fun l => BitVec.ofNat 256 ((l.map BitVec.toNat).headD 0) }

/-- A secret bit and a secret field element; an AND gate, a multiplication, a flush, and an output of each kind. -/
def exDirect : List COp := [.bool (.input true), .arith (.input 5), .bool (.and 0 0), .arith (.mul 0 0), .sync, .arith (.reveal 1), .bool (.reveal 1)]

def exCand : Nat → List (Fp × Fp) := fun _ => List.replicate 11 (3, 22)

/-- What is checked of the committed state by computation: the words are below `p`, the gates are right and in batches of one, there are no
statements, and one value of each kind was opened. -/
noncomputable def exDirectOk (T : CTr GF128) : Bool :=
  T.ms.all (fun m => decide (m.w.toNat < pN)) && T.b.andLog.all (fun r => r.gates.length == 1 && r.gates.all (fun g => lsb g.out == (lsb g.left && lsb g.right))) &&
    T.a.mulLog.all (fun r => r.gates.length == 1 && r.gates.all (fun g => g.out.1 == g.left.1 * g.right.1)) && T.b.polyLog.isEmpty && T.a.polyLog.isEmpty &&
    T.b.opened.length == 1 && T.a.opened.length == 1 && T.b.andLog.length == 1 && T.a.mulLog.length == 1

theorem exDirect_commit : (match (prun 2 400 (pnetInit 2 [] (convProver (exConvK.at exMixV exConvV exCand 1 0) exDirect)
    (convCommit exConvK exMixV exConvV exDirect))).q with
    | .done r => exDirectOk r.1
    | _ => false) = true := by
  decide +kernel

theorem exConvK_good {d : GF128} (hd : lsb d = true) (d' : Fp) : (exConvK.at exMixV exConvV exCand d d').Good where
  ne := (exMixK_good hd).ne
  env := by
    have := AView.good exConvV d'
    exact ⟨this.delta, this.key, this.u, this.mac, this.pub, this.cor⟩
  av := exConv_good.av
  ed := exConv_good.ed
  N := exConv_good.N
  C := exConv_good.C
  ell := exConv_good.ell
  small := exConv_good.small
  auth := (exConvAt_good d').auth
  room := (exConvAt_good d').room
  dig := exConv_good.dig
  sum := sumCirc_ok
  diff := diffCirc_ok

theorem exConvK_prover (d : GF128) (d' : Fp) :
    convProver (exConvK.at exMixV exConvV exCand d d') exDirect = convProver (exConvK.at exMixV exConvV exCand 1 0) exDirect := by
  have h1 := bopS_at exMixK exMixV d 1
  have h4 : ∀ s, bfinS (exMixK.at exMixV d).ne s = bfinS (exMixK.at exMixV 1).ne s := by
    intro s
    simp only [bfinS, andCheckS_at exMixK exMixV d 1, polyCheckS_at exMixK exMixV d 1]
    rfl
  have e : ∀ d d', (exConvK.at exMixV exConvV exCand d d').ne = (exMixK.at exMixV d).ne := fun _ _ => rfl
  simp only [convProver, convS, exDirect, copsS, copS, cfinS, e, h1, h4]
  rfl

/-- The hypotheses of `C108_partial` are met by the honest prover of a program with an AND gate, a multiplication and an output of each kind,
for six secrets of the boolean part and five of the arithmetic part. -/
example : ∃ (p : SProg (CPrv GF128)) (T : CTr GF128) (dg : GF128) (fin : AFin) (D : Finset (GF128 × Fp)),
    ConvCommitted 2 [] p exConvK exMixV exConvV exDirect T dg fin ∧ (∀ m ∈ T.ms, m.CanonM) ∧ ConvSeeds exMixV exConvV T ∧
    6 ≤ (D.image Prod.fst).card ∧ 5 ≤ (D.image Prod.snd).card ∧
    (∀ x ∈ D, lsb x.1 = true ∧ ∃ V, ConvAccepts 2 [] p (exConvK.at exMixV exConvV exCand x.1 x.2) exDirect V) ∧
    ∀ x ∈ D, ∀ y ∈ D, ∀ V W, ConvAccepts 2 [] p (exConvK.at exMixV exConvV exCand x.1 x.2) exDirect V →
      ConvAccepts 2 [] p (exConvK.at exMixV exConvV exCand y.1 y.2) exDirect W →
      (exMixV.hash V.b.digest = exMixV.hash W.b.digest → V.b.digest = W.b.digest) ∧
      (exConvV.hash V.a.stored = exConvV.hash W.a.stored → V.a.stored = W.a.stored) := by
  have hlsb : ∀ d ∈ exDeltas, lsb d = true := by
    intro d hd
    simp only [exDeltas, Finset.mem_image, Finset.mem_range] at hd
    obtain ⟨n, hn, rfl⟩ := hd
    show (BitVec.ofNat 128 (2 * n + 1)).getLsbD 0 = true
    interval_cases n <;> decide
  have hcard : exDeltas.card = 6 := by
    rw [exDeltas, Finset.card_image_of_injOn]
    · simp
    · intro a ha b hb h
      have := congrArg (fun x : GF128 => x.bits.toNat) h
      simp at this ha hb
      omega
  have hdir : ∀ o ∈ exDirect, o.Direct := by
    intro o ho
    simp only [exDirect, List.mem_cons, List.not_mem_nil, or_false] at ho
    rcases ho with rfl | rfl | rfl | rfl | rfl | rfl | rfl <;> trivial
  have hcan : ∀ o ∈ exDirect, o.CanonC := by
    intro o ho
    simp only [exDirect, List.mem_cons, List.not_mem_nil, or_false] at ho
    rcases ho with rfl | rfl | rfl | rfl | rfl | rfl | rfl <;> simp only [COp.CanonC, AOp.CanonC]
    decide
  -- the honest prover is accepted
  have hrun : ∀ d d', cplainRun (exConvK.at exMixV exConvV exCand d d') exDirect = some ⟨⟨[true, true], [true], []⟩, ⟨[5, 25], [25], []⟩, 0, 1, 1⟩ := by
    intro d d'
    have h1 : (cplainRun (exConvK.at exMixV exConvV exCand 1 0) exDirect).map (fun cp => (cp.b.wires, cp.b.outs, cp.b.claims)) =
      some ([true, true], [true], []) := by decide +kernel
    have h2 : (cplainRun (exConvK.at exMixV exConvV exCand 1 0) exDirect).map (fun cp => (cp.a.wires, cp.a.outs, cp.a.claims)) =
      some ([5, 25], [25], []) := by decide +kernel
    have h3 : (cplainRun (exConvK.at exMixV exConvV exCand 1 0) exDirect).map (fun cp => (cp.stock, cp.ands, cp.muls)) = some (0, 1, 1) := by decide +kernel
    rw [Option.map_eq_some_iff] at h1
    obtain ⟨⟨⟨bw, bo, bc⟩, ⟨w, o, cl⟩, s, m, n⟩, h0, h1⟩ := h1
    rw [h0] at h2 h3
    simp only [Option.map_some, Option.some.injEq, Prod.mk.injEq] at h1 h2 h3
    obtain ⟨rfl, rfl, rfl⟩ := h1
    obtain ⟨rfl, rfl, rfl⟩ := h2
    obtain ⟨rfl, rfl, rfl⟩ := h3
    exact h0
  have hacc : ∀ d, lsb d = true → ∀ d', ∃ V, ConvAccepts 2 [] (convProver (exConvK.at exMixV exConvV exCand 1 0) exDirect)
      (exConvK.at exMixV exConvV exCand d d') exDirect V := by
    intro d hd d'
    have hfine := fun c h => C98_session (exConvK.at exMixV exConvV exCand d d') (exConvK_good hd d') ⟨(exConvAt_lucky d').point, (exConvAt_lucky d').bucket⟩
      Nat.one_pos (Nat.le_refl 1) Nat.one_pos Nat.one_pos (Nat.le_refl 1) Nat.one_pos (S := 2) (by decide) exDirect hcan (hrun d d') (by simp) (by simp)
      (Or.inr (show 1 ≤ lastBatch 1 1 by decide)) (Or.inr (show 1 ≤ lastBatch 1 1 by decide)) [] (c := c) h
    obtain ⟨_, _, _, _, _, c', P, V, k1, k2, k3⟩ := hfine _ .init
    obtain ⟨_, _, _, k4, _⟩ := hfine c' k1
    obtain ⟨⟨_, _, m3, _, _, m6, _⟩, _⟩ := k4 P V k2 k3
    rw [exConvK_prover d d'] at k1
    exact ⟨V, ⟨c', k1, k3⟩, m3, m6⟩
  -- what it is committed to
  have hC := exDirect_commit
  have hr := prun_reach (S := 2) (c0 := pnetInit 2 [] (convProver (exConvK.at exMixV exConvV exCand 1 0) exDirect)
    (convCommit exConvK exMixV exConvV exDirect)) 400 .init
  generalize prun 2 400 (pnetInit 2 [] (convProver (exConvK.at exMixV exConvV exCand 1 0) exDirect)
    (convCommit exConvK exMixV exConvV exDirect)) = c at hC hr
  obtain ⟨T, dg, fin, hq⟩ : ∃ T dg fin, c.q = .done (T, dg, fin) := by
    cases h : c.q with
    | done r => exact ⟨r.1, r.2.1, r.2.2, rfl⟩
    | _ => rw [h] at hC; simp at hC
  rw [hq] at hC
  have hcom : ConvCommitted 2 [] (convProver (exConvK.at exMixV exConvV exCand 1 0) exDirect) exConvK exMixV exConvV exDirect T dg fin := ⟨c, hr, hq⟩
  simp only [exDirectOk, Bool.and_eq_true, List.all_eq_true, decide_eq_true_eq, beq_iff_eq, List.isEmpty_iff] at hC
  obtain ⟨⟨⟨⟨⟨⟨⟨⟨c1, c2⟩, c3⟩, c4⟩, c5⟩, c6⟩, c7⟩, _⟩, _⟩ := hC
  have hms : ∀ m ∈ T.ms, m.CanonM := fun m hm => c1 m hm
  have hsub : ∀ {γ : Type} (l : List γ) t g, g ∈ taskSlice l t → g ∈ l := fun l t g hg => List.mem_of_mem_drop (List.mem_of_mem_take hg)
  refine ⟨_, T, dg, fin, exDeltas ×ˢ (Finset.range 5).image (fun n : Nat => (n : Fp)), hcom, hms, ?_, ?_, ?_, ?_, ?_⟩
  · constructor
    · intro r hr tasks _ _ t _ g hg
      exact (c2 r hr).2 g (hsub _ _ _ hg)
    · intro r hr
      rw [(c2 r hr).1]
      show 1 % 1 < 1 / 1
      decide
    · rw [c4]; simp
    · intro r hr tasks _ _ t _ g hg
      exact (c3 r hr).2 g (hsub _ _ _ hg)
    · intro r hr
      rw [(c3 r hr).1]
      exact Or.inl (by decide)
    · rw [c5]; simp
  · rw [Finset.product_image_fst (by simp), hcard]
  · rw [Finset.product_image_snd (by rw [← Finset.card_pos, hcard]; decide)]
    decide +kernel
  · intro x hx
    have := hlsb x.1 (Finset.mem_product.1 hx).1
    exact ⟨this, hacc x.1 this x.2⟩
  · intro x hx y hy V W hV hW
    obtain ⟨⟨_, e1⟩, _, _, _, _, e2, _⟩ := convAccepts_facts hdir hcom (hlsb x.1 (Finset.mem_product.1 hx).1) hV
    obtain ⟨⟨_, f1⟩, _, _, _, _, f2, _⟩ := convAccepts_facts hdir hcom (hlsb y.1 (Finset.mem_product.1 hy).1) hW
    constructor
    · intro hh
      obtain ⟨o, ho⟩ := List.length_eq_one_iff.1 c6
      rw [e1, f1] at hh ⊢
      simp only [verImg, ho, List.map_cons, List.map_nil] at hh ⊢
      simpa [exMixV] using hh
    · intro hh
      obtain ⟨o, ho⟩ := List.length_eq_one_iff.1 c7
      have hac : acomSession (exConvK.view exConvV) (convAriths exDirect) T.ms fin = some T.a := by
        have := all_reach (conv_all (ce := exConvK) (vb := exMixV) (va := exConvV) exDirect) hr
        rw [hq] at this
        exact this.arith
      have key : ∀ (d' : Fp) (V : AVer), averSession ((exConvK.view exConvV).env d') (convAriths exDirect) T.ms fin = some V → ∃ w, V.stored = [w] := by
        intro d' V h
        obtain ⟨ab, ch, hi⟩ := averSession_img (exConvK.view exConvV) d' (convAriths exDirect) (arithOps_canon hcan) T.ms hms fin
        rw [hac, Option.map_some, h, Option.some.injEq] at hi
        rw [hi]
        simp only [averImg, ho, List.map_cons, List.map_nil]
        exact ⟨_, rfl⟩
      obtain ⟨w1, h1⟩ := key _ _ e2
      obtain ⟨w2, h2⟩ := key _ _ f2
      rw [h1, h2] at hh ⊢
      have hh : BitVec.ofNat 256 w1.toNat = BitVec.ofNat 256 w2.toNat := hh
      have := congrArg BitVec.toNat hh
      simp only [BitVec.toNat_ofNat] at this
      have l1 := w1.isLt
      have l2 := w2.isLt
      rw [Nat.mod_eq_of_lt (by omega), Nat.mod_eq_of_lt (by omega)] at this
      rw [BitVec.eq_of_toNat_eq this]

end EmpZk
