/-
C102: programs that choose what to do next from the values revealed so far (branches, loops), with or without a memory, over the byte channel,
under every interleaving of the two parties.
-/
import Verif.Lemmas.Branch
import Verif.Props.RamNet

namespace EmpZk

section
variable {F : Type} [Field F] [BlockField F] [DecidableEq F]

/-- What holds in a configuration `c` of the two parties of a branching session: no undefined behaviour, nobody stops, no deadlock, the schedule
can be carried on to the end; and at the end both have the outputs and challenges of the path the plain program takes, no check failed, the
verifier holds the keys of the prover's blocks, and nothing is left in the channel. -/
def BranchFine (S : Nat) (me : MixEnv F) (t : SessTree) (c : PNet (MPrv F) (MVer F)) : Prop :=
  stepQ S c ≠ .ub ∧ (c.p ≠ .fail ∧ c.p ≠ .stop) ∧ (c.q ≠ .fail ∧ c.q ≠ .stop) ∧
  (∀ P V, c.p = .done P → c.q = .done V →
    (∃ ch pre ops post mp, Walk ch t pre ops post mp ∧ P.b.outs = mp.bp.outs ∧ V.b.outs = mp.bp.outs ∧ V.b.cheats = [] ∧ V.warns = 0 ∧
      P.fw.map Prod.fst = mp.fs ∧ V.fw = P.fw.map (keyF me.ne.e.delta) ∧ P.rs = mp.rs ∧ V.rs = mp.rs) ∧ c.toR = [] ∧ c.toS = []) ∧
  (((∃ P, c.p = .done P) ∧ ∃ V, c.q = .done V) ∨ (∃ c', stepP S c = some c') ∨ ∃ c', stepQ S c = .ok c') ∧
  ∃ c' P V, PReach S c c' ∧ c'.p = .done P ∧ c'.q = .done V

/-- C102. Each party decides from the bits it was itself given; still both take the path of the plain program, and every configuration that any
interleaving can reach is fine. -/
theorem C102_session (me : MixEnv F) (hg : me.Good) (ht : 0 < me.ne.e.threads) (htc : me.ne.e.threads ≤ me.ne.e.checkSz)
    (hts : me.ne.e.threads ≤ me.sz) (hp : 0 < me.ne.e.polySz) {S : Nat} (hS : 0 < S) (t : SessTree)
    (hrun : ∀ ch : Nat → F, ∃ pre ops post mp, Walk ch t pre ops post mp ∧ (∀ b ∈ mp.bp.claims, b = false) ∧
      (lastBatch (mixAnds pre ops post) me.ne.e.checkSz = 0 ∨ me.ne.e.threads ≤ lastBatch (mixAnds pre ops post) me.ne.e.checkSz) ∧
      (lastBatch (mixMuls ops) me.sz = 0 ∨ me.ne.e.threads ≤ lastBatch (mixMuls ops) me.sz))
    (junk : List Byte) {c : PNet (MPrv F) (MVer F)}
    (hc : PReach S (pnetInit S junk (branchProver me t) (branchVerifier me t)) c) : BranchFine S me t c :=
  lock_network hS (lock_branch hg ⟨hg.ne, ht, htc, hp⟩ hts hrun) junk hc

/-- C102. The path is one run of the straight-line program made of its instructions (the specification of C96). -/
theorem C102_path {ch : Nat → F} {t : SessTree} {pre : List BOp} {ops : List MOp} {post : List BOp} {mp : MPlain F}
    (h : Walk ch t pre ops post mp) : mplainRun ch pre ops post = some mp := by
  obtain ⟨b, t1, s, t2, b2, h1, h2, h3, rfl⟩ := h.run
  have e1 : plainRun pre = some b := path_run _ h1
  have e2 : mplainOps ch ⟨b, [], []⟩ ops = some s := path_run _ h2
  have e3 := path_run _ h3
  simp only [mplainRun, e1, e2, e3, Option.bind_eq_bind, Option.bind_some]

/-- C102. A straight-line program is a branching program whose path is all of it. -/
theorem C102_straight {ch : Nat → F} {pre : List BOp} {ops : List MOp} {post : List BOp} {mp : MPlain F} (h : mplainRun ch pre ops post = some mp) :
    Walk ch (.ops pre (fun _ => .fin (.ops ops (fun _ => .fin (.ops post (fun _ => .fin ())))))) pre ops post mp := by
  simp only [mplainRun, Option.bind_eq_bind, Option.bind_eq_some_iff, Option.some.injEq] at h
  obtain ⟨b, h1, s, h2, b2, h3, rfl⟩ := h
  refine ⟨⟨b, .ops ops (fun _ => .fin (.ops post (fun _ => .fin ()))), s, .ops post (fun _ => .fin ()), b2, ?_, ?_, ?_, rfl⟩⟩
  · have := path_ops_of (outs := Plain.outs) (k := fun _ => Branch.fin (Branch.ops ops (fun _ => Branch.fin (Branch.ops post (fun _ => Branch.fin ())))))
      (show pre.foldlM plainStep ⟨[], [], []⟩ = some b from h1) rfl
    rw [this, List.append_nil]
  · have := path_ops_of (outs := fun x : MPlain F => x.bp.outs) (k := fun _ => Branch.fin (Branch.ops post (fun _ => Branch.fin ())))
      (show ops.foldlM (mplainStep ch) ⟨b, [], []⟩ = some s from h2) rfl
    rw [this, List.append_nil]
  · have := path_ops_of (outs := Plain.outs) (k := fun _ => Branch.fin ()) h3 rfl
    rw [this, List.append_nil]

/-- C102. A branching program with a memory whose path makes at least three and at most `2^(step_sz-1)` accesses and reads no address before
writing it: reads return the latest value written, every configuration any interleaving reaches is fine, and both parties have the
outputs of the path, with `true` from the check, and what comes after may depend on all of them. -/
theorem C102_memory (me : MixEnv F) (hg : me.Good) (ht : 0 < me.ne.e.threads) (htc : me.ne.e.threads ≤ me.ne.e.checkSz)
    (hts : me.ne.e.threads ≤ me.sz) (hp : 0 < me.ne.e.polySz) {S : Nat} (hS : 0 < S) {lib : CmpLib} (hl : lib.Good) {c : RamCfg}
    (hc : c.isz + c.ssz + 1 ≤ 64 ∧ 1 ≤ c.isz ∧ c.vsz ≤ 64) (t : RamTree)
    {pre : List BOp} {b0 : Plain} {t1 : Branch UOp (Branch BOp Unit)} (hpre : t.path plainStep Plain.outs ⟨[], [], []⟩ = some (pre, b0, t1))
    {us : List UOp} {u : UPlain} {t2 : Branch BOp Unit} (hu : t1.path (uplainStep c) (fun x => x.bp.outs) ⟨b0, []⟩ = some (us, u, t2))
    (h3 : 3 ≤ u.log.length) (hlen : u.log.length ≤ 2 ^ (c.ssz - 1)) (hw : WrittenFirst u.log) :
    ReadsLastWrite u.log ∧ ∃ ops, ramGen lib c b0.wires us = some ops ∧ mixMuls ops = 2 * ((u.log.length - 1) % 4) ∧
      ((∀ w, ∃ post b2, t2.path plainStep Plain.outs ⟨u.bp.wires ++ w, u.bp.outs ++ [true], u.bp.claims⟩ = some (post, b2, ()) ∧
          (∀ b ∈ b2.claims, b = false) ∧
          (lastBatch (mixAnds pre ops post) me.ne.e.checkSz = 0 ∨ me.ne.e.threads ≤ lastBatch (mixAnds pre ops post) me.ne.e.checkSz)) →
       (lastBatch (2 * ((u.log.length - 1) % 4)) me.sz = 0 ∨ me.ne.e.threads ≤ lastBatch (2 * ((u.log.length - 1) % 4)) me.sz) →
       ∀ junk (n : PNet (MPrv F) (MVer F)),
         PReach S (pnetInit S junk (branchProver me (ramTreeGen lib c ⟨[], [], []⟩ t)) (branchVerifier me (ramTreeGen lib c ⟨[], [], []⟩ t))) n →
         BranchFine S me (ramTreeGen lib c ⟨[], [], []⟩ t) n ∧
         ∀ P V, n.p = .done P → n.q = .done V → ∃ w post b2,
           t2.path plainStep Plain.outs ⟨u.bp.wires ++ w, u.bp.outs ++ [true], u.bp.claims⟩ = some (post, b2, ()) ∧
           P.b.outs = b2.outs ∧ V.b.outs = b2.outs) := by
  have h0 : RSim c ⟨b0.wires, 0, ramInit c, []⟩ ⟨b0, []⟩ (⟨b0, [], []⟩ : MPlain F) := ⟨rfl, rfl, rfl, ramInit_inv c, rfl, rfl⟩
  have hpow : 2 ^ (c.ssz - 1) ≤ 2 ^ c.ssz := Nat.pow_le_pow_right (by decide) (by omega)
  obtain ⟨a, g, s, k1, k2, k3, k4, k5⟩ := rsim_tree (lib := lib) hc t1 h0 hu (by omega)
  obtain ⟨b, w, ok, rows, l1, l2, l3, l4, l5, l6⟩ := rsim_check hl hc k2 h3 hlen
  rw [l5 hw] at l6
  refine ⟨k2.inv.reads.prev.last, a ++ b, ?_, ?_, ?_⟩
  · simp only [ramGen, k1, l1, Option.bind_eq_bind, Option.bind_some]
  · rw [mixMuls_append, k3, l2, Nat.zero_add]
  · intro hpost hm junk n hn
    obtain ⟨post, b2, q1, q2, q3⟩ := hpost w
    have hrun : ∀ ch : Nat → F, ∃ mp, Walk ch (ramTreeGen lib c ⟨[], [], []⟩ t) pre (a ++ b) post mp ∧ mp.bp = b2 := by
      intro ch
      obtain ⟨fs', hf⟩ := l6 ch
      exact ⟨⟨b2, fs', [ch 0]⟩, ⟨⟨b0, _, _, t2, b2, ramTree_pre t hpre, k5 b l1 ch _ hf, q1, rfl⟩⟩, rfl⟩
    have hmul : mixMuls (a ++ b) = 2 * ((u.log.length - 1) % 4) := by rw [mixMuls_append, k3, l2, Nat.zero_add]
    have hfine := C102_session me hg ht htc hts hp hS (ramTreeGen lib c ⟨[], [], []⟩ t)
      (fun ch => by
        obtain ⟨mp, h1, h2⟩ := hrun ch
        exact ⟨pre, a ++ b, post, mp, h1, by rw [h2]; exact q2, q3, by rw [hmul]; exact hm⟩) junk hn
    refine ⟨hfine, fun P V hP hV => ?_⟩
    obtain ⟨_, _, _, hd, _⟩ := hfine
    obtain ⟨⟨ch, pre', ops', post', mp, ⟨⟨c1, c2, c3, c4, c5, d1, d2, d3, rfl⟩⟩, h2, h3, _⟩, _⟩ := hd P V hP hV
    obtain ⟨mp', ⟨⟨e1, e2, e3, e4, e5, f1, f2, f3, rfl⟩⟩, h2'⟩ := hrun ch
    rw [d1, Option.some.injEq, Prod.mk.injEq, Prod.mk.injEq] at f1
    obtain ⟨rfl, rfl, rfl⟩ := f1
    rw [d2, Option.some.injEq, Prod.mk.injEq, Prod.mk.injEq] at f2
    obtain ⟨rfl, rfl, rfl⟩ := f2
    rw [d3, Option.some.injEq, Prod.mk.injEq, Prod.mk.injEq] at f3
    obtain ⟨rfl, rfl, _⟩ := f3
    simp only at h2 h3 h2'
    rw [h2'] at h2 h3
    exact ⟨w, post', b2, q1, h2, h3⟩

/-- C102. Whatever messages arrive, the verifier of a branching program does what the verifier of one straight-line program does, which the
messages alone determine: the path does not depend on the verifier's secrets. -/
theorem C102_told (e : BEnv F) (t : Branch BOp Unit) (ms : List (BMsg F)) (fin : BFin F) :
    vtreeSession e t ms fin = (t.said [] ms).bind (fun l => verSession e l ms fin) := by
  rw [vtreeSession, vtreeRun_said]
  cases h : t.said [] ms with
  | none =>
    have : t.said (VerSt.init : VerSt F).outs ms = none := h
    rw [this]; rfl
  | some l =>
    have : t.said (VerSt.init : VerSt F).outs ms = some l := h
    rw [this]; rfl

/-- C102. Knowledge soundness (C62) of branching programs: if the verifier accepts the same messages for three values of its secret then, bad
challenges and hash collisions excepted, there are inputs on which the plain program takes the very path the verifier took, reveals exactly the
bits the verifier saw, and all claims on this path are true. -/
theorem C102_extraction (v : BView F) (t : Branch BOp Unit) (ms : List (BMsg F)) (fin : BFin F) {l : List BOp} (hl : t.said [] ms = some l)
    (c : ComSt F) (hc : comSession v l ms fin = some c)
    (hseeds : ∀ r ∈ c.andLog, ∀ tasks, splitTasks r.gates.length v.threads = some tasks →
      errSum r.gates r.seeds tasks 0 = 0 → ∀ t ∈ tasks, ∀ g ∈ taskSlice r.gates t, g.Correct)
    (hcover : ∀ r ∈ c.andLog, r.gates.length % v.threads < r.gates.length / v.threads)
    (hpseeds : ∀ r ∈ c.polyLog, chiSum r.seed (r.polys.map (fun s => (bit (s.map lsb).eval : F))) = 0 →
      ∀ s ∈ r.polys, (s.map lsb).eval = false)
    (D : Finset F) (hD3 : 3 ≤ D.card)
    (hD : ∀ d ∈ D, lsb d = true ∧ ∃ V, vtreeSession (v.env d) t ms fin = some V ∧ cheated V = false)
    (hhash : ∀ d1 ∈ D, ∀ d2 ∈ D, ∀ V1 V2, vtreeSession (v.env d1) t ms fin = some V1 →
      vtreeSession (v.env d2) t ms fin = some V2 → v.hash V1.digest = v.hash V2.digest → V1.digest = V2.digest) :
    ∃ l' pl, List.Forall₂ BOp.same l l' ∧ t.PathLike ⟨[], [], []⟩ l' pl () ∧ (∀ b ∈ pl.claims, b = false) ∧
      ∀ d ∈ D, ∀ V, vtreeSession (v.env d) t ms fin = some V → V.outs = pl.outs := by
  have e : ∀ d, vtreeSession (v.env d) t ms fin = verSession (v.env d) l ms fin := fun d => by rw [C102_told, hl, Option.bind_some]
  simp only [e] at hD hhash ⊢
  obtain ⟨l', pl, k1, k2, k3, k4⟩ := C62_extraction v l ms fin c hc hseeds hcover hpseeds D hD3 hD hhash
  refine ⟨l', pl, k1, ?_, k3, k4⟩
  obtain ⟨d, hd⟩ := Finset.card_pos.1 (by omega : 0 < D.card)
  obtain ⟨_, V, hV, _⟩ := hD d hd
  have ho := k4 d hd V hV
  simp only [verSession, Option.bind_eq_bind, Option.bind_eq_some_iff] at hV
  obtain ⟨s, h1, h2⟩ := hV
  have hs := verRun_outs l h1
  have hf := verFinalize_outs h2
  refine said_path t hl k1 k2 rfl ?_
  rw [← ho, hf, hs]
  rfl

end

/-! ### a concrete program -/

/-- Reads and reveals the lowest bit of what it read, until that is `false`, at most `n` times; then reveals a wire. -/
def exLoop : Nat → Branch UOp (Branch BOp Unit)
  | 0 => .fin (.fin ())
  | n + 1 => .ops [.read (if n = 2 then [1, 0] else [0, 1]), .bool (.reveal (11 + 6 * (2 - n)))] (fun o =>
      if o.getLast? = some true then exLoop n else .fin (.ops [.reveal 1] (fun o => if o.length = 5 then .fin () else .undef)))

/-- Uses a memory only if its first input is set; anything else would be undefined. -/
def exBranch : RamTree := .ops [.input true, .input false, .input true, .reveal 0] (fun o =>
  if o = [true] then .fin (.ops [.write [0, 1] [1, 2], .write [1, 0] [0, 0]] (fun _ => exLoop 3)) else .undef)

theorem exBranch_pre : exBranch.path plainStep Plain.outs ⟨[], [], []⟩ = some ([.input true, .input false, .input true, .reveal 0],
    ⟨[true, false, true], [true], []⟩, .ops [.write [0, 1] [1, 2], .write [1, 0] [0, 0]] (fun _ => exLoop 3)) := rfl

theorem exBranch_path : ∃ u, (Branch.ops [.write [0, 1] [1, 2], .write [1, 0] [0, 0]] (fun _ => exLoop 3)).path (uplainStep exRam) (fun x => x.bp.outs)
      ⟨⟨[true, false, true], [true], []⟩, []⟩ = some ([.write [0, 1] [1, 2], .write [1, 0] [0, 0], .read [1, 0], .bool (.reveal 11), .read [0, 1],
        .bool (.reveal 17)], u, .ops [.reveal 1] (fun o => if o.length = 5 then .fin () else .undef)) ∧
    u.bp.outs = [true, true, false] ∧ u.bp.claims = [] ∧ u.log = [⟨1, true, 2⟩, ⟨2, true, 3⟩, ⟨2, false, 3⟩, ⟨1, false, 2⟩] ∧
    ∃ l, u.bp.wires = true :: false :: l :=
  ⟨_, rfl, rfl, rfl, rfl, _, rfl⟩

/-- The hypotheses of C102 are met: the loop goes round twice, and both parties have what was revealed on the way, `true` from the check, and the
wire revealed at the end. -/
example : ∃ c' P V, PReach 32768 (pnetInit 32768 [] (branchProver exMix (ramTreeGen empLib exRam ⟨[], [], []⟩ exBranch))
      (branchVerifier exMix (ramTreeGen empLib exRam ⟨[], [], []⟩ exBranch))) c' ∧ c'.p = .done P ∧ c'.q = .done V ∧
      V.b.outs = [true, true, false, true, false] ∧ P.b.outs = [true, true, false, true, false] ∧ V.b.cheats = [] ∧ V.warns = 0 := by
  obtain ⟨u, hu, ho, hcl, hlog, l, hwires⟩ := exBranch_path
  have triv : ∀ n k, lastBatch n k = 0 ∨ 1 ≤ lastBatch n k := fun n k => by omega
  have hpath : ∀ w, (Branch.ops [.reveal 1] (fun o => if o.length = 5 then .fin () else .undef)).path plainStep Plain.outs
      ⟨u.bp.wires ++ w, u.bp.outs ++ [true], u.bp.claims⟩ =
        some ([.reveal 1], ⟨u.bp.wires ++ w, [true, true, false, true, false], []⟩, ()) := by
    intro w
    rw [ho, hcl, hwires]
    rfl
  obtain ⟨_, ops, h1, _, h2⟩ := C102_memory exMix exMix_good (by decide) (by decide) (by decide) (by decide) (S := 32768) (by decide) C97_circuits
    (c := exRam) (by decide) exBranch exBranch_pre hu (by rw [hlog]; decide) (by rw [hlog]; decide)
    (by
      rw [hlog]
      intro i e he hop
      match i, he with
      | 0, he => cases he; cases hop
      | 1, he => cases he; cases hop
      | 2, he => cases he; exact ⟨3, rfl⟩
      | 3, he => cases he; exact ⟨2, rfl⟩
      | n + 4, he => cases he)
  have h3 := h2 (fun w => ⟨_, _, hpath w, by simp, triv _ _⟩) (triv _ _) []
  obtain ⟨⟨_, _, _, _, _, c', P, V, k1, k2, k3⟩, _⟩ := h3 _ .init
  obtain ⟨⟨_, _, _, k4, _⟩, k5⟩ := h3 c' k1
  obtain ⟨⟨ch, _, _, _, mp, _, _, _, k6, k7, _⟩, _⟩ := k4 P V k2 k3
  obtain ⟨w, post, b2, k8, k9, k10⟩ := k5 P V k2 k3
  rw [hpath w] at k8
  cases k8
  exact ⟨c', P, V, k1, k2, k3, k10, k9, k6, k7⟩

/-- The hypotheses of C102_told and C102_extraction are met by the session of C62, with a program that looks at what was revealed. -/
example : ∃ ms fin l c, ∃ D : Finset GF128,
    (Branch.ops exProg (fun o => if o.length = 1 then Branch.fin () else .undef)).said [] ms = some l ∧ comSession exEnv.view l ms fin = some c ∧
    c.andLog ≠ [] ∧ 3 ≤ D.card ∧
    (∀ d ∈ D, lsb d = true ∧ ∃ V, vtreeSession (exEnv.view.env d) (.ops exProg (fun o => if o.length = 1 then Branch.fin () else .undef)) ms fin = some V ∧
      cheated V = false) := by
  obtain ⟨ms, fin, c, D, h1, h2, _, _, _, h3, h4, _⟩ := exProg_sound
  obtain ⟨d, hd⟩ := Finset.card_pos.1 (by omega : 0 < D.card)
  obtain ⟨_, V, hV, _⟩ := h4 d hd
  have hlen : exProg.length = ms.length := by
    simp only [verSession, Option.bind_eq_bind, Option.bind_eq_some_iff] at hV
    obtain ⟨s, hs, _⟩ := hV
    exact verRun_length _ hs
  have hsaid : (Branch.ops exProg (fun o => if o.length = 1 then Branch.fin () else .undef)).said [] ms = some exProg := by
    simp only [Branch.said]
    rw [if_pos (le_of_eq hlen), if_pos (by rw [List.nil_append, saidBits_length _ (le_of_eq hlen)]; rfl), hlen, List.drop_length]
    simp [Branch.said]
  refine ⟨ms, fin, exProg, c, D, hsaid, h1, h2, h3, fun d hd => ⟨(h4 d hd).1, ?_⟩⟩
  obtain ⟨_, V, hV, hok⟩ := h4 d hd
  exact ⟨V, by rw [C102_told, hsaid, Option.bind_some, hV], hok⟩

/-- The path of the part before the memory is not the only one: with the other input the program is undefined, so C102 does not apply to it. -/
example : (Branch.ops [.input false, .reveal 0] (fun o => if o = [true] then Branch.fin () else .undef)).path plainStep Plain.outs ⟨[], [], []⟩ = none ∧
    (Branch.ops [.input true, .reveal 0] (fun o => if o = [true] then Branch.fin () else .undef)).path plainStep Plain.outs ⟨[], [], []⟩ =
      some ([.input true, .reveal 0], ⟨[true], [true], []⟩, ()) := ⟨rfl, rfl⟩

/-- The hypothesis of C102_path and C102_straight: a straight-line program with a product. -/
example (ch : Nat → GF128) : ∃ mp, mplainRun ch [.input true, .reveal 0] [.pack [0], .mul 0 0] [] = some mp ∧
    Walk ch (.ops [.input true, .reveal 0] (fun _ => .fin (.ops [.pack [0], .mul 0 0] (fun _ => .fin (.ops [] (fun _ => .fin ())))))) [.input true, .reveal 0]
      [.pack [0], .mul 0 0] [] mp := by
  obtain ⟨mp, h⟩ : ∃ mp, mplainRun ch [.input true, .reveal 0] [.pack [0], .mul 0 0] [] = some mp := ⟨_, rfl⟩
  exact ⟨mp, h, C102_straight h⟩

end EmpZk
