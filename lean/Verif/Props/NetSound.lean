/-
C77: the verifier of a boolean proof against a prover that sends arbitrary bytes.
-/
import Verif.Lemmas.NetMsgs
import Verif.Props.BoolNet

namespace EmpZk

/-- C77. Whatever bytes arrive, whenever they arrive, and whatever calls the verifier makes: the receiving endpoint never
reads outside its array and never reads a value that is not a boolean.  The buffer size must be divisible by 8, as the
`NETWORK_BUFFER_SIZE2` of the code is. -/
theorem C77_no_ub {S : Nat} (hS : 0 < S) (h8 : S % 8 = 0) {junk : List Byte} {rops : List ROp} {c : Net}
    (hr : ReachAdv S (netInit S junk [] rops) c) : stepR S c ≠ .ub := by
  intro hub
  obtain ⟨dn, W, h1, h2⟩ := reachAdv_run hr
  have hok := (rcvRun_ok hS h8 dn (r := (netInit S junk [] rops).rcv) (Or.inl rfl)).2 _ _ h2
  cases ho : c.rops with
  | nil => simp only [stepR, ho] at hub; cases hub
  | cons o rest => exact (rcvOne_ok hS h8 hok c.toR o).1 ((stepR_one S c ho).2 hub)

/-- C77. Divisibility by 8 is needed: with a buffer of one bit a byte other than 0 and 1 is read as a `bool`. -/
theorem C77_alignment_needed : ∃ c, ReachAdv 1 (netInit 1 [] [] [.bit]) c ∧ stepR 1 c = .ub := by
  refine ⟨_, .adv [7#8] .init, ?_⟩
  rfl

/-- C77. Between two digests the second one determines every bit the verifier has used: two provers which lead the
verifier through the same calls to the same digest have sent the same bits. -/
theorem C77_binding {S : Nat} (l : List ROp) (hl : ∀ o ∈ l, o ≠ .hash) {r1 r2 r1' r2' : RcvSt} {w1 w2 w1' w2' : List Byte}
    (h1 : rcvRun S r1 w1 (l ++ [.hash]) = .ok (r1', w1')) (h2 : rcvRun S r2 w2 (l ++ [.hash]) = .ok (r2', w2'))
    (p1 : r1.ptr = S ∧ r1.hashed = []) (p2 : r2.ptr = S ∧ r2.hashed = [])
    (hd : r1'.digests.getLast? = r2'.digests.getLast?) :
    ∃ nb, nb.length = rcvBits l ∧ r1'.bits = r1.bits ++ nb ∧ r2'.bits = r2.bits ++ nb := by
  obtain ⟨q1, v1, a1, b1⟩ := (rcvRun_append_ok l [.hash]).1 h1
  obtain ⟨q2, v2, a2, b2⟩ := (rcvRun_append_ok l [.hash]).1 h2
  obtain ⟨x1, y1, e1, f1⟩ := rcvRun_cons_ok.1 b1
  obtain ⟨x2, y2, e2, f2⟩ := rcvRun_cons_ok.1 b2
  rw [rcvOne_hash] at e1 e2
  injection e1 with e1; injection e1 with e1 _; subst e1
  injection e2 with e2; injection e2 with e2 _; subst e2
  simp only [rcvRun] at f1 f2
  injection f1 with f1; injection f1 with f1 _; subst f1
  injection f2 with f2; injection f2 with f2 _; subst f2
  simp only [List.getLast?_append_of_ne_nil _ (List.cons_ne_nil _ _), List.getLast?_singleton, Option.some.injEq] at hd
  obtain ⟨nb, k1, k2⟩ := rcvRun_bits l hl a1 a2 hd (by rw [p1.2, p2.2]) (by rw [p1.1, p2.1]) (fun h => absurd p1.1 h)
  refine ⟨nb, ?_, k1, k2⟩
  have := (rcvRun_counts l a1).1
  rw [k1, List.length_append] at this
  omega

section
variable {F : Type} [Field F] [BlockField F] [DecidableEq F]

omit [Field F] [BlockField F] [DecidableEq F] in
/-- What the endpoint has returned when all calls are done. -/
theorem inbox_full {S : Nat} {junk : List Byte} {rops : List ROp} {c : Net}
    (hr : ReachAdv S (netInit S junk [] rops) c) (h : c.rops = []) :
    c.rcv.bits.length = rcvBits rops ∧ c.rcv.datas.length = rcvDatas rops ∧ c.rcv.digests.length = rcvDigs rops := by
  obtain ⟨dn, W, h1, h2⟩ := reachAdv_run hr
  rw [h, List.append_nil] at h1
  have hrops : rops = dn := h1
  subst hrops
  obtain ⟨k1, k2, k3⟩ := rcvRun_counts _ h2
  refine ⟨?_, ?_, ?_⟩
  · rw [k1]; simp [netInit]
  · rw [k2]; simp [netInit]
  · rw [k3]; simp [netInit]

/-- Whether a session completes on the verifier's side does not depend on the messages. -/
theorem verSession_isSome (v : BView F) {d : F} (hd : lsb d = true) (ht : 0 < v.threads) (htc : v.threads ≤ v.checkSz)
    (hp : 0 < v.polySz) (ops : List BOp) (ms : List (BMsg F)) (hl : ms.length = ops.length) (fin : BFin F) :
    (verSession (v.env d) ops ms fin).isSome ↔ (plainRun ops).isSome ∧
      (lastBatch (andTriples 0 ops).length v.checkSz = 0 ∨ v.threads ≤ lastBatch (andTriples 0 ops).length v.checkSz) := by
  obtain ⟨ch, h⟩ := verSession_img v hd ops ms fin
  rw [h, Option.isSome_map]
  have hrun := comRun_isSome ht htc hp ops (c := ComSt.init) ms ⟨[], [], []⟩ (Rec.init v) hl rfl
  have hpl : (plainRun ops).isSome = (comRun v ComSt.init ops ms).isSome := hrun.symm
  simp only [comSession, Option.bind_eq_bind]
  cases hr : comRun v ComSt.init ops ms with
  | none => rw [hr] at hpl; simp [hpl]
  | some c =>
    rw [hr] at hpl
    rw [hpl, ← comRun_lastBatch hr]
    have hg : (comFinPoly v c fin.polyAns).gates = c.gates := by unfold comFinPoly; split <;> rfl
    simp only [Option.bind_some, Option.isSome_some, true_and, comFinalize, comFinAnd, hg]
    by_cases hc : c.gates = []
    · simp [hc]
    · rw [if_pos hc]
      by_cases hs : (splitTasks c.gates.length v.threads).isSome
      · rw [if_pos hs]
        have := (splitTasks_isSome _ _).1 hs
        simp [this.2]
      · rw [if_neg hs]
        have : ¬ v.threads ≤ c.gates.length := fun h => hs ((splitTasks_isSome _ _).2 ⟨ht, h⟩)
        simp [this, hc]

/-- C77. Whatever a prover has sent, once the calls of the session are done the verifier finishes its computation — for
exactly the programs for which it finishes with an honest prover (C76) —, it has made these calls and no others, and it has
used everything it received. -/
theorem C77_completes (ne : NetEnv F) (he : ne.e.Good) (ht : 0 < ne.e.threads) (htc : ne.e.threads ≤ ne.e.checkSz)
    (hp : 0 < ne.e.polySz) (ops : List BOp) {S : Nat} {junk : List Byte} {c : Net}
    (hr : ReachAdv S (netInit S junk [] (sessionCallsV ne ops)) c) (hf : c.rops = []) :
    ((netSessionV ne ops c.rcv.bits c.rcv.datas c.rcv.digests).isSome ↔ (plainRun ops).isSome ∧
      (lastBatch (andTriples 0 ops).length ne.e.checkSz = 0 ∨
        ne.e.threads ≤ lastBatch (andTriples 0 ops).length ne.e.checkSz)) ∧
    ∀ V, netSessionV ne ops c.rcv.bits c.rcv.datas c.rcv.digests = some V →
      V.calls = sessionCallsV ne ops ∧ V.bits = [] ∧ V.datas = [] ∧ V.digs = [] := by
  have hat : ne = ne.at ne.e.view ne.e.delta := by
    unfold NetEnv.at
    rw [he.eta]
  have hcalls : sessionCallsV (ne.at ne.e.view 0) ops = sessionCallsV ne ops := by
    conv_rhs => rw [hat]
    exact (sessionCallsV_at ops _).symm
  obtain ⟨k1, k2, k3⟩ := inbox_full hr hf
  let I : Inbox := ⟨c.rcv.bits, c.rcv.datas, c.rcv.digests⟩
  have hhas : I.has (sessionCallsV (ne.at ne.e.view 0) ops) := by
    rw [hcalls]; exact ⟨le_of_eq k1.symm, le_of_eq k2.symm, le_of_eq k3.symm⟩
  obtain ⟨ms, fin, ds, hl, _, hv⟩ := netSessionV_any (ne := ne) (v := ne.e.view) ops hhas
  let chal : Nat → List Bool → Nat → F := fun k _ => match ds[k]? with | some d => ne.seeds d | none => 0
  obtain ⟨hs, _⟩ := hv chal (by intro i dg hd t; simp only [chal, hd]) ne.e.delta
  rw [← hat] at hs
  have hs' : netSessionV ne ops c.rcv.bits c.rcv.datas c.rcv.digests = _ := hs
  have hempty : I.after (sessionCallsV (ne.at ne.e.view 0) ops) = ⟨[], [], []⟩ := by
    rw [hcalls]
    simp only [Inbox.after, I, ← k1, ← k2, ← k3, List.drop_length]
  rw [hempty, hcalls] at hs'
  rw [hs']
  refine ⟨?_, ?_⟩
  · rw [Option.isSome_map]
    exact verSession_isSome (ne.e.view.wc chal) he.lsb_delta ht htc hp ops ms hl fin
  · intro V hV
    cases hq : verSession ((ne.e.view.wc chal).env ne.e.delta) ops ms fin with
    | none => rw [hq] at hV; cases hV
    | some s =>
      rw [hq] at hV
      have := (Option.some.inj hV).symm
      subst this
      exact ⟨rfl, rfl, rfl, rfl⟩

/-- C77. Fix the bytes a prover has sent and everything else but the verifier's `Delta`.  They determine messages of the
message-level protocol and, through the digests of the verifier's endpoint, the challenges of its checks; whatever `Delta`
is, the verifier computes what the verifier of the message-level model computes on these messages. -/
theorem C77_messages (ne : NetEnv F) (v : BView F) (ops : List BOp) {S : Nat} {junk : List Byte} {c : Net}
    (hr : ReachAdv S (netInit S junk [] (sessionCallsV (ne.at v 0) ops)) c) (hf : c.rops = []) :
    ∃ (ms : List (BMsg F)) (fin : BFin F) (ds : List (List Byte)), ms.length = ops.length ∧ ds.Sublist c.rcv.digests ∧
      ∀ chal : Nat → List Bool → Nat → F, (∀ i dg, ds[i]? = some dg → ∀ t, chal i t = ne.seeds dg) →
      ∀ d, (netSessionV (ne.at v d) ops c.rcv.bits c.rcv.datas c.rcv.digests).map VerNet.st =
        verSession ((v.wc chal).env d) ops ms fin ∧
        ∀ s, verSession ((v.wc chal).env d) ops ms fin = some s → s.andBatches = ds.length := by
  obtain ⟨k1, k2, k3⟩ := inbox_full hr hf
  let I : Inbox := ⟨c.rcv.bits, c.rcv.datas, c.rcv.digests⟩
  have hhas : I.has (sessionCallsV (ne.at v 0) ops) := ⟨le_of_eq k1.symm, le_of_eq k2.symm, le_of_eq k3.symm⟩
  obtain ⟨ms, fin, ds, hl, hsub, hv⟩ := netSessionV_any (ne := ne) (v := v) ops hhas
  refine ⟨ms, fin, ds, hl, hsub, ?_⟩
  intro chal hc d
  obtain ⟨h1, h2⟩ := hv chal hc d
  refine ⟨?_, h2⟩
  have h1' : netSessionV (ne.at v d) ops c.rcv.bits c.rcv.datas c.rcv.digests = _ := h1
  rw [h1', Option.map_map]
  have : (VerNet.st ∘ fun s : VerSt F => (I.after (sessionCallsV (ne.at v 0) ops)).ver s (sessionCallsV (ne.at v 0) ops)) = id := by
    funext s; rfl
  rw [this, Option.map_id, id]

/-- C77. Knowledge soundness at the level of bytes.  If the verifier, having received certain bytes, accepts for at least
three values of `Delta`, then — unless one of the challenges derived from the digests of what it received is one of the few
bad ones for the committed gates (C09) or statements (C23), or the final hash collides — there are inputs on which the plain program produces
exactly the outputs the verifier has seen, with all claimed statements true. -/
theorem C77_extraction (ne : NetEnv F) (v : BView F) (ops : List BOp) {S : Nat} {junk : List Byte} {c : Net}
    (hr : ReachAdv S (netInit S junk [] (sessionCallsV (ne.at v 0) ops)) c) (hf : c.rops = [])
    (D : Finset F) (hD3 : 3 ≤ D.card)
    (hD : ∀ d ∈ D, lsb d = true ∧ ∃ V, netSessionV (ne.at v d) ops c.rcv.bits c.rcv.datas c.rcv.digests = some V ∧
      cheated V.st = false)
    (hhash : ∀ d1 ∈ D, ∀ d2 ∈ D, ∀ V1 V2, netSessionV (ne.at v d1) ops c.rcv.bits c.rcv.datas c.rcv.digests = some V1 →
      netSessionV (ne.at v d2) ops c.rcv.bits c.rcv.datas c.rcv.digests = some V2 →
      v.hash V1.st.digest = v.hash V2.st.digest → V1.st.digest = V2.st.digest) :
    ∃ (ms : List (BMsg F)) (fin : BFin F) (ds : List (List Byte)) (cs : ComSt F), ds.Sublist c.rcv.digests ∧
      comSession (v.wc (fun k _ => (ds[k]?.elim (fun _ => 0) ne.seeds))) ops ms fin = some cs ∧
      (∀ r ∈ cs.andLog, ∃ dg ∈ ds, r.seeds = ne.seeds dg) ∧
      ((∀ r ∈ cs.andLog, ∀ tasks, splitTasks r.gates.length v.threads = some tasks →
          errSum r.gates r.seeds tasks 0 = 0 → ∀ t ∈ tasks, ∀ g ∈ taskSlice r.gates t, g.Correct) →
       (∀ r ∈ cs.andLog, r.gates.length % v.threads < r.gates.length / v.threads) →
       (∀ r ∈ cs.polyLog, chiSum r.seed (r.polys.map (fun s => (bit (s.map lsb).eval : F))) = 0 →
          ∀ s ∈ r.polys, (s.map lsb).eval = false) →
       ∃ ops' pl, List.Forall₂ BOp.same ops ops' ∧ plainRun ops' = some pl ∧ (∀ b ∈ pl.claims, b = false) ∧
         ∀ d ∈ D, ∀ V, netSessionV (ne.at v d) ops c.rcv.bits c.rcv.datas c.rcv.digests = some V → V.st.outs = pl.outs) := by
  obtain ⟨ms, fin, ds, hl, hsub, hm⟩ := C77_messages ne v ops hr hf
  let chal : Nat → List Bool → Nat → F := fun k _ => (ds[k]?.elim (fun _ => 0) ne.seeds)
  have hm' := hm chal (by intro i dg hd t; simp only [chal, hd, Option.elim_some])
  have hnet : ∀ d V, netSessionV (ne.at v d) ops c.rcv.bits c.rcv.datas c.rcv.digests = some V →
      verSession ((v.wc chal).env d) ops ms fin = some V.st := by
    intro d V hV
    rw [← (hm' d).1, hV]; rfl
  have hnet' : ∀ d s, verSession ((v.wc chal).env d) ops ms fin = some s →
      ∃ V, netSessionV (ne.at v d) ops c.rcv.bits c.rcv.datas c.rcv.digests = some V ∧ V.st = s := by
    intro d s hs
    have := (hm' d).1
    rw [hs, Option.map_eq_some_iff] at this
    exact this
  obtain ⟨d0, hd0⟩ := Finset.card_pos.1 (by omega : 0 < D.card)
  obtain ⟨hl0, V0, hV0, _⟩ := hD d0 hd0
  obtain ⟨ch, himg⟩ := verSession_img (v.wc chal) hl0 ops ms fin
  rw [hnet d0 V0 hV0] at himg
  obtain ⟨cs, hcs, himg⟩ := Option.map_eq_some_iff.1 himg.symm
  refine ⟨ms, fin, ds, cs, hsub, hcs, ?_, ?_⟩
  · intro r hrr
    obtain ⟨k, tr, hk, hseed⟩ := comSession_seeds hcs r hrr
    have hb : V0.st.andBatches = ds.length := (hm' d0).2 _ (hnet d0 V0 hV0)
    have hb' : cs.andBatches = ds.length := by rw [← hb, ← himg]; rfl
    have hlt : k < ds.length := by omega
    refine ⟨ds[k], List.getElem_mem hlt, ?_⟩
    rw [hseed]
    change (ds[k]?.elim (fun _ => 0) ne.seeds) = _
    rw [List.getElem?_eq_getElem hlt]
    rfl
  · intro hseeds hcover hpseeds
    obtain ⟨ops', pl, e1, e2, e3, e4⟩ := C62_extraction (v.wc chal) ops ms fin cs hcs hseeds hcover hpseeds D hD3
      (by
        intro d hd
        obtain ⟨h1, V, hV, hok⟩ := hD d hd
        exact ⟨h1, V.st, hnet d V hV, hok⟩)
      (by
        intro d1 h1 d2 h2 s1 s2 hs1 hs2 hh
        obtain ⟨V1, hV1, rfl⟩ := hnet' d1 s1 hs1
        obtain ⟨V2, hV2, rfl⟩ := hnet' d2 s2 hs2
        exact hhash d1 h1 d2 h2 V1 V2 hV1 hV2 hh)
    exact ⟨ops', pl, e1, e2, e3, fun d hd V hV => e4 d hd V.st (hnet d V hV)⟩

/-! ### honest provers -/

omit [DecidableEq F] in
/-- What the honest prover does, does not depend on `Delta`. -/
theorem netSessionP_at (ne : NetEnv F) (v : BView F) (d : F) (S : Nat) (ops : List BOp) (got : List (List Byte)) :
    netSessionP (ne.at v d) S ops got = netSessionP (ne.at v 0) S ops got := by
  have hmac : ∀ n, (v.env d).mac n = (v.env 0).mac n := fun n => by rw [v.env_mac, v.env_mac]
  have hA : ∀ n, pnAndCheck (ne.at v d) S n = pnAndCheck (ne.at v 0) S n := by
    intro n
    have : ∀ dg (st : PrvSt F), prvAndCheck ((ne.at v d).env dg 0) st = prvAndCheck ((ne.at v 0).env dg 0) st := by
      intro dg st
      have : (fun i => ((ne.at v d).env dg 0).mac (st.used + i)) = (fun i => ((ne.at v 0).env dg 0).mac (st.used + i)) :=
        funext fun i => hmac _
      simp only [prvAndCheck, this]
      rfl
    simp only [pnAndCheck, this]
    rfl
  have hP : ∀ n, pnPolyCheck (ne.at v d) S n = pnPolyCheck (ne.at v 0) S n := by
    intro n
    have : ∀ sd (st : PrvSt F), prvPolyCheck ((ne.at v d).env [] sd) st = prvPolyCheck ((ne.at v 0).env [] sd) st := by
      intro dg st
      have : (fun i => ((ne.at v d).env [] dg).mac (st.used + i)) = (fun i => ((ne.at v 0).env [] dg).mac (st.used + i)) :=
        funext fun i => hmac _
      simp only [prvPolyCheck, this]
      rfl
    simp only [pnPolyCheck, this]
    rfl
  have hAR : ∀ n, pnAndRoom (ne.at v d) S n = pnAndRoom (ne.at v 0) S n := by
    intro n; simp only [pnAndRoom, hA]; rfl
  have hPR : ∀ n, pnPolyRoom (ne.at v d) S n = pnPolyRoom (ne.at v 0) S n := by
    intro n; simp only [pnPolyRoom, hP]; rfl
  have hstep : ∀ n op, netStepP (ne.at v d) S n op = netStepP (ne.at v 0) S n op := by
    intro n op
    cases op with
    | input b =>
      have : ∀ st : PrvSt F, prvStep (ne.at v d).e st (.input b) = prvStep (ne.at v 0).e st (.input b) := by
        intro st
        show prvStep (v.env d) st (.input b) = prvStep (v.env 0) st (.input b)
        simp only [prvStep, hmac]
      simp only [netStepP, this]; rfl
    | pub b => rfl
    | xor i j => rfl
    | not i => rfl
    | reveal i => rfl
    | and i j =>
      have : ∀ (st : PrvSt F) a b, prvAndPush (ne.at v d).e st a b = prvAndPush (ne.at v 0).e st a b := by
        intro st a b
        show prvAndPush (v.env d) st a b = prvAndPush (v.env 0) st a b
        simp only [prvAndPush, hmac]; rfl
      simp only [netStepP, hAR, this]; rfl
    | poly st => simp only [netStepP, hPR]; rfl
  have hrun : ∀ (ops : List BOp) n, netRunP (ne.at v d) S n ops = netRunP (ne.at v 0) S n ops := by
    intro ops
    induction ops with
    | nil => intro n; rfl
    | cons o os ih => intro n; simp only [netRunP, hstep, ih]
  have hfin : ∀ n, netFinP (ne.at v d) S n = netFinP (ne.at v 0) S n := by
    intro n
    simp only [netFinP, pnFinPoly, pnFinAnd, hA, hP]; rfl
  simp only [netSessionP, hrun, hfin]; rfl

omit [Field F] [BlockField F] [DecidableEq F] in
/-- The steps of a sending endpoint only append bytes. -/
theorem stepS_adv {S : Nat} {c c' : Net} (h : stepS S c = some c') :
    ∃ w, c'.toR = c.toR ++ w ∧ c'.rcv = c.rcv ∧ c'.rops = c.rops := by
  unfold stepS at h
  split at h
  · cases h
  · rw [← Option.some.inj h]; exact ⟨_, rfl, rfl, rfl⟩
  · rw [← Option.some.inj h]; exact ⟨_, rfl, rfl, rfl⟩
  · rw [← Option.some.inj h]; exact ⟨_, List.append_assoc _ _ _, rfl, rfl⟩
  · rw [← Option.some.inj h]; exact ⟨_, rfl, rfl, rfl⟩
  · split at h
    · rw [← Option.some.inj h]; exact ⟨_, rfl, rfl, rfl⟩
    · split at h
      · cases h
      · rw [← Option.some.inj h]; exact ⟨[], by simp, rfl, rfl⟩

omit [Field F] [BlockField F] [DecidableEq F] in
/-- C77. The sending endpoint of the code is one of the provers considered here. -/
theorem C77_sender {S : Nat} {junk : List Byte} {sops : List SOp} {rops : List ROp} {c : Net}
    (hr : Reach S (netInit S junk sops rops) c) :
    ∃ c', ReachAdv S (netInit S junk [] rops) c' ∧ c'.toR = c.toR ∧ c'.rcv = c.rcv ∧ c'.rops = c.rops := by
  induction hr with
  | init => exact ⟨_, .init, rfl, rfl, rfl⟩
  | @sndStep c c1 _ hst ih =>
    obtain ⟨c', h1, h2, h3, h4⟩ := ih
    obtain ⟨w, e1, e2, e3⟩ := stepS_adv hst
    exact ⟨_, .adv w h1, by rw [e1, ← h2], by rw [e2, ← h3], by rw [e3, ← h4]⟩
  | @rcvStep c c1 _ hst ih =>
    obtain ⟨c', h1, h2, h3, h4⟩ := ih
    cases ho : c.rops with
    | nil => simp only [stepR, ho] at hst; cases hst
    | cons o rest =>
      obtain ⟨e1, e2⟩ := (stepR_one S c ho).1 _ hst
      rw [ho] at h4
      cases hst' : stepR S c' with
      | ok c2 =>
        obtain ⟨f1, f2⟩ := (stepR_one S c' h4).1 _ hst'
        rw [h2, h3, e2] at f2
        injection f2 with f2
        injection f2 with f2 f3
        exact ⟨c2, .rcvStep h1 hst', f3.symm, f2.symm, by rw [f1, e1]⟩
      | ub =>
        have := (stepR_one S c' h4).2 hst'
        rw [h2, h3, e2] at this
        cases this
      | blocked =>
        exfalso
        have := stepR_blocked S c' h4 hst'
        rw [h2, h3, e2] at this
        cases this

/-- C77. What the honest prover has sent is accepted whatever `Delta` is. -/
theorem C77_honest (ne : NetEnv F) (v : BView F) (hg : ∀ d, lsb d = true → (ne.at v d).Good) {S : Nat} (hS : 0 < S)
    (ops : List BOp) (P : PrvNet F)
    (h : netSessionP (ne.at v 0) S ops (sentBack (sessionCallsV (ne.at v 0) ops)) = some P) {junk : List Byte} {c : Net}
    (hr : Reach S (netInit S junk P.calls (sessionCallsV (ne.at v 0) ops)) c) (h1 : c.sops = []) (h2 : c.rops = []) :
    ∃ pl, plainRun ops = some pl ∧ ∀ d, lsb d = true → ∃ V,
      netSessionV (ne.at v d) ops c.rcv.bits c.rcv.datas c.rcv.digests = some V ∧ V.st.outs = pl.outs ∧
      V.st.digest = P.st.digest ∧ ((∀ b ∈ pl.claims, b = false) → cheated V.st = false) := by
  have key : ∀ d, lsb d = true → ∃ V pl,
      netSessionV (ne.at v d) ops c.rcv.bits c.rcv.datas c.rcv.digests = some V ∧ plainRun ops = some pl ∧
      V.st.outs = pl.outs ∧
      V.st.digest = P.st.digest ∧ ((∀ b ∈ pl.claims, b = false) → cheated V.st = false) := by
    intro d hd
    have h' : netSessionP (ne.at v d) S ops (sentBack (sessionCallsV (ne.at v d) ops)) = some P := by
      rw [netSessionP_at, sessionCallsV_at, h]
    obtain ⟨ms, fin, chal, _, hio, hm, hp, hv⟩ := net_session (hg d hd) ops h'
    rw [sessionCallsV_at] at hm
    obtain ⟨f1, f2, _, _, _⟩ := C14_fifo hS hm hr h1 h2
    have hdd := C15_same_challenges hS hm hr h1 h2
    have hdig : c.rcv.digests = P.io.digests := by
      obtain ⟨dn, e1, _, e2 | e2⟩ := sndRun_of_reach hS hr
      · rw [h1, List.append_nil] at e1
        rw [← hdd, e2.2.2, ← e1, hio]
      · obtain ⟨⟨n, l, e3⟩, _⟩ := e2
        rw [h1] at e3; cases e3
    obtain ⟨V, pl, k1, k2, k3, _, k4, k5⟩ := C07_honest_session ((ne.at v d).wc chal) ((hg d hd).wc chal) ops P.st ms fin hp
    refine ⟨⟨V, [], [], [], sessionCallsV (ne.at v d) ops⟩, pl, ?_, k2, k3, k4, k5⟩
    rw [f1, f2, hdig, hv, k1]; rfl
  obtain ⟨_, pl, _, e, _⟩ := key 1 lsb_one
  refine ⟨pl, e, ?_⟩
  intro d hd
  obtain ⟨V, pl', k1, k2, k3⟩ := key d hd
  rw [e] at k2
  have := (Option.some.inj k2).symm
  subst this
  exact ⟨V, k1, k3⟩

end

/-! ### concrete cases -/

/-- C77_no_ub: bytes that no honest prover would send, in pieces, with the verifier in the middle of its calls. -/
example : ∃ c, ReachAdv 8 (netInit 8 [] [] [.bit, .bit, .hash, .data 2]) c ∧ c.rops = [.hash, .data 2] ∧
    c.rcv.bits = [true, true] := by
  refine ⟨_, .adv [1#8, 2#8] (.rcvStep (.rcvStep (.adv [255#8] .init) rfl) rfl), ?_, ?_⟩ <;> rfl

/-- C77_binding: two different streams of bytes lead to the same digest when they agree in the bytes that carry bits. -/
example : ∃ r1 r2 w1 w2,
    rcvRun 8 (rcvInit 8 []) [255#8, 7#8] ([.bit, .data 1] ++ [.hash]) = .ok (r1, w1) ∧
    rcvRun 8 (rcvInit 8 [3#8]) [255#8, 9#8] ([.bit, .data 1] ++ [.hash]) = .ok (r2, w2) ∧
    r1.digests.getLast? = r2.digests.getLast? ∧ r1.datas ≠ r2.datas := by
  refine ⟨_, _, _, _, rfl, rfl, rfl, ?_⟩
  decide

/-- The environment of C76 with any other `Delta`. -/
theorem exNet_at_good {d : GF128} (hd : lsb d = true) : (exNet.at exEnv.view d).Good :=
  { exNet_good with e := ⟨hd, fun n => by
      show lsb (keyOf d (exEnv.view.mac n)) = false
      exact lsb_keyOf hd _⟩ }

/-- C77_completes, C77_messages, C77_extraction: their hypotheses are met, with three values of `Delta`, by the bytes of the
honest prover of `exProg`. -/
example : ∃ c, ∃ D : Finset GF128, ReachAdv 32768 (netInit 32768 [] [] (sessionCallsV (exNet.at exEnv.view 0) exProg)) c ∧
    c.rops = [] ∧ 3 ≤ D.card ∧
    (∀ d ∈ D, lsb d = true ∧ ∃ V, netSessionV (exNet.at exEnv.view d) exProg c.rcv.bits c.rcv.datas c.rcv.digests = some V ∧
      cheated V.st = false ∧ V.st.outs = [true]) ∧
    (∀ d1 ∈ D, ∀ d2 ∈ D, ∀ V1 V2, netSessionV (exNet.at exEnv.view d1) exProg c.rcv.bits c.rcv.datas c.rcv.digests = some V1 →
      netSessionV (exNet.at exEnv.view d2) exProg c.rcv.bits c.rcv.datas c.rcv.digests = some V2 →
      exEnv.view.hash V1.st.digest = exEnv.view.hash V2.st.digest → V1.st.digest = V2.st.digest) := by
  have h1 := exNet_at_good (d := 1) lsb_one
  have := (C76_completes (exNet.at exEnv.view 1) h1 (by decide) (by decide) (by decide) 32768 exProg).2
    ⟨by decide, Or.inr (by decide)⟩
  obtain ⟨P, h⟩ := Option.isSome_iff_exists.1 this
  obtain ⟨c, hr, e1, e2⟩ := C76_finishes _ h1 (S := 32768) (by decide) exProg P h (junk := []) .init
  rw [netSessionP_at, sessionCallsV_at] at h
  rw [sessionCallsV_at] at hr
  obtain ⟨pl, hpl, hon⟩ := C77_honest exNet exEnv.view (fun d hd => exNet_at_good hd) (by decide) exProg P h hr e1 e2
  have hpl' : plainRun exProg = some ⟨[true, false, false, true, false, false, true, true], [true], [false, false]⟩ := by
    decide
  rw [hpl'] at hpl
  have := (Option.some.inj hpl).symm
  subst this
  obtain ⟨c', a1, _, a2, a3⟩ := C77_sender hr
  have hl : ∀ d ∈ ({1, 1 + gX, 1 + gX * gX} : Finset GF128), lsb d = true := by
    intro d hd
    simp only [Finset.mem_insert, Finset.mem_singleton] at hd
    rcases hd with rfl | rfl | rfl
    · exact lsb_one
    · rw [lsb_add, lsb_one, lsb_gX]; rfl
    · rw [lsb_add, lsb_one, lsb_gX2]; rfl
  refine ⟨c', {1, 1 + gX, 1 + gX * gX}, a1, by rw [a3, e2], ?_, ?_, ?_⟩
  · have hx0 : (gX : GF128) ≠ 0 := by decide
    have hx1 : (gX : GF128) ≠ 1 := by decide
    have e1 : (1 : GF128) ≠ 1 + gX := by
      intro h; exact hx0 (by linear_combination (-1 : GF128) * h)
    have e2 : (1 : GF128) ≠ 1 + gX * gX := by
      intro h; exact mul_ne_zero hx0 hx0 (by linear_combination (-1 : GF128) * h)
    have e3 : (1 + gX : GF128) ≠ 1 + gX * gX := by
      intro h
      have : (gX : GF128) * (gX - 1) = 0 := by linear_combination (-1 : GF128) * h
      rcases mul_eq_zero.1 this with h | h
      · exact hx0 h
      · exact hx1 (sub_eq_zero.1 h)
    rw [Finset.card_insert_of_notMem (by simp [e1, e2]), Finset.card_insert_of_notMem (by simp [e3]),
      Finset.card_singleton]
  · intro d hd
    obtain ⟨V, k1, k2, _, k3⟩ := hon d (hl d hd)
    refine ⟨hl d hd, V, by rw [a2]; exact k1, k3 (by simp), k2⟩
  · intro d1 hd1 d2 hd2 V1 V2 hV1 hV2 _
    obtain ⟨W1, k1, _, k2, _⟩ := hon d1 (hl d1 hd1)
    obtain ⟨W2, l1, _, l2, _⟩ := hon d2 (hl d2 hd2)
    rw [a2] at hV1 hV2
    rw [hV1] at k1
    rw [hV2] at l1
    rw [Option.some.inj k1, Option.some.inj l1, k2, l2]

end EmpZk
