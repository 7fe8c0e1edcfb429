/-
Property theorems C92: what the challenges of the AND checks of a boolean proof are computed from.

Every check derives its coefficients from the digest of the bits sent since the previous check (emp-zk-bool/ostriple.h:144-151,
bool_io.h:39-43), not since the start of the session.
-/
import Verif.Lemmas.LateNet
import Verif.Lemmas.DigestBind
import Verif.Props.NetSound

namespace EmpZk

section
variable {F : Type} [Field F] [BlockField F] [DecidableEq F]

omit [DecidableEq F] in
/-- A prover which sends given messages and the verifier can always run to the end. -/
theorem msg_finishes {ne : NetEnv F} (hg : ne.Good) {S : Nat} (hS : 0 < S) (ops : List BOp) (ms : List (BMsg F)) (fin : BFin F)
    (hl : ms.length = ops.length) {junk : List Byte} {c : Net}
    (hr : Reach S (netInit S junk (msgCallsP ne ops ms fin) (sessionCallsV ne ops)) c) :
    ∃ c', Reach S (netInit S junk (msgCallsP ne ops ms fin) (sessionCallsV ne ops)) c' ∧ c'.sops = [] ∧ c'.rops = [] := by
  obtain ⟨L, hL⟩ : ∃ L, msgCallsP ne ops ms fin = L ++ [.flush] := by
    refine ⟨ne.extP 0 1 ++ (runCallsP ne ⟨1, 0, 0, 0⟩ ops ms ++
      ((if (cntRun ne ⟨1, 0, 0, 0⟩ ops).polys ≠ 0 then polyCallsP ne (cntRun ne ⟨1, 0, 0, 0⟩ ops) fin.polyAns else []) ++
      ((if (cntRun ne ⟨1, 0, 0, 0⟩ ops).gates ≠ 0 then andCallsP ne (if (cntRun ne ⟨1, 0, 0, 0⟩ ops).polys ≠ 0 then
        (cntRun ne ⟨1, 0, 0, 0⟩ ops).polyChk else cntRun ne ⟨1, 0, 0, 0⟩ ops) fin.andAns else []) ++ [.data (ne.encD fin.digest)]))), ?_⟩
    simp only [msgCallsP, finCallsP, List.append_assoc, List.cons_append, List.nil_append]
  have hm := msgCalls_mirror hg ops ms fin hl
  obtain ⟨R, hR⟩ : ∃ R, sessionCallsV ne ops = R ++ [.flush] := by
    refine ⟨(sessionCallsV ne ops).dropLast, ?_⟩
    simp only [sessionCallsV, finCallsV]
    rw [List.dropLast_append_of_ne_nil (by simp), List.dropLast_append_of_ne_nil (by simp), List.dropLast_append_of_ne_nil (by simp),
      List.dropLast_append_of_ne_nil (by simp)]
    simp
  rw [hL, hR] at hr hm ⊢
  generalize hmm : netMeasure c = m
  induction m using Nat.strong_induction_on generalizing c with
  | _ m ih =>
    obtain ⟨_, hlt, _⟩ := (sndRun_of_reach hS hr).choose_spec
    have ht := fun c' => C14_terminates (S := S) (c := c) (c' := c') hlt
    rcases C14_no_deadlock hS hm hr with hf | ⟨c', hc⟩ | ⟨c', hc⟩
    · exact ⟨c, hr, hf⟩
    · exact ih _ (hmm ▸ (ht c').1 hc) (.sndStep hr hc) rfl
    · exact ih _ (hmm ▸ (ht c').2 hc) (.rcvStep hr hc) rfl

omit [DecidableEq F] in
theorem cntStep_at1 {ne : NetEnv F} {v : BView F} (c : NetCnt) (op : BOp) (d : F) : cntStep (ne.at v d) c op = cntStep (ne.at v 1) c op := by
  cases op <;> rfl

omit [DecidableEq F] in
theorem cntRun_at1 {ne : NetEnv F} {v : BView F} (c : NetCnt) (ops : List BOp) (d : F) : cntRun (ne.at v d) c ops = cntRun (ne.at v 1) c ops := by
  simp only [cntRun]
  congr 1

omit [DecidableEq F] in
/-- The calls by which messages are sent do not depend on `Delta`. -/
theorem runCallsP_at {ne : NetEnv F} {v : BView F} (ops : List BOp) : ∀ (c : NetCnt) (ms : List (BMsg F)) (d : F),
    runCallsP (ne.at v d) c ops ms = runCallsP (ne.at v 1) c ops ms := by
  have h1 : ∀ c m op (d : F), callsP (ne.at v d) c m op = callsP (ne.at v 1) c m op := by intro c m op d; cases op <;> rfl
  induction ops with
  | nil => intro c ms d; rfl
  | cons o os ih =>
    intro c ms d
    cases ms with
    | nil => rfl
    | cons m ms => simp only [runCallsP, h1 _ _ _ d, cntStep_at1 _ _ d, ih _ _ d]

/-- C92 is false. The program of `lateProg` is an ordinary one: `n` inputs are given and opened, a full batch of AND gates follows,
then every input is ANDed with the public bit 1 and the results are opened.  With more than 128 inputs a prover has calls to make
(the same calls as the honest prover, other contents) by which the verifier accepts whatever its `Delta` is, whatever the hash
function and generator behind the challenges (`ne.seeds`), the number of threads, the junk in the buffers and the interleaving, and
sees outputs `out` which the program produces on no inputs at all: some input is opened as 1 and its AND with 1 as 0. -/
theorem C92_false [Fintype F] (ne : NetEnv F) (v : BView F) (hg : ∀ d, lsb d = true → (ne.at v d).Good) {S : Nat} (hS : 0 < S) (n : Nat)
    (hn : Fintype.card F < 2 ^ n) (hc : n + 1 ≤ v.checkSz) (ht : 0 < v.threads) (htn : v.threads ≤ n) :
    ∃ (sops : List SOp) (out : List Bool),
      (∀ ops' pl, List.Forall₂ BOp.same (lateProg n v.checkSz (fun _ => false)) ops' → plainRun ops' = some pl → pl.outs ≠ out) ∧
      (∀ junk, ∃ c, Reach S (netInit S junk sops (sessionCallsV (ne.at v 0) (lateProg n v.checkSz (fun _ => false)))) c ∧
        c.sops = [] ∧ c.rops = []) ∧
      ∀ junk c, Reach S (netInit S junk sops (sessionCallsV (ne.at v 0) (lateProg n v.checkSz (fun _ => false)))) c →
        c.sops = [] → c.rops = [] → ∀ d, lsb d = true → ∃ V,
        netSessionV (ne.at v d) (lateProg n v.checkSz (fun _ => false)) c.rcv.bits c.rcv.datas c.rcv.digests = some V ∧
        cheated V.st = false ∧ V.st.outs = out := by
  have hg1 := hg 1 lsb_one
  obtain ⟨ts, hts⟩ := Option.isSome_iff_exists.1 ((splitTasks_isSome (n + 1) v.threads).2 ⟨ht, by omega⟩)
  -- the second digest, and inputs which the second batch does not notice
  let dg2 := (sndFlush S (sndRun S ⟨[], [], [], []⟩ (lateCalls (ne.at v 1) v n 0))).1.hashed
  obtain ⟨a, ⟨i0, hi0, ha⟩, hsum⟩ := exists_null_input n hn [0] (by simp) (ne.seeds dg2) ts
  -- the first digest
  let io0 := sndRun S ⟨[], [], [], []⟩ (ne.extP 0 1)
  let dg1 := (sndFlush S (sndRun S io0 (runCallsP (ne.at v 1) ⟨1, 0, 0, 0⟩ (earlyOps n v.checkSz (fun _ => false)) (earlyMsgs v n v.checkSz a)))).1.hashed
  let sd : Nat → Nat → F := fun k => if k = 0 then ne.seeds dg1 else ne.seeds dg2
  obtain ⟨ans0, fin, hacc⟩ := late_accepts (v.wc (fun k _ => sd k)) n (fun _ => false) a hc ht htn sd (fun _ _ => rfl) (by
    intro ts' hts'
    rw [show splitTasks (n + 1) v.threads = some ts' from hts'] at hts
    rw [Option.some.inj hts, errSum_eq_L, gates2_err]
    exact hsum)
  let ms := earlyMsgs v n v.checkSz a ++ ([turnMsg v n v.checkSz ans0] ++ lateMsgs v n v.checkSz)
  have hl : ms.length = (lateProg n v.checkSz (fun _ => false)).length := by
    simp [ms, earlyMsgs, lateMsgs, lateProg, earlyOps, lateOps]
  have hat : ∀ d, msgCallsP (ne.at v d) (lateProg n v.checkSz (fun _ => false)) ms fin = msgCallsP (ne.at v 1) (lateProg n v.checkSz (fun _ => false)) ms fin := by
    intro d
    simp only [msgCallsP, runCallsP_at _ _ _ d, cntRun_at1 _ _ d]
    rfl
  refine ⟨msgCallsP (ne.at v 1) (lateProg n v.checkSz (fun _ => false)) ms fin, (List.range n).map a ++ (List.range n).map (fun _ => false), ?_, ?_, ?_⟩
  · intro ops' pl hsame hpl heq
    obtain ⟨y, rfl⟩ := same_lateProg n _ _ _ hsame
    obtain ⟨pl', e1, e2⟩ := late_plain n v.checkSz y
    rw [hpl] at e1
    rw [Option.some.inj e1, e2] at heq
    obtain ⟨q1, q2⟩ := List.append_inj heq (by simp)
    have f1 := congrArg (fun l => l[i0]?) q1
    have f2 := congrArg (fun l => l[i0]?) q2
    simp [hi0] at f1 f2
    rw [f1, ha] at f2
    cases f2
  · intro junk
    rw [← sessionCallsV_at (ne := ne) (v := v) _ 1]
    exact msg_finishes hg1 hS _ _ _ hl .init
  · intro junk c hr h1 h2 d hd
    obtain ⟨V, k1, k2, k3⟩ := hacc d hd
    refine ⟨⟨V, [], [], [], sessionCallsV (ne.at v d) (lateProg n v.checkSz (fun _ => false))⟩, ?_, k2, k3⟩
    have hm := msgCalls_mirror (hg d hd) (lateProg n v.checkSz (fun _ => false)) ms fin hl
    rw [hat, sessionCallsV_at] at hm
    obtain ⟨f1, f2, _, _, _⟩ := C14_fifo hS hm hr h1 h2
    have hdd := C15_same_challenges hS hm hr h1 h2
    have hdig : c.rcv.digests = (sndRun S ⟨[], [], [], []⟩ (msgCallsP (ne.at v 1) (lateProg n v.checkSz (fun _ => false)) ms fin)).digests := by
      obtain ⟨dn, e1, _, e2 | e2⟩ := sndRun_of_reach hS hr
      · rw [h1, List.append_nil] at e1
        rw [← hdd, e2.2.2, ← e1]
      · obtain ⟨⟨n, l, e3⟩, _⟩ := e2
        rw [h1] at e3; cases e3
    have hcs : ∀ d, (ne.at v d).e.checkSz = v.checkSz := fun _ => rfl
    have hruns := late_runDigs (ne := ne.at v d) S v n hc (fun _ => false) a ans0 io0
    have hcalls := late_calls (ne := ne.at v d) v n (fun _ => false) a ans0
    have hcnt : (cntRun (ne.at v d) ⟨1, 0, 0, 0⟩ (lateProg n v.checkSz (fun _ => false))).polys = 0 := by
      have e1 := early_cnt (ne := ne.at v d) n (fun _ => false)
      have e2 := turn_cnt (ne := ne.at v d) n
      have e3 := late_cnt (ne := ne.at v d) n hc
      rw [hcs] at e1 e2 e3
      rw [lateProg, cntRun_append, e1, cntRun_append]
      show (cntRun (ne.at v d) (cntStep (ne.at v d) _ (.and n n)) _).polys = 0
      rw [e2, e3]
    have hlast : (sndFlush S (sndRun S io0 (runCallsP (ne.at v d) ⟨1, 0, 0, 0⟩ (lateProg n v.checkSz (fun _ => false)) ms))).1.hashed = dg2 := by
      have e := late_digest (ne := ne.at v d) S hS v n ans0
        (sndRun S io0 (runCallsP (ne.at v d) ⟨1, 0, 0, 0⟩ (earlyOps n v.checkSz (fun _ => false)) (earlyMsgs v n v.checkSz a)))
        (sndRun_buf hS _ _ (sndRun_buf hS _ _ hS))
      rw [← sndRun_append] at e
      rw [hcs] at hcalls
      rw [show runCallsP (ne.at v d) ⟨1, 0, 0, 0⟩ (lateProg n v.checkSz (fun _ => false)) ms = _ from hcalls, e]
      simp only [dg2, lateCalls, runCallsP_at _ _ _ d]
      rfl
    have hmsg := msg_session (hg d hd) (S := S) (lateProg n v.checkSz (fun _ => false)) ms fin hl hcnt (fun k _ => sd k) (by
      intro i dg hi t
      rw [hcs] at hruns
      rw [show runDigs (ne.at v d) S (sndRun S ⟨[], [], [], []⟩ ((ne.at v d).extP 0 1)) ⟨1, 0, 0, 0⟩ (lateProg n v.checkSz (fun _ => false)) ms = _
        from hruns, show (sndFlush S (sndRun S (sndRun S ⟨[], [], [], []⟩ ((ne.at v d).extP 0 1)) (runCallsP (ne.at v d) ⟨1, 0, 0, 0⟩
          (lateProg n v.checkSz (fun _ => false)) ms))).1.hashed = dg2 from hlast] at hi
      rw [runCallsP_at _ _ _ d] at hi
      rcases i with _ | _ | i
      · simp only [List.cons_append, List.getElem?_cons_zero, Option.some.injEq] at hi
        rw [← hi]; rfl
      · simp only [List.cons_append, List.nil_append, List.getElem?_cons_succ, List.getElem?_cons_zero, Option.some.injEq] at hi
        rw [← hi]; rfl
      · simp at hi)
    rw [hat] at hmsg
    rw [f1, f2, hdig, hmsg, show verSession ((ne.at v d).wc (fun k _ => sd k)) (lateProg n v.checkSz (fun _ => false)) ms fin = some V from k1]
    rfl

/-- C92 for all challenges together: two provers, each sending any bytes, with whom the verifier computes the same challenges in
*every* check of a program with an AND gate, have sent the same bits: the same wires, openings, AND gates in every batch and statements,
whatever the buffers held.  Missing: the challenge of one check alone, when there are several (`C92_false`). -/
theorem C92_digests_partial (ne : NetEnv F) (ops : List BOp) (hand : ∃ i j, BOp.and i j ∈ ops) {S : Nat} {junk1 junk2 : List Byte}
    {c1 c2 : Net} (h1 : ReachAdv S (netInit S junk1 [] (sessionCallsV ne ops)) c1) (f1 : c1.rops = [])
    (h2 : ReachAdv S (netInit S junk2 [] (sessionCallsV ne ops)) c2) (f2 : c2.rops = [])
    (hd : c1.rcv.digests = c2.rcv.digests) {V1 V2 : VerNet F}
    (e1 : netSessionV ne ops c1.rcv.bits c1.rcv.datas c1.rcv.digests = some V1)
    (e2 : netSessionV ne ops c2.rcv.bits c2.rcv.datas c2.rcv.digests = some V2) :
    V1.st.transcript = V2.st.transcript ∧ V1.st.wires = V2.st.wires ∧ V1.st.outs = V2.st.outs ∧ V1.st.digest = V2.st.digest ∧
    V1.st.andLog.map AndRec.gates = V2.st.andLog.map AndRec.gates ∧ V1.st.polyLog.map PolyRec.polys = V2.st.polyLog.map PolyRec.polys := by
  have run : ∀ {junk : List Byte} {c : Net}, ReachAdv S (netInit S junk [] (sessionCallsV ne ops)) c → c.rops = [] →
      ∃ W w, rcvRun S (rcvInit S junk) W (sessionCallsV ne ops) = .ok (c.rcv, w) := by
    intro junk c hr hf
    obtain ⟨dn, W, k1, k2⟩ := reachAdv_run hr
    rw [hf, List.append_nil] at k1
    have hrops : sessionCallsV ne ops = dn := k1
    subst hrops
    exact ⟨_, _, k2⟩
  obtain ⟨W1, w1, r1⟩ := run h1 f1
  obtain ⟨W2, w2, r2⟩ := run h2 f2
  have s3 := digests_twin (sd := ne.seeds) ops hand r1 r2 hd e1 e2
  exact ⟨s3.transcript, s3.wires, s3.outs, s3.digest, s3.andLog, s3.polyLog⟩

/-- C92 for one batch: when the AND gates fit into one batch and the extension of the correlations takes no digests, there is exactly
one challenge per session, and it is computed from everything the prover has sent: executions with the same challenge string agree on all
bits, wires, openings, gates and statements. -/
theorem C92_one_batch_partial (ne : NetEnv F) (ops : List BOp) (hand : ∃ i j, BOp.and i j ∈ ops)
    (hfit : ops.countP BOp.isAnd ≤ ne.e.checkSz)
    (hext : ∀ u n, rcvDigs (ne.extV u n) = 0) {S : Nat} {junk1 junk2 : List Byte}
    {c1 c2 : Net} (h1 : ReachAdv S (netInit S junk1 [] (sessionCallsV ne ops)) c1) (f1 : c1.rops = [])
    (h2 : ReachAdv S (netInit S junk2 [] (sessionCallsV ne ops)) c2) (f2 : c2.rops = []) :
    ∃ dg1 dg2, c1.rcv.digests = [dg1] ∧ c2.rcv.digests = [dg2] ∧ (dg1 = dg2 → ∀ {V1 V2 : VerNet F},
      netSessionV ne ops c1.rcv.bits c1.rcv.datas c1.rcv.digests = some V1 →
      netSessionV ne ops c2.rcv.bits c2.rcv.datas c2.rcv.digests = some V2 →
      V1.st.transcript = V2.st.transcript ∧ V1.st.wires = V2.st.wires ∧ V1.st.outs = V2.st.outs ∧ V1.st.digest = V2.st.digest ∧
      V1.st.andLog.map AndRec.gates = V2.st.andLog.map AndRec.gates ∧ V1.st.polyLog.map PolyRec.polys = V2.st.polyLog.map PolyRec.polys) := by
  have hone := one_digest hand hfit hext
  have l1 := (inbox_full h1 f1).2.2
  have l2 := (inbox_full h2 f2).2.2
  rw [hone] at l1 l2
  obtain ⟨dg1, d1⟩ := List.length_eq_one_iff.1 l1
  obtain ⟨dg2, d2⟩ := List.length_eq_one_iff.1 l2
  refine ⟨dg1, dg2, d1, d2, ?_⟩
  intro hd V1 V2 e1 e2
  exact C92_digests_partial ne ops hand h1 f1 h2 f2 (by rw [d1, d2, hd]) e1 e2

end

/-- C92_false: its hypotheses are met by the block field, batches of 130 gates, one thread and 129 inputs. -/
example : ∃ (sops : List SOp) (out : List Bool), ∀ junk c,
    Reach 32768 (netInit 32768 junk sops (sessionCallsV (exNet.at { exEnv.view with checkSz := 130, threads := 1 } 0) (lateProg 129 130 (fun _ => false)))) c →
    c.sops = [] → c.rops = [] → ∃ V, netSessionV (exNet.at { exEnv.view with checkSz := 130, threads := 1 } 1) (lateProg 129 130 (fun _ => false))
      c.rcv.bits c.rcv.datas c.rcv.digests = some V ∧ cheated V.st = false ∧ V.st.outs = out := by
  obtain ⟨sops, out, _, _, h⟩ := C92_false exNet { exEnv.view with checkSz := 130, threads := 1 }
    (fun d hd => { exNet_good with e := ⟨hd, fun n => lsb_keyOf hd _⟩ }) (S := 32768) (by norm_num) 129
    (by rw [GF128.card]; norm_num) (by norm_num) (by norm_num) (by norm_num)
  exact ⟨sops, out, fun junk c hr h1 h2 => h junk c hr h1 h2 1 lsb_one⟩

/-- C92_digests_partial, C92_one_batch_partial: their hypotheses are met by `exProg` with batches of four gates, for which the honest
prover completes. -/
example : (∃ i j, BOp.and i j ∈ exProg) ∧
    exProg.countP BOp.isAnd ≤ (exNet.at { exEnv.view with checkSz := 4 } 1).e.checkSz ∧
    (∀ u n, rcvDigs ((exNet.at { exEnv.view with checkSz := 4 } 1).extV u n) = 0) ∧
    ∃ c V, ReachAdv 32768 (netInit 32768 [] [] (sessionCallsV (exNet.at { exEnv.view with checkSz := 4 } 1) exProg)) c ∧ c.rops = [] ∧
      netSessionV (exNet.at { exEnv.view with checkSz := 4 } 1) exProg c.rcv.bits c.rcv.datas c.rcv.digests = some V := by
  have hg : ∀ d, lsb d = true → (exNet.at { exEnv.view with checkSz := 4 } d).Good := fun d hd =>
    { exNet_good with e := ⟨hd, fun n => lsb_keyOf hd _⟩ }
  have h1 := hg 1 lsb_one
  refine ⟨⟨0, 1, by simp [exProg]⟩, by decide, ?_, ?_⟩
  · intro u n
    show rcvDigs (if u % 5 = 0 then _ else _) = 0
    split <;> rfl
  have := (C76_completes (exNet.at { exEnv.view with checkSz := 4 } 1) h1 (by decide) (by decide) (by decide) 32768 exProg).2
    ⟨by decide, Or.inr (by decide)⟩
  obtain ⟨P, h⟩ := Option.isSome_iff_exists.1 this
  obtain ⟨c, hr, e1, e2⟩ := C76_finishes _ h1 (S := 32768) (by decide) exProg P h (junk := []) .init
  rw [netSessionP_at, sessionCallsV_at] at h
  rw [sessionCallsV_at] at hr
  obtain ⟨pl, hpl, hon⟩ := C77_honest exNet _ hg (by decide) exProg P h hr e1 e2
  obtain ⟨c', a1, _, a2, a3⟩ := C77_sender hr
  obtain ⟨V, k1, _⟩ := hon 1 lsb_one
  refine ⟨c', V, by rw [sessionCallsV_at]; exact a1, by rw [a3, e2], by rw [a2]; exact k1⟩

end EmpZk
