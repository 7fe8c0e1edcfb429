/-
C76: a whole boolean proof over the byte channel, under every interleaving of the two parties.
-/
import Verif.Lemmas.BoolNetSession
import Verif.Model.Bytes
import Verif.Props.BoolIO
import Verif.Props.BoolProtocol

namespace EmpZk

section
variable {F : Type} [Field F] [BlockField F] [DecidableEq F]

omit [DecidableEq F] in
theorem NetEnv.Good.wc {ne : NetEnv F} (hg : ne.Good) (chal) : (ne.wc chal).Good := ⟨hg.e.lsb_delta, hg.e.lsb_key⟩

omit [Field F] [BlockField F] [DecidableEq F] in
theorem sessionCallsV_last (ne : NetEnv F) (ops : List BOp) : ∃ l, sessionCallsV ne ops = l ++ [.flush] := by
  refine ⟨ne.extV 0 1 ++ (runCallsV ne ⟨1, 0, 0, 0⟩ ops ++
    ((if (cntRun ne ⟨1, 0, 0, 0⟩ ops).polys ≠ 0 then polyCallsV ne (cntRun ne ⟨1, 0, 0, 0⟩ ops) else []) ++
    ((if (cntRun ne ⟨1, 0, 0, 0⟩ ops).gates ≠ 0 then andCallsV ne (if (cntRun ne ⟨1, 0, 0, 0⟩ ops).polys ≠ 0 then
      (cntRun ne ⟨1, 0, 0, 0⟩ ops).polyChk else cntRun ne ⟨1, 0, 0, 0⟩ ops) else []) ++ [.data 32]))), ?_⟩
  simp only [sessionCallsV, finCallsV, List.append_assoc]
  rfl

theorem mirror_flush_last {l : List SOp} {l' : List ROp} (h : List.Forall₂ Mirror l (l' ++ [.flush])) :
    ∃ k, l = k ++ [.flush] := by
  induction l' generalizing l with
  | nil =>
    cases h with
    | @cons o _ l _ ho hl =>
      cases hl
      cases o <;> simp only [Mirror] at ho
      exact ⟨[], rfl⟩
  | cons r l' ih =>
    cases h with
    | @cons o _ l _ ho hl =>
      obtain ⟨k, rfl⟩ := ih hl
      exact ⟨o :: k, rfl⟩

/-- C76. When does an honest proof over the network complete?  Exactly when the program is well-formed and the last batch
of AND gates is empty or has at least `threads` gates (as in C07), whatever the digests turn out to be. -/
theorem C76_completes (ne : NetEnv F) (hg : ne.Good) (ht : 0 < ne.e.threads) (htc : ne.e.threads ≤ ne.e.checkSz)
    (hp : 0 < ne.e.polySz) (S : Nat) (ops : List BOp) :
    (netSessionP ne S ops (sentBack (sessionCallsV ne ops))).isSome ↔ (plainRun ops).isSome ∧
      (lastBatch (andTriples 0 ops).length ne.e.checkSz = 0 ∨
        ne.e.threads ≤ lastBatch (andTriples 0 ops).length ne.e.checkSz) := by
  constructor
  · intro h
    obtain ⟨n, hn⟩ := Option.isSome_iff_exists.1 h
    obtain ⟨ms, fin, chal, _, _, _, hs, _⟩ := net_session hg ops hn
    have := (C07_completes (ne.wc chal) (hg.wc chal) ht htc hp ops).1 (by rw [hs]; rfl)
    exact this
  · intro h
    exact net_session_some hg ops (fun chal => (C07_completes (ne.wc chal) (hg.wc chal) ht htc hp ops).2 h)

/-- C76. The calls of the prover and of the verifier mirror each other. -/
theorem C76_mirrored (ne : NetEnv F) (hg : ne.Good) (S : Nat) (ops : List BOp) (P : PrvNet F)
    (h : netSessionP ne S ops (sentBack (sessionCallsV ne ops)) = some P) :
    List.Forall₂ Mirror P.calls (sessionCallsV ne ops) := by
  obtain ⟨ms, fin, chal, _, _, hm, _, _⟩ := net_session hg ops h
  exact hm

/-- C76. Under every interleaving of the two parties: no undefined behaviour in the receiving endpoint, no deadlock, and
what the prover's endpoint has returned so far is what the prover's computation was given. -/
theorem C76_no_deadlock (ne : NetEnv F) (hg : ne.Good) {S : Nat} (hS : 0 < S) (ops : List BOp) (P : PrvNet F)
    (h : netSessionP ne S ops (sentBack (sessionCallsV ne ops)) = some P) {junk : List Byte} {c : Net}
    (hr : Reach S (netInit S junk P.calls (sessionCallsV ne ops)) c) :
    stepR S c ≠ .ub ∧
    ((c.sops = [] ∧ c.rops = []) ∨ (∃ c', stepS S c = some c') ∨ (∃ c', stepR S c = .ok c')) ∧
    c.snd.got <+: sentBack (sessionCallsV ne ops) := by
  have hm := C76_mirrored ne hg S ops P h
  refine ⟨C14_no_ub hS hm hr, ?_, (C14_prefix hS hm hr).2.2⟩
  obtain ⟨l', hl'⟩ := sessionCallsV_last ne ops
  rw [hl'] at hm hr
  obtain ⟨l, hl⟩ := mirror_flush_last hm
  rw [hl] at hm hr
  exact C14_no_deadlock hS hm hr

/-- C76. Every schedule can be carried on until both parties have finished. -/
theorem C76_finishes (ne : NetEnv F) (hg : ne.Good) {S : Nat} (hS : 0 < S) (ops : List BOp) (P : PrvNet F)
    (h : netSessionP ne S ops (sentBack (sessionCallsV ne ops)) = some P) {junk : List Byte} {c : Net}
    (hr : Reach S (netInit S junk P.calls (sessionCallsV ne ops)) c) :
    ∃ c', Reach S (netInit S junk P.calls (sessionCallsV ne ops)) c' ∧ c'.sops = [] ∧ c'.rops = [] := by
  generalize hm : netMeasure c = m
  induction m using Nat.strong_induction_on generalizing c with
  | _ m ih =>
    obtain ⟨_, hlt, _⟩ := (sndRun_of_reach hS hr).choose_spec
    have ht := fun c' => C14_terminates (S := S) (c := c) (c' := c') hlt
    rcases (C76_no_deadlock ne hg hS ops P h hr).2.1 with hf | ⟨c', hc⟩ | ⟨c', hc⟩
    · exact ⟨c, hr, hf⟩
    · exact ih _ (hm ▸ (ht c').1 hc) (.sndStep hr hc) rfl
    · exact ih _ (hm ▸ (ht c').2 hc) (.rcvStep hr hc) rfl

/-- C76. Under every interleaving, when both parties have finished: the verifier, computing with what its endpoint
returned, makes exactly the expected calls, uses up everything received, obtains the outputs of the plain program, and
records no cheating if the claimed statements are true; the prover was given what the verifier sent. -/
theorem C76_session (ne : NetEnv F) (hg : ne.Good) {S : Nat} (hS : 0 < S) (ops : List BOp) (P : PrvNet F)
    (h : netSessionP ne S ops (sentBack (sessionCallsV ne ops)) = some P) {junk : List Byte} {c : Net}
    (hr : Reach S (netInit S junk P.calls (sessionCallsV ne ops)) c) (h1 : c.sops = []) (h2 : c.rops = []) :
    ∃ V pl, netSessionV ne ops c.rcv.bits c.rcv.datas c.rcv.digests = some V ∧ plainRun ops = some pl ∧
      V.calls = sessionCallsV ne ops ∧ V.bits = [] ∧ V.datas = [] ∧ V.digs = [] ∧
      c.snd.got = sentBack (sessionCallsV ne ops) ∧
      V.st.outs = pl.outs ∧ P.st.outs = pl.outs ∧ ((∀ b ∈ pl.claims, b = false) → cheated V.st = false) := by
  obtain ⟨ms, fin, chal, _, hio, hm, hp, hv⟩ := net_session hg ops h
  obtain ⟨f1, f2, f3, _, _⟩ := C14_fifo hS hm hr h1 h2
  have hd := C15_same_challenges hS hm hr h1 h2
  have hdig : c.rcv.digests = P.io.digests := by
    obtain ⟨dn, e1, _, e2 | e2⟩ := sndRun_of_reach hS hr
    · rw [h1, List.append_nil] at e1
      rw [← hd, e2.2.2, ← e1, hio]
    · obtain ⟨⟨n, l, e3⟩, _⟩ := e2
      rw [h1] at e3; cases e3
  obtain ⟨V, pl, k1, k2, k3, k4, _, k5⟩ := C07_honest_session (ne.wc chal) (hg.wc chal) ops P.st ms fin hp
  refine ⟨⟨V, [], [], [], sessionCallsV ne ops⟩, pl, ?_, k2, rfl, rfl, rfl, rfl, f3, k3, k4, k5⟩
  rw [f1, f2, hdig, hv, k1]
  rfl

end

/-! ### a concrete session -/

/-- The session `exEnv` over the network: `rcot` exchanges a byte string in each direction for its first output and for
every output whose number is divisible by five. -/
noncomputable def exNet : NetEnv GF128 where
  e := exEnv
  seeds := fun d i => ⟨BitVec.ofNat 128 (d.length + i + 2)⟩
  enc := fun x => leBytes 16 x.bits.toNat
  dec := fun l => ⟨BitVec.ofNat 128 (leVal l)⟩
  encD := fun x => leBytes 16 x.bits.toNat ++ List.replicate 16 0#8
  decD := fun l => ⟨BitVec.ofNat 128 (leVal l)⟩
  extP := fun used _ => if used % 5 = 0 then [.data [1#8, 2#8], .back 3] else []
  extV := fun used _ => if used % 5 = 0 then [.data 2, .back [3#8, 4#8, 5#8]] else []

theorem exNet_good : exNet.Good where
  e := exEnv_good
  dec_enc := by
    intro x
    have h := leVal_leBytes 16 x.bits.toNat (by have := x.bits.isLt; norm_num at this ⊢; omega)
    show (⟨BitVec.ofNat 128 (leVal (leBytes 16 x.bits.toNat))⟩ : GF128) = x
    rw [h, BitVec.ofNat_toNat, BitVec.setWidth_eq]
  enc_length := fun x => leBytes_length _ _
  decD_encD := by
    intro x
    have h := leVal_leBytes 16 x.bits.toNat (by have := x.bits.isLt; norm_num at this ⊢; omega)
    show (⟨BitVec.ofNat 128 (leVal (leBytes 16 x.bits.toNat ++ List.replicate 16 0#8))⟩ : GF128) = x
    rw [leVal_append_zero, h, BitVec.ofNat_toNat, BitVec.setWidth_eq]
  encD_length := by
    intro x
    show (leBytes 16 x.bits.toNat ++ List.replicate 16 0#8).length = 32
    rw [List.length_append, leBytes_length, List.length_replicate]
  ext := by
    intro used k
    show List.Forall₂ Mirror (if used % 5 = 0 then [.data [1#8, 2#8], .back 3] else [])
      (if used % 5 = 0 then [.data 2, .back [3#8, 4#8, 5#8]] else [])
    split
    · exact .cons ⟨rfl, by decide⟩ (.cons ⟨rfl, by decide⟩ .nil)
    · exact .nil

/-- The hypotheses of C76 are met: with buffers of 32768 bits the session of `exProg` completes on the prover's side, some
schedule finishes, and then the verifier has the output `true` and no cheating recorded. -/
example : ∃ P c V, netSessionP exNet 32768 exProg (sentBack (sessionCallsV exNet exProg)) = some P ∧
    Reach 32768 (netInit 32768 [] P.calls (sessionCallsV exNet exProg)) c ∧ c.sops = [] ∧ c.rops = [] ∧
    netSessionV exNet exProg c.rcv.bits c.rcv.datas c.rcv.digests = some V ∧ V.st.outs = [true] ∧
    cheated V.st = false := by
  have := (C76_completes exNet exNet_good (by decide) (by decide) (by decide) 32768 exProg).2
    ⟨by decide, Or.inr (by decide)⟩
  obtain ⟨P, h⟩ := Option.isSome_iff_exists.1 this
  obtain ⟨c, hr, h1, h2⟩ := C76_finishes exNet exNet_good (S := 32768) (by decide) exProg P h (junk := []) .init
  obtain ⟨V, pl, k1, k2, _, _, _, _, _, k3, _, k4⟩ :=
    C76_session exNet exNet_good (S := 32768) (by decide) exProg P h hr h1 h2
  have hpl : plainRun exProg = some ⟨[true, false, false, true, false, false, true, true], [true], [false, false]⟩ := by
    decide
  rw [hpl] at k2
  have := (Option.some.inj k2).symm
  subst this
  exact ⟨P, c, V, h, hr, h1, h2, k1, k3, k4 (by simp)⟩

end EmpZk
