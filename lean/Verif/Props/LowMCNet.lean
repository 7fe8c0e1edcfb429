/-
C56 over the network: a proof of knowledge of a LowMC key and messages (emp-zk/extensions/lowmc/lowmc.h) as a boolean proof over the byte
channel, under every interleaving with the honest prover, and against a prover that sends arbitrary bytes.
-/
import Verif.Props.LowMC
import Verif.Props.NetSound

namespace EmpZk

section
variable {F : Type} [Field F] [BlockField F] [DecidableEq F]

/-- C56 (honest session over the network). For all keys and messages, under every interleaving of the two parties: no undefined behaviour in
the receiving endpoint, no deadlock, the session can be carried on to its end, and at the end both parties have the ciphertexts of the clear
version and no cheating is recorded. -/
theorem C56_network (c : LmCfg) (hc : 3 * c.boxes ≤ c.block ∧ 1 ≤ c.block ∧ 1 ≤ c.key) (p : LmParams) (hp : p.Sized c) (nb : Nat)
    (key msg : List Bool) (hk : key.length = c.key) (hm : msg.length = nb * c.block) (ne : NetEnv F) (hg : ne.Good) (ht : 0 < ne.e.threads)
    (htc : ne.e.threads ≤ ne.e.checkSz) (hps : 0 < ne.e.polySz)
    (hlast : lastBatch (nb * (c.rounds * (c.boxes * 3))) ne.e.checkSz = 0 ∨
      ne.e.threads ≤ lastBatch (nb * (c.rounds * (c.boxes * 3))) ne.e.checkSz) {S : Nat} (hS : 0 < S) (junk : List Byte) :
    ∃ ops ct P, lmProgram c p key msg nb = some ops ∧ lmClear c p key msg nb = some ct ∧
      netSessionP ne S ops (sentBack (sessionCallsV ne ops)) = some P ∧ P.st.outs = ct ∧
      ∀ n, Reach S (netInit S junk P.calls (sessionCallsV ne ops)) n →
        stepR S n ≠ .ub ∧ ((n.sops = [] ∧ n.rops = []) ∨ (∃ n', stepS S n = some n') ∨ (∃ n', stepR S n = .ok n')) ∧
        (∃ n', Reach S (netInit S junk P.calls (sessionCallsV ne ops)) n' ∧ n'.sops = [] ∧ n'.rops = []) ∧
        (n.sops = [] → n.rops = [] → ∃ V, netSessionV ne ops n.rcv.bits n.rcv.datas n.rcv.digests = some V ∧ V.st.outs = ct ∧
          cheated V.st = false ∧ n.snd.got = sentBack (sessionCallsV ne ops)) := by
  obtain ⟨suf, _, h⟩ := C56_circuit c hc p hp nb
  obtain ⟨ct, pl, h1, h2, h3, h4, h5, h6⟩ := h key msg hk hm
  have hsome := (C76_completes ne hg ht htc hps S (msg.map .input ++ key.map .input ++ suf)).2 ⟨by rw [h3]; rfl, by rw [h6]; exact hlast⟩
  obtain ⟨P, hP⟩ := Option.isSome_iff_exists.1 hsome
  have hend : ∀ n, Reach S (netInit S junk P.calls (sessionCallsV ne (msg.map .input ++ key.map .input ++ suf))) n → n.sops = [] → n.rops = [] →
      P.st.outs = ct ∧ ∃ V, netSessionV ne (msg.map .input ++ key.map .input ++ suf) n.rcv.bits n.rcv.datas n.rcv.digests = some V ∧
        V.st.outs = ct ∧ cheated V.st = false ∧ n.snd.got = sentBack (sessionCallsV ne (msg.map .input ++ key.map .input ++ suf)) := by
    intro n hn e1 e2
    obtain ⟨V, pl', k1, k2, _, _, _, _, k3, k4, k5, k6⟩ := C76_session ne hg hS _ P hP hn e1 e2
    rw [h3, Option.some.injEq] at k2
    subst k2
    exact ⟨k5.trans h4, V, k1, k4.trans h4, k6 (by rw [h5]; simp), k3⟩
  obtain ⟨n', a1, a2, a3⟩ := C76_finishes ne hg hS _ P hP (junk := junk) .init
  refine ⟨_, ct, P, h2, h1, hP, (hend n' a1 a2 a3).1, fun n hn => ?_⟩
  obtain ⟨d1, d2, _⟩ := C76_no_deadlock ne hg hS _ P hP hn
  exact ⟨d1, d2, C76_finishes ne hg hS _ P hP hn, fun e1 e2 => (hend n hn e1 e2).2⟩

/-- C56 (knowledge over the network). Whatever bytes a prover sends, whenever they arrive: if the verifier of the program accepts for at least
three values of `Delta`, then — unless a challenge derived from the digests of what it received is one of the few bad ones for the committed gates,
a batch is not covered by the split over the threads, or the final hash collides — there are a key and messages whose clear encryption is exactly
what was revealed to the verifier. -/
theorem C56_network_knowledge (c : LmCfg) (hc : 3 * c.boxes ≤ c.block ∧ 1 ≤ c.block ∧ 1 ≤ c.key) (p : LmParams) (hp : p.Sized c) (nb : Nat)
    (key₀ msg₀ : List Bool) (hk : key₀.length = c.key) (hm : msg₀.length = nb * c.block) (ops : List BOp)
    (hops : lmProgram c p key₀ msg₀ nb = some ops) (ne : NetEnv F) (v : BView F) {S : Nat} {junk : List Byte} {n : Net}
    (hr : ReachAdv S (netInit S junk [] (sessionCallsV (ne.at v 0) ops)) n) (hf : n.rops = [])
    (D : Finset F) (hD3 : 3 ≤ D.card)
    (hD : ∀ d ∈ D, lsb d = true ∧ ∃ V, netSessionV (ne.at v d) ops n.rcv.bits n.rcv.datas n.rcv.digests = some V ∧ cheated V.st = false)
    (hhash : ∀ d1 ∈ D, ∀ d2 ∈ D, ∀ V1 V2, netSessionV (ne.at v d1) ops n.rcv.bits n.rcv.datas n.rcv.digests = some V1 →
      netSessionV (ne.at v d2) ops n.rcv.bits n.rcv.datas n.rcv.digests = some V2 →
      v.hash V1.st.digest = v.hash V2.st.digest → V1.st.digest = V2.st.digest) :
    ∃ (ms : List (BMsg F)) (fin : BFin F) (ds : List (List Byte)) (cs : ComSt F), ds.Sublist n.rcv.digests ∧
      comSession (v.wc (fun k _ => (ds[k]?.elim (fun _ => 0) ne.seeds))) ops ms fin = some cs ∧
      (∀ r ∈ cs.andLog, ∃ dg ∈ ds, r.seeds = ne.seeds dg) ∧
      ((∀ r ∈ cs.andLog, ∀ tasks, splitTasks r.gates.length v.threads = some tasks →
          errSum r.gates r.seeds tasks 0 = 0 → ∀ t ∈ tasks, ∀ g ∈ taskSlice r.gates t, g.Correct) →
       (∀ r ∈ cs.andLog, r.gates.length % v.threads < r.gates.length / v.threads) →
       (∀ r ∈ cs.polyLog, chiSum r.seed (r.polys.map (fun s => (bit (s.map lsb).eval : F))) = 0 → ∀ s ∈ r.polys, (s.map lsb).eval = false) →
       ∃ key msg : List Bool, key.length = c.key ∧ msg.length = nb * c.block ∧
         ∀ d ∈ D, ∀ V, netSessionV (ne.at v d) ops n.rcv.bits n.rcv.datas n.rcv.digests = some V → lmClear c p key msg nb = some V.st.outs) := by
  obtain ⟨suf, hsuf, h⟩ := C56_circuit c hc p hp nb
  obtain ⟨_, _, _, h2, _⟩ := h key₀ msg₀ hk hm
  rw [hops, Option.some.injEq] at h2
  obtain ⟨ms, fin, ds, cs, e1, e2, e3, e4⟩ := C77_extraction ne v ops hr hf D hD3 hD hhash
  refine ⟨ms, fin, ds, cs, e1, e2, e3, fun f1 f2 f3 => ?_⟩
  obtain ⟨ops', pl, g1, g2, _, g4⟩ := e4 f1 f2 f3
  rw [h2, ← List.map_append] at g1
  obtain ⟨bs, hb1, hb2⟩ := inputs_split _ suf ops' hsuf g1
  rw [List.length_append, hm, hk] at hb1
  have hbs : bs = bs.take (nb * c.block) ++ bs.drop (nb * c.block) := (List.take_append_drop _ _).symm
  obtain ⟨ct, pl', k1, _, k3, k4, _⟩ := h (bs.drop (nb * c.block)) (bs.take (nb * c.block)) (by simp [hb1]) (by simp [hb1])
  rw [hb2, hbs, List.map_append, k3, Option.some.injEq] at g2
  subst g2
  refine ⟨bs.drop (nb * c.block), bs.take (nb * c.block), by simp [hb1], by simp [hb1], ?_⟩
  intro d hd V hV
  rw [g4 d hd V hV, k1, k4]

end

/-! ### a concrete session: the toy instance of one box, blocks of four bits, keys of two bits and one round -/

/-- Sizes of the toy instance. -/
def exLm : LmCfg := ⟨1, 4, 2, 1⟩

/-- Its arrays. -/
def exLmP : LmParams := ⟨[true, false, false, false, false, true, false, false, false, false, true, false, true, false, false, true],
    [true, false, false, false], List.replicate 16 true⟩

theorem exLmP_sized : exLmP.Sized exLm := ⟨rfl, rfl, rfl⟩

/-- The hypotheses of C56_network are met: some schedule ends, and the verifier has the ciphertext. -/
example : ∃ ops P n V, lmProgram exLm exLmP [true, false] [false, false, true, true] 1 = some ops ∧
    netSessionP exNet 32768 ops (sentBack (sessionCallsV exNet ops)) = some P ∧
    Reach 32768 (netInit 32768 [] P.calls (sessionCallsV exNet ops)) n ∧
    netSessionV exNet ops n.rcv.bits n.rcv.datas n.rcv.digests = some V ∧ V.st.outs = [true, true, false, true] ∧ cheated V.st = false := by
  obtain ⟨ops, ct, P, h1, h2, h3, _, h4⟩ := C56_network exLm (by decide) exLmP exLmP_sized 1 [true, false] [false, false, true, true] rfl rfl
    exNet exNet_good (by decide) (by decide) (by decide) (.inr (by decide)) (S := 32768) (by decide) []
  obtain ⟨_, _, ⟨n, a1, a2, a3⟩, _⟩ := h4 _ .init
  obtain ⟨_, _, _, k⟩ := h4 n a1
  obtain ⟨V, k1, k2, k3, _⟩ := k a2 a3
  have : lmClear exLm exLmP [true, false] [false, false, true, true] 1 = some [true, true, false, true] := by decide
  rw [this, Option.some.injEq] at h2
  exact ⟨ops, P, n, V, h1, h3, a1, k1, by rw [k2, h2], k3⟩

/-- The bytes of that session are accepted, as C56_network_knowledge requires, for every set of odd values of `Delta`. -/
example (D : Finset GF128) (hD : ∀ d ∈ D, lsb d = true) : ∃ ops n, lmProgram exLm exLmP [true, false] [false, false, true, true] 1 = some ops ∧
    ReachAdv 32768 (netInit 32768 [] [] (sessionCallsV (exNet.at exEnv.view 0) ops)) n ∧ n.rops = [] ∧
    (∀ d ∈ D, ∃ V, netSessionV (exNet.at exEnv.view d) ops n.rcv.bits n.rcv.datas n.rcv.digests = some V ∧ cheated V.st = false ∧
      V.st.outs = [true, true, false, true]) ∧
    (∀ d1 ∈ D, ∀ d2 ∈ D, ∀ V1 V2, netSessionV (exNet.at exEnv.view d1) ops n.rcv.bits n.rcv.datas n.rcv.digests = some V1 →
      netSessionV (exNet.at exEnv.view d2) ops n.rcv.bits n.rcv.datas n.rcv.digests = some V2 → V1.st.digest = V2.st.digest) := by
  obtain ⟨suf, _, h⟩ := C56_circuit exLm (by decide) exLmP exLmP_sized 1
  obtain ⟨ct, pl, h1, h2, h3, h4, h5, h6⟩ := h [true, false] [false, false, true, true] rfl rfl
  have hct : lmClear exLm exLmP [true, false] [false, false, true, true] 1 = some [true, true, false, true] := by decide
  rw [hct, Option.some.injEq] at h1
  generalize hq : (([false, false, true, true] : List Bool).map BOp.input ++ ([true, false] : List Bool).map BOp.input ++ suf) = ops at *
  have g1 := exNet_at_good (d := 1) lsb_one
  have := (C76_completes (exNet.at exEnv.view 1) g1 (by decide) (by decide) (by decide) 32768 ops).2
    ⟨by rw [h3]; rfl, by rw [h6]; exact Or.inr (by decide)⟩
  obtain ⟨P, hP⟩ := Option.isSome_iff_exists.1 this
  obtain ⟨c, hr, e1, e2⟩ := C76_finishes _ g1 (S := 32768) (by decide) ops P hP (junk := []) .init
  rw [netSessionP_at, sessionCallsV_at] at hP
  rw [sessionCallsV_at] at hr
  obtain ⟨pl', hpl, hon⟩ := C77_honest exNet exEnv.view (fun d hd => exNet_at_good hd) (by decide) ops P hP hr e1 e2
  rw [h3, Option.some.injEq] at hpl
  subst hpl
  obtain ⟨c', a1, _, a2, a3⟩ := C77_sender hr
  refine ⟨ops, c', h2, a1, by rw [a3, e2], fun d hd => ?_, fun d1 hd1 d2 hd2 V1 V2 w1 w2 => ?_⟩
  · obtain ⟨V, k1, k2, _, k3⟩ := hon d (hD d hd)
    rw [a2]
    exact ⟨V, k1, k3 (by rw [h5]; simp), by rw [k2, h4, h1]⟩
  · obtain ⟨V, k1, _, k2, _⟩ := hon d1 (hD d1 hd1)
    obtain ⟨V', l1, _, l2, _⟩ := hon d2 (hD d2 hd2)
    rw [a2] at w1 w2
    rw [k1, Option.some.injEq] at w1
    rw [l1, Option.some.injEq] at w2
    rw [← w1, ← w2, k2, l2]

end EmpZk
