/-
Property theorems C94: what the challenge of a memory check is computed from.

The rows of a memory are compared by two products at a point `r` which is a hash of what the prover has sent
(extensions/ram-zk/zk-mem.h:312-316): since the last such hash, which may be that of a batch of AND gates (bool_io.h:39-43).
-/
import Verif.Lemmas.RowNet
import Verif.Props.LateInput
import Verif.Props.Rom

namespace EmpZk

section
variable {F : Type} [Field F] [BlockField F] [DecidableEq F]

/-- C94, commitment. Whatever bytes have made the verifier reach the challenge of a memory check, they commit the prover to all wires: one list of
committed wires explains the verifier's keys for every secret. -/
theorem C94_committed (ne : NetEnv F) (v : BView F) (ops : List BOp) {S : Nat} {junk W rest : List Byte} {r : RcvSt}
    (hr : rcvRun S (rcvInit S junk) W (chalCallsV (ne.at v 0) ops) = .ok (r, rest)) {d : F} (hd : lsb d = true) {x : List Byte} {V : VerNet F}
    (h : chalV (ne.at v d) ops r.bits r.datas r.digests = some (x, V)) : ∃ ws, Committed ne v ops r.bits r.datas r.digests x ws := by
  obtain ⟨k1, k2, k3⟩ := rcvRun_counts _ hr
  simp only [rcvInit, List.length_nil, Nat.zero_add] at k1 k2 k3
  let I : Inbox := ⟨r.bits, r.datas, r.digests⟩
  obtain ⟨ms, chal, y, _, _, hv⟩ := chalV_any (ne := ne) (v := v) (ops := ops) (I := I) ⟨le_of_eq k1.symm, le_of_eq k2.symm, le_of_eq k3.symm⟩
  have himg : ∀ d, lsb d = true → ∃ ch, verRun ((v.wc chal).env d) VerSt.init ops ms = (comRun (v.wc chal) ComSt.init ops ms).map (fun c => verImg d c ch) := by
    intro d hd
    obtain ⟨ch, e⟩ := verRun_img (v.wc chal) hd ops ComSt.init [] ms
    rw [verImg_init] at e
    exact ⟨ch, e⟩
  obtain ⟨ch, e⟩ := himg d hd
  have e1 := hv d
  rw [show chalV (ne.at v d) ops I.bits I.datas I.digs = some (x, V) from h, e] at e1
  cases hc : comRun (v.wc chal) ComSt.init ops ms with
  | none => rw [hc] at e1; cases e1
  | some c =>
    rw [hc] at e1
    simp only [Option.map_some, Option.some.injEq, Prod.mk.injEq] at e1
    refine ⟨c.wires, ?_⟩
    intro d' hd'
    obtain ⟨ch', e'⟩ := himg d' hd'
    have e2 := hv d'
    rw [e', hc, Option.map_some, Option.map_some, Option.map_eq_some_iff] at e2
    obtain ⟨⟨x', V'⟩, e3, e4⟩ := e2
    simp only [Prod.mk.injEq] at e4
    exact ⟨V', by rw [e1.1, ← e4.1]; exact e3, by rw [e4.2]; rfl⟩

open Classical in
/-- C94 when no batch of AND gates is checked before the comparison, and the extension of the correlations takes no digests. All strings hashed by
the verifier's endpoint have the same length `L`, and the string determines every row of both lists.  Let the challenge be a random function of the
string.  A prover that evaluates this function at up to `Q` strings of its choice, one after the other, and then sends bytes of its choice, commits
to two lists of `n` rows that differ as multisets and have the same product at the challenge in at most the fraction `(Q + 1) * n / |F|` of all
functions.  Missing: memories for which an AND check takes place between the rows and the challenge (`C94_false`). -/
theorem C94_error_partial [Fintype F] (hF : 2 < Fintype.card F) (ne : NetEnv F) (v : BView F) (ops : List BOp) (rows1 rows2 : List (List Nat))
    (hrows : rows1.length = rows2.length) (S : Nat) (junk : List Byte) (hfit : ops.countP BOp.isAnd ≤ v.checkSz)
    (hext : ∀ u n, rcvDigs (ne.extV u n) = 0) :
    ∃ L, (∀ W r rest, rcvRun S (rcvInit S junk) W (chalCallsV (ne.at v 0) ops) = .ok (r, rest) → ∃ x, r.digests = [x] ∧ x.length = L) ∧
      ∀ (Q : Nat) (P : OTree (Str L) F (List Byte)), P.Asks Q →
        (Finset.univ.filter (fun H => RamCheats P ne v ops rows1 rows2 S junk H)).card * Fintype.card F ≤
          (Q + 1) * rows1.length * Fintype.card (Str L → F) := by
  have hone := chal_one (ne := ne.at v 0) (ops := ops) hfit hext
  have hdig : ∀ {W r rest}, rcvRun S (rcvInit S junk) W (chalCallsV (ne.at v 0) ops) = .ok (r, rest) → ∃ x, r.digests = [x] := by
    intro W r rest hr
    obtain ⟨_, _, k3⟩ := rcvRun_counts _ hr
    rw [hone] at k3
    exact List.length_eq_one_iff.1 k3
  obtain ⟨L, hL⟩ : ∃ L, ∀ W r rest, rcvRun S (rcvInit S junk) W (chalCallsV (ne.at v 0) ops) = .ok (r, rest) →
      ∃ x, r.digests = [x] ∧ x.length = L := by
    by_cases hex : ∃ W r rest, rcvRun S (rcvInit S junk) W (chalCallsV (ne.at v 0) ops) = .ok (r, rest)
    · obtain ⟨W0, r0, rest0, h0⟩ := hex
      obtain ⟨x0, hx0⟩ := hdig h0
      refine ⟨x0.length, ?_⟩
      intro W r rest hr
      obtain ⟨x, hx⟩ := hdig hr
      have := rcvRun_shape _ hr h0 rfl rfl rfl
      rw [hx, hx0] at this
      exact ⟨x, hx, by simpa using this⟩
    · exact ⟨0, fun W r rest hr => absurd ⟨W, r, rest, hr⟩ hex⟩
  refine ⟨L, hL, ?_⟩
  intro Q P hQ
  -- the answers that confuse the rows belonging to a string
  let Of : Str L → List F → List F → Prop := fun x A B => ∃ W r rest ws, rcvRun S (rcvInit S junk) W (chalCallsV (ne.at v 0) ops) = .ok (r, rest) ∧
    r.digests = [x.1] ∧ Committed ne v ops r.bits r.datas r.digests x.1 ws ∧ rowVals ws rows1 = some A ∧ rowVals ws rows2 = some B
  have hof : ∀ {x A B A' B'}, Of x A B → Of x A' B' → A = A' ∧ B = B' := by
    rintro x A B A' B' ⟨W, r, rest, ws, a1, a2, a3, a4, a5⟩ ⟨W', r', rest', ws', b1, b2, b3, b4, b5⟩
    have := Committed.unique hF a1 b1 (a2.trans b2.symm) a3 b3
    subst this
    rw [a4] at b4; rw [a5] at b5
    exact ⟨Option.some.inj b4, Option.some.inj b5⟩
  let bad : Str L → F → Prop := fun x r => ∃ A B, Of x A B ∧ Confused A B r
  have hcard : ∀ x, (Finset.univ.filter (fun r => bad x r)).card ≤ rows1.length := by
    intro x
    rcases Finset.eq_empty_or_nonempty (Finset.univ.filter (fun r => bad x r)) with he | ⟨r0, hr0⟩
    · rw [he]; simp
    obtain ⟨A, B, hAB, hne, _⟩ := (Finset.mem_filter.1 hr0).2
    have hl : A.length = rows1.length ∧ B.length = rows2.length := by
      obtain ⟨_, _, _, _, _, _, _, a4, a5⟩ := hAB
      exact ⟨rowVals_length a4, rowVals_length a5⟩
    rw [← hl.1]
    refine le_trans (Finset.card_le_card ?_) (C47_challenges A B (by rw [hl.1, hl.2, hrows]) hne)
    intro r hr
    obtain ⟨A', B', hAB', _, heq⟩ := (Finset.mem_filter.1 hr).2
    obtain ⟨rfl, rfl⟩ := hof hAB hAB'
    exact Finset.mem_filter.2 ⟨Finset.mem_univ _, heq⟩
  -- the string hashed when the bytes `W` are delivered
  let f : List Byte → Str L := fun W =>
    if h : ∃ x : Str L, ∃ r rest, rcvRun S (rcvInit S junk) W (chalCallsV (ne.at v 0) ops) = .ok (r, rest) ∧ r.digests = [x.1] then h.choose
    else List.Vector.replicate L 0
  have hf : ∀ {W r rest}, rcvRun S (rcvInit S junk) W (chalCallsV (ne.at v 0) ops) = .ok (r, rest) → r.digests = [(f W).1] := by
    intro W r rest hr
    obtain ⟨x, hx, hxl⟩ := hL W r rest hr
    have hex : ∃ x : Str L, ∃ r rest, rcvRun S (rcvInit S junk) W (chalCallsV (ne.at v 0) ops) = .ok (r, rest) ∧ r.digests = [x.1] :=
      ⟨⟨x, hxl⟩, r, rest, hr, hx⟩
    obtain ⟨r', rest', hr', hx'⟩ := hex.choose_spec
    rw [hr] at hr'
    cases hr'
    have : f W = hex.choose := dif_pos hex
    rw [this]; exact hx'
  refine le_trans (Nat.mul_le_mul_right _ (Finset.card_le_card ?_)) (card_hit bad _ hcard P Q hQ f)
  intro H hH
  obtain ⟨r, rest, x, ws, A, B, h1, h2, h3, h4, h5⟩ := (Finset.mem_filter.1 hH).2
  refine Finset.mem_filter.2 ⟨Finset.mem_univ _, ?_⟩
  have hx := hf h1
  -- the string named by the event is the one hashed
  have hxx : x = f (P.run H) := by
    obtain ⟨V, e1, _⟩ := h2 1 lsb_one
    obtain ⟨k1, k2, k3⟩ := rcvRun_counts _ h1
    simp only [rcvInit, List.length_nil, Nat.zero_add] at k1 k2 k3
    obtain ⟨ms, chal, y, _, hy, hv⟩ := chalV_any (ne := ne) (v := v) (ops := ops) (I := ⟨r.bits, r.datas, r.digests⟩)
      ⟨le_of_eq k1.symm, le_of_eq k2.symm, le_of_eq k3.symm⟩
    rw [hext, one_batch_run (ne := ne.at v 0) hext ops _ (by simpa using (show ops.countP BOp.isAnd ≤ (ne.at v 0).e.checkSz from hfit)), hx] at hy
    have e2 := hv 1
    rw [show chalV (ne.at v 1) ops (Inbox.bits ⟨r.bits, r.datas, r.digests⟩) _ _ = some (x.1, V) from e1, Option.map_some] at e2
    obtain ⟨s, _, e3⟩ := Option.map_eq_some_iff.1 e2.symm
    simp only [Prod.mk.injEq] at e3
    simp at hy
    exact Subtype.ext (by rw [← e3.1]; exact hy.symm)
  subst hxx
  exact ⟨A, B, ⟨_, r, rest, ws, h1, hx, h2, h3, h4⟩, h5⟩

end

section
variable {F : Type} [Field F] [PackField F] [DecidableEq F]

/-- C94 is false. The program of `rowProg` gives `2 m` bits, the contents of `m` addresses in two lists of rows (`addrRows`), and computes one AND
gate more than fits into a batch before the lists are compared.  With more than 128 addresses a prover has calls to make (the same calls as the
honest prover, other contents) by which the verifier reaches the challenge without complaint, whatever its secret, the hash function `H` behind
the challenge, the generator behind the coefficients of the AND check (`ne.seeds`), the number of threads, the junk in the buffers and the
interleaving, and which commit it to two different lists of rows with the same product at the challenge.  (The calls end with a flush on both
sides: what follows the challenge waits for it.) -/
theorem C94_false [Fintype F] (ne : NetEnv F) (v : BView F) (hg : ∀ d, lsb d = true → (ne.at v d).Good) {S : Nat} (hS : 0 < S) (m : Nat)
    (hm : Fintype.card F < 2 ^ m) (hm' : m ≤ 2 ^ 127) (ht : 0 < v.threads) (htc : v.threads ≤ v.checkSz) (H : List Byte → F) :
    ∃ sops : List SOp,
      (∀ junk, ∃ c, Reach S (netInit S junk (sops ++ [.flush]) (chalCallsV (ne.at v 0) (rowProg m v.checkSz) ++ [.flush])) c ∧
        c.sops = [] ∧ c.rops = []) ∧
      ∀ junk c, Reach S (netInit S junk (sops ++ [.flush]) (chalCallsV (ne.at v 0) (rowProg m v.checkSz) ++ [.flush])) c →
        c.sops = [] → c.rops = [] → ∃ x ws A B,
        Committed ne v (rowProg m v.checkSz) c.rcv.bits c.rcv.datas c.rcv.digests x ws ∧
        (∀ d, lsb d = true → ∃ V, chalV (ne.at v d) (rowProg m v.checkSz) c.rcv.bits c.rcv.datas c.rcv.digests = some (x, V) ∧ V.st.cheats = []) ∧
        rowVals ws (addrRows m 0) = some A ∧ rowVals ws (addrRows m m) = some B ∧ Confused A B (H x) := by
  have hg1 := hg 1 lsb_one
  have hcs : ∀ d, (ne.at v d).e.checkSz = v.checkSz := fun _ => rfl
  -- the string behind the challenge, known beforehand
  let dg2 := (sndFlush S (sndRun S ⟨[], [], [], []⟩ (rowTail (ne.at v 1) v m 0))).1.hashed
  obtain ⟨a, hconf⟩ := exists_confused (F := F) m hm hm' (H dg2)
  -- the answer to the check of the first batch
  let io0 := sndRun S ⟨[], [], [], []⟩ (ne.extP 0 1)
  let dg1 := (sndFlush S (sndRun S io0 (runCallsP (ne.at v 1) ⟨1, 0, 0, 0⟩ (rowEarly m v.checkSz) (rowMsgs v m v.checkSz a)))).1.hashed
  obtain ⟨ans0, tl, hacc⟩ := row_accepts (F := F) (v.wc (fun _ _ => ne.seeds dg1)) m a ht htc (ne.seeds dg1) (fun _ => rfl)
  let ms := rowMsgs v m v.checkSz a ++ [turnMsg v (2 * m) v.checkSz ans0]
  have hl : ms.length = (rowProg m v.checkSz).length := by simp [ms, rowMsgs, rowProg, rowEarly]
  let calls (d : F) : List SOp := ne.extP 0 1 ++ (runCallsP (ne.at v d) ⟨1, 0, 0, 0⟩ (rowProg m v.checkSz) ms ++ [.flush, .hash])
  have hcalls : ∀ d, calls d = calls 1 := fun d => by simp only [calls, runCallsP_at _ _ _ d]
  have hmir : ∀ d : F, lsb d = true → List.Forall₂ Mirror (calls 1 ++ [.flush]) (chalCallsV (ne.at v 0) (rowProg m v.checkSz) ++ [.flush]) := by
    intro d hd
    rw [← chalCallsV_at d, ← hcalls d]
    exact List.rel_append (List.rel_append ((hg d hd).ext 0 1) (List.rel_append (runCalls_mirror (hg d hd) _ _ _ hl) (show List.Forall₂ Mirror [.flush, .hash] [.flush, .hash] from .cons trivial (.cons trivial .nil))))
      (.cons trivial .nil)
  refine ⟨calls 1, fun junk => mirror_finishes hS (hmir (1 : F) (lsb_one (F := F))) .init, ?_⟩
  intro junk c hr h1 h2
  have hm2 := hmir (1 : F) (lsb_one (F := F))
  obtain ⟨f1, f2, _, _, _⟩ := C14_fifo hS hm2 hr h1 h2
  have hdd := C15_same_challenges hS hm2 hr h1 h2
  have hdig : c.rcv.digests = (sndRun S ⟨[], [], [], []⟩ (calls 1 ++ [.flush])).digests := by
    obtain ⟨dn, e1, _, e2 | e2⟩ := sndRun_of_reach hS hr
    · rw [h1, List.append_nil] at e1
      rw [← hdd, e2.2.2, ← e1]
    · obtain ⟨⟨n, l, e3⟩, _⟩ := e2
      rw [h1] at e3; cases e3
  rw [sndRun_new, List.nil_append] at hdig
  have hlast : ∀ d, newDigs S (sndRun S io0 (runCallsP (ne.at v d) ⟨1, 0, 0, 0⟩ (rowProg m v.checkSz) ms)) [.flush, .hash] = [dg2] := by
    intro d
    have e := row_digest (ne := ne.at v d) S hS v m ans0
      (sndRun S io0 (runCallsP (ne.at v d) ⟨1, 0, 0, 0⟩ (rowEarly m v.checkSz) (rowMsgs v m v.checkSz a)))
      (sndRun_buf hS _ _ (sndRun_buf hS _ _ hS))
    have hc := row_calls (ne := ne.at v d) v m a ans0
    rw [hcs] at hc
    rw [← sndRun_append] at e
    rw [show runCallsP (ne.at v d) ⟨1, 0, 0, 0⟩ (rowProg m v.checkSz) ms = _ from hc, e]
    rfl
  have key : ∀ d, lsb d = true → ∃ V, chalV (ne.at v d) (rowProg m v.checkSz) c.rcv.bits c.rcv.datas c.rcv.digests = some (dg2, V) ∧
      V.st.cheats = [] ∧ V.st.wires = (rowWires v m a ++ tl).map (keyOf d) := by
    intro d hd
    obtain ⟨V, k1, k2, k3⟩ := hacc d hd
    have hF : Feed S ⟨[], [], [], []⟩ (calls d ++ [.flush]) (⟨VerSt.init, c.rcv.bits, c.rcv.datas, c.rcv.digests, []⟩ : VerNet F) [] [] [] := by
      rw [hcalls d]
      exact ⟨by rw [List.append_nil]; exact f1, by rw [List.append_nil]; exact f2, by rw [List.append_nil]; exact hdig⟩
    rw [show calls d ++ [.flush] = ne.extP 0 1 ++ (runCallsP (ne.at v d) ⟨1, 0, 0, 0⟩ (rowProg m v.checkSz) ms ++ ([.flush, .hash] ++ [.flush])) by
      simp only [calls, List.append_assoc]] at hF
    have e0 := rcotV_eq (hg d hd) (⟨VerSt.init, c.rcv.bits, c.rcv.datas, c.rcv.digests, []⟩ : VerNet F) 0 1 hF.append
    have hF2 : Feed S io0 (runCallsP (ne.at v d) ⟨1, 0, 0, 0⟩ (rowProg m v.checkSz) ms ++ ([.flush, .hash] ++ [.flush]))
      (⟨VerSt.init, _, _, _, [] ++ ne.extV 0 1⟩ : VerNet F) [] [] [] := ⟨rfl, rfl, rfl⟩
    have hrd := row_runDigs (ne := ne.at v d) S v m a ans0 io0
    rw [hcs, runCallsP_at _ _ _ d] at hrd
    obtain ⟨t1, _⟩ := msg_run (hg d hd) (S := S) (rowProg m v.checkSz) ms io0 ⟨VerSt.init, _, _, _, [] ++ ne.extV 0 1⟩ _ _ _
      (fun _ _ => ne.seeds dg1) hl (by
        intro i dg hi t
        have hi' : (runDigs (ne.at v d) S io0 ⟨1, 0, 0, 0⟩ (rowProg m v.checkSz) ms)[i]? = some dg := hi
        rw [show runDigs (ne.at v d) S io0 ⟨1, 0, 0, 0⟩ (rowProg m v.checkSz) ms = [dg1] from hrd] at hi'
        rcases i with _ | i
        · simp only [List.getElem?_cons_zero, Option.some.injEq] at hi'
          rw [← hi']; rfl
        · simp at hi') hF2.append
    rw [show verRun ((ne.at v d).wc (fun _ _ => ne.seeds dg1)) (VerSt.init : VerSt F) (rowProg m v.checkSz) ms = some V from k1, Option.map_some] at t1
    have hdg : newDigs S (sndRun S io0 (runCallsP (ne.at v d) ⟨1, 0, 0, 0⟩ (rowProg m v.checkSz) ms)) ([.flush, .hash] ++ [.flush]) ++ [] = [dg2] := by
      rw [newDigs_append, hlast d, newDigs_one _ _ _ (by simp)]
      rfl
    refine ⟨?_, ?_, ?_, ?_⟩
    rotate_left
    · rw [chalV, e0]
      simp only [Option.bind_eq_bind, Option.bind_some]
      refine Eq.trans (congrArg (fun o : Option (VerNet F) => o.bind _) t1) ?_
      simp only [Option.bind_some, VerNet.hash]
      rw [hdg]
    · exact k2
    · exact k3
  refine ⟨dg2, rowWires v m a ++ tl, _, _, ?_, ?_, rowVals_addr v m 0 a tl (by omega), rowVals_addr v m m a tl (by omega), hconf⟩
  · intro d hd
    obtain ⟨V, k1, _, k3⟩ := key d hd
    exact ⟨V, k1, k3⟩
  · intro d hd
    obtain ⟨V, k1, k2, _⟩ := key d hd
    exact ⟨V, k1, k2⟩

end
/-- Messages of any contents take the verifier to the challenge. -/
theorem chal_reached {F : Type} [Field F] [BlockField F] (ne : NetEnv F) (v : BView F) (hg : (ne.at v 1).Good) {S : Nat} (hS : 0 < S) (ops : List BOp)
    (ms : List (BMsg F)) (hl : ms.length = ops.length) (junk : List Byte) :
    ∃ W r rest, rcvRun S (rcvInit S junk) W (chalCallsV (ne.at v 0) ops) = .ok (r, rest) := by
  let calls : List SOp := ne.extP 0 1 ++ (runCallsP (ne.at v 1) ⟨1, 0, 0, 0⟩ ops ms ++ [.flush, .hash])
  have hm : List.Forall₂ Mirror (calls ++ [.flush]) (chalCallsV (ne.at v 0) ops ++ [.flush]) := by
    rw [← chalCallsV_at 1]
    exact List.rel_append (List.rel_append (hg.ext 0 1) (List.rel_append (runCalls_mirror hg _ _ _ hl)
      (show List.Forall₂ Mirror [.flush, .hash] [.flush, .hash] from .cons trivial (.cons trivial .nil)))) (.cons trivial .nil)
  obtain ⟨c, hr, e1, e2⟩ := mirror_finishes hS hm (junk := junk) .init
  obtain ⟨c', a1, _, _, a3⟩ := C77_sender hr
  obtain ⟨dn, W, b1, b2⟩ := reachAdv_run a1
  rw [a3, e2, List.append_nil] at b1
  have hrops : chalCallsV (ne.at v 0) ops ++ [.flush] = dn := b1
  subst hrops
  obtain ⟨q, w, h1, _⟩ := (rcvRun_append_ok _ _).1 b2
  exact ⟨W, q, w, h1⟩

open Classical in
/-- C94_committed, C94_error_partial: their hypotheses are met by two inputs and their conjunction over the block field, with rows made of these
wires; the verifier does reach the challenge and the prover is committed; a prover which evaluates the function at 2^60 strings is committed to
confused rows for less than the fraction 2^-66 of the functions. -/
example : (∃ W r rest x ws, rcvRun 32768 (rcvInit 32768 []) W (chalCallsV (exNet.at { exEnv.view with checkSz := 4, threads := 2 } 0)
      [.input true, .input false, .and 0 1]) = .ok (r, rest) ∧
      Committed exNet { exEnv.view with checkSz := 4, threads := 2 } [.input true, .input false, .and 0 1] r.bits r.datas r.digests x ws) ∧
    ∃ L, ∀ (P : OTree (Str L) GF128 (List Byte)), P.Asks (2 ^ 60) →
      (Finset.univ.filter (fun H => RamCheats P exNet { exEnv.view with checkSz := 4, threads := 2 } [.input true, .input false, .and 0 1]
        [[0, 1], [2, 2]] [[1, 0], [2, 2]] 32768 [] H)).card * 2 ^ 66 ≤ Fintype.card (Str L → GF128) := by
  constructor
  · have hg : (exNet.at { exEnv.view with checkSz := 4, threads := 2 } 1).Good := { exNet_good with e := ⟨lsb_one, fun n => lsb_keyOf lsb_one _⟩ }
    obtain ⟨W, r, rest, hr⟩ := chal_reached exNet { exEnv.view with checkSz := 4, threads := 2 } hg (S := 32768) (by norm_num)
      [.input true, .input false, .and 0 1] [⟨true, 0, 0⟩, ⟨true, 0, 0⟩, ⟨true, 0, 0⟩] rfl []
    obtain ⟨k1, k2, k3⟩ := rcvRun_counts _ hr
    simp only [rcvInit, List.length_nil, Nat.zero_add] at k1 k2 k3
    obtain ⟨ms, chal, y, hl, _, hv⟩ := chalV_any (ne := exNet) (v := { exEnv.view with checkSz := 4, threads := 2 }) (I := ⟨r.bits, r.datas, r.digests⟩)
      ⟨le_of_eq k1.symm, le_of_eq k2.symm, le_of_eq k3.symm⟩
    match ms, hl with
    | [m1, m2, m3], _ =>
      obtain ⟨ch, e⟩ := verRun_img (BView.wc { exEnv.view with checkSz := 4, threads := 2 } chal) (lsb_one : lsb (1 : GF128) = true)
        [.input true, .input false, .and 0 1] ComSt.init [] [m1, m2, m3]
      rw [verImg_init] at e
      have h1 := hv 1
      rw [e] at h1
      simp only [comRun, comStep, ComSt.init, Option.bind_eq_bind, Option.bind_some, comAndRoom, comAndPush, BView.wc, List.nil_append,
        List.length_nil, List.length_cons, List.cons_append, List.getElem?_cons_zero, List.getElem?_cons_succ, Nat.reduceEqDiff, if_false,
        Nat.reduceLT, Nat.reduceLeDiff, if_true, Option.map_some] at h1
      obtain ⟨⟨x, V⟩, h2, _⟩ := Option.map_eq_some_iff.1 h1
      obtain ⟨ws, hws⟩ := C94_committed exNet _ _ hr lsb_one h2
      exact ⟨W, r, rest, x, ws, hr, hws⟩
  · obtain ⟨L, _, h⟩ := C94_error_partial (F := GF128) (by rw [GF128.card]; norm_num) exNet { exEnv.view with checkSz := 4, threads := 2 }
      [.input true, .input false, .and 0 1] [[0, 1], [2, 2]] [[1, 0], [2, 2]] rfl 32768 [] (by decide)
      (by intro u n; show rcvDigs (if u % 5 = 0 then _ else _) = 0; split <;> rfl)
    refine ⟨L, ?_⟩
    intro P hP
    have := h (2 ^ 60) P hP
    rw [GF128.card] at this
    exact rom_arith _ _ (this.trans (Nat.mul_le_mul_right _ (by norm_num)))

/-- C94_false: its hypotheses are met by the block field, batches of 1000 gates, three threads and 129 addresses. -/
example (H : List Byte → GF128) : ∃ sops : List SOp, ∀ junk c,
    Reach 32768 (netInit 32768 junk (sops ++ [.flush])
      (chalCallsV (exNet.at { exEnv.view with checkSz := 1000, threads := 3 } 0) (rowProg 129 1000) ++ [.flush])) c →
    c.sops = [] → c.rops = [] → ∃ x ws A B,
      Committed exNet { exEnv.view with checkSz := 1000, threads := 3 } (rowProg 129 1000) c.rcv.bits c.rcv.datas c.rcv.digests x ws ∧
      rowVals ws (addrRows 129 0) = some A ∧ rowVals ws (addrRows 129 129) = some B ∧ Confused A B (H x) := by
  obtain ⟨sops, _, h⟩ := C94_false exNet { exEnv.view with checkSz := 1000, threads := 3 }
    (fun d hd => { exNet_good with e := ⟨hd, fun n => lsb_keyOf hd _⟩ }) (S := 32768) (by norm_num) 129
    (by rw [GF128.card]; norm_num) (by norm_num) (by norm_num) (by norm_num) H
  refine ⟨sops, fun junk c hr h1 h2 => ?_⟩
  obtain ⟨x, ws, A, B, a1, _, a3⟩ := h junk c hr h1 h2
  exact ⟨x, ws, A, B, a1, a3⟩

end EmpZk
