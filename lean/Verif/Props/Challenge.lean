/-
Property theorems C73: what the challenge of the AND check depends on.

`BoolIO::get_hash_block` (bool_io.h:39-43) takes the digest of the bits hashed since the previous digest and resets the hash.
The AND check (emp-zk-bool/ostriple.h:144-146) derives all its coefficients from one such digest.  The RAM extension works on the
same `BoolIO` (zk-mem.h:22-28, ro-zk-mem.h and zk-mem-ext.h likewise) and takes digests of its own: in its constructor
(ram-zk/ostriple.h:40-41, svole.h:140-196, spfss_f2k_sender.h:66, spfss_f2k_recver.h:89), in its checks (zk-mem.h:316,
zk-mem-ext.h:259,341, ro-zk-mem.h:210, ram-zk/ostriple.h:199, poly_prdt.h:60,74) and in its destructor (ram-zk/ostriple.h:57-61).
-/
import Verif.Lemmas.BoolAlg
import Verif.Lemmas.BoolSound
import Verif.Lemmas.GF128
import Verif.Props.BoolIO
import Verif.Spec.Challenge
import Mathlib.Data.Fintype.Pigeonhole
import Mathlib.Data.Fintype.Pi
import Mathlib.Data.Fintype.BigOperators

namespace EmpZk

/-! ### C73 -/

/-- C73 (what holds: sessions without other digests). The challenge of a batch check binds the prover to every bit sent since the
previous digest on the channel: if two programs that make the same calls (at most the bits differ) lead to the same digest
contents, then they sent the same bits, in particular the same corrections of AND gates. The bits sent before that previous digest
are not covered (`C73_false`). -/
theorem C73_binding_partial (S : Nat) (hS : 0 < S) (pre l l' : List SOp) (s0 : SndSt) (h0 : s0.buf.length < S)
    (hsh : List.Forall₂ SameShape l l') (hno : SOp.hash ∉ l)
    (heq : (sndRun S s0 (pre ++ [.hash] ++ l ++ [.hash])).digests.getLast? =
      (sndRun S s0 (pre ++ [.hash] ++ l' ++ [.hash])).digests.getLast?) :
    sentBits l = sentBits l' := by
  rw [last_digest, last_digest, sndRun_append, sndRun_append S (pre ++ [SOp.hash]) l', Option.some.injEq] at heq
  have hlt := sndRun_buf hS (pre ++ [.hash]) s0 h0
  exact (C15_binding S hS l l' _ _ hsh hno hlt rfl rfl heq).2.2

/-- Three corrections between two checks, one of them different: the second digest differs. -/
example (b : Bool) (bs : List Byte) :
    (sndRun 8 ⟨[], [], [], []⟩ ([.bit b] ++ [.hash] ++ [.bit true, .data bs, .bit false, .bit true] ++ [.hash])).digests.getLast? ≠
    (sndRun 8 ⟨[], [], [], []⟩ ([.bit b] ++ [.hash] ++ [.bit true, .data bs, .bit true, .bit true] ++ [.hash])).digests.getLast? := by
  intro h
  have := C73_binding_partial 8 (by decide) _ _ _ _ (by decide) (by simp [SameShape]) (by simp) h
  simp [sentBits] at this

/-- C73: a digest taken in between cuts off everything before it. The next digest is a function of the later calls alone: for every
later program there is one byte string which it contains, whatever was sent before. -/
theorem C73_cut_off (S : Nat) (hS : 0 < S) (post : List SOp) :
    ∃ dg, ∀ (pre : List SOp) (s0 : SndSt), s0.buf.length < S →
      (sndRun S s0 (pre ++ [.hash] ++ post ++ [.hash])).digests.getLast? = some dg := by
  refine ⟨(sndFlush S (sndRun S ⟨[], [], [], []⟩ post)).1.hashed, ?_⟩
  intro pre s0 h0
  rw [last_digest, sndRun_append, sndRun_append]
  have hb := sndFlush_buf _ (sndRun_buf hS pre s0 h0)
  have h := (sndRun_congr hS (post ++ [.flush]) (sndRun S (sndRun S s0 pre) [.hash]) ⟨[], [], [], []⟩ (by
    simp only [sndRun, hb]; exact hS) (by simpa only [sndRun] using hb) (by simp only [sndRun])).2
  rw [sndRun_append, sndRun_append] at h
  simpa only [sndRun] using congrArg some h

/-- C73, on the network: in every execution of two endpoints making mirrored calls, under every schedule, the verifier's last digest is
that byte string too. -/
theorem C73_cut_off_network (S : Nat) (hS : 0 < S) (post : List SOp) :
    ∃ dg, ∀ (pre : List SOp) (rops : List ROp) (junk : List Byte) (c : Net),
      List.Forall₂ Mirror (pre ++ [.hash] ++ post ++ [.hash]) rops →
      Reach S (netInit S junk (pre ++ [.hash] ++ post ++ [.hash]) rops) c → c.sops = [] → c.rops = [] →
      c.rcv.digests.getLast? = some dg ∧ c.snd.digests.getLast? = some dg := by
  obtain ⟨dg, h⟩ := C73_cut_off S hS post
  refine ⟨dg, ?_⟩
  intro pre rops junk c hm hr h1 h2
  have hd := C15_same_challenges hS hm hr h1 h2
  obtain ⟨dn, hdn, _, h3⟩ := sndRun_of_reach hS hr
  rw [h1, List.append_nil] at hdn
  subst hdn
  have hs : c.snd.digests.getLast? = some dg := by
    rcases h3 with ⟨_, _, h4⟩ | ⟨⟨n, l, hw⟩, _⟩
    · rw [h4]; exact h pre _ hS
    · rw [h1] at hw; cases hw
  exact ⟨hd ▸ hs, hs⟩

/-- C73, on the network (what holds): two executions with the same calls, in which the verifier's last digest has the same contents, had
the same bits sent since the digest before. -/
theorem C73_binding_network_partial (S : Nat) (hS : 0 < S) (pre l l' : List SOp) (hsh : List.Forall₂ SameShape l l')
    (hno : SOp.hash ∉ l) (rops rops' : List ROp) (junk junk' : List Byte) (c c' : Net)
    (hm : List.Forall₂ Mirror (pre ++ [.hash] ++ l ++ [.hash]) rops)
    (hm' : List.Forall₂ Mirror (pre ++ [.hash] ++ l' ++ [.hash]) rops')
    (hr : Reach S (netInit S junk (pre ++ [.hash] ++ l ++ [.hash]) rops) c) (h1 : c.sops = []) (h2 : c.rops = [])
    (hr' : Reach S (netInit S junk' (pre ++ [.hash] ++ l' ++ [.hash]) rops') c') (h1' : c'.sops = []) (h2' : c'.rops = [])
    (heq : c.rcv.digests.getLast? = c'.rcv.digests.getLast?) : sentBits l = sentBits l' := by
  have hx : ∀ (L : List SOp) (R : List ROp) (J : List Byte) (C : Net), List.Forall₂ Mirror L R → Reach S (netInit S J L R) C →
      C.sops = [] → C.rops = [] → C.rcv.digests = (sndRun S ⟨[], [], [], []⟩ L).digests := by
    intro L R J C a b p q
    rw [← C15_same_challenges hS a b p q]
    obtain ⟨dn, hdn, _, h3⟩ := sndRun_of_reach hS b
    rw [p, List.append_nil] at hdn
    subst hdn
    rcases h3 with ⟨_, _, h4⟩ | ⟨⟨n, t, hw⟩, _⟩
    · exact h4
    · rw [p] at hw; cases hw
  rw [hx _ _ _ _ hm hr h1 h2, hx _ _ _ _ hm' hr' h1' h2'] at heq
  exact C73_binding_partial S hS pre l l' ⟨[], [], [], []⟩ hS hsh hno heq

/-- One correction before and one after a digest, buffers of one bit: the network runs to the end, and the last digest is that of the second
correction alone. -/
example (b : Bool) : ∃ c, Reach 1 (netInit 1 [0#8] [.bit b, .hash, .bit true, .hash] [.bit, .hash, .bit, .hash]) c ∧ c.sops = [] ∧ c.rops = [] ∧
    c.rcv.digests.getLast? = some [1#8] := by
  let n0 := netInit 1 [0#8] [.bit b, .hash, .bit true, .hash] [.bit, .hash, .bit, .hash]
  have hex : ∃ c, Reach 1 n0 c ∧ c.sops = [] ∧ c.rops = [] := by
    cases b <;>
    exact ⟨_, .rcvStep (.rcvStep (.rcvStep (.rcvStep (.sndStep (.sndStep (.sndStep (.sndStep .init rfl) rfl) rfl) rfl) rfl) rfl) rfl) rfl, rfl, rfl⟩
  obtain ⟨c, hr, h1, h2⟩ := hex
  obtain ⟨dg, h⟩ := C73_cut_off_network 1 (by decide) [.bit true]
  have hl := (h [.bit b] [.bit, .hash, .bit, .hash] [0#8] c (by simp [Mirror]) hr h1 h2).1
  refine ⟨c, hr, h1, h2, hl.trans ?_⟩
  have e1 : some dg = some [1#8] := by
    have hex2 : ∃ c, Reach 1 (netInit 1 [0#8] [.bit false, .hash, .bit true, .hash] [.bit, .hash, .bit, .hash]) c ∧ c.sops = [] ∧ c.rops = [] ∧
        c.rcv.digests.getLast? = some [1#8] :=
      ⟨_, .rcvStep (.rcvStep (.rcvStep (.rcvStep (.sndStep (.sndStep (.sndStep (.sndStep .init rfl) rfl) rfl) rfl) rfl) rfl) rfl) rfl, rfl, rfl, rfl⟩
    obtain ⟨c2, hr2, q1, q2, q3⟩ := hex2
    rw [← (h [.bit false] [.bit, .hash, .bit, .hash] [0#8] c2 (by simp [Mirror]) hr2 q1 q2).1, q3]
  exact e1

section
variable {F : Type} [Field F] [BlockField F]

omit [BlockField F] in
/-- `errSum` on a list of error values. -/
def errSumL (errs : List F) (seeds : Nat → F) : List (Nat × Nat) → Nat → F
  | [], _ => 0
  | t :: ts, i => chiSum (seeds i) (taskSlice errs t) + errSumL errs seeds ts (i + 1)

theorem errSum_eq_L (buf : List (Gate F)) (seeds : Nat → F) (ts : List (Nat × Nat)) : ∀ i,
    errSum buf seeds ts i = errSumL (buf.map Gate.err) seeds ts i := by
  induction ts with
  | nil => intro i; rfl
  | cons t ts ih =>
    intro i
    rw [errSum, errSumL, ih]
    simp only [taskSlice, List.map_take, List.map_drop]

omit [BlockField F] in
theorem chiSumFrom_zip (seed : F) : ∀ (a b : List F) (c : F), a.length = b.length →
    chiSumFrom seed c (List.zipWith (· + ·) a b) = chiSumFrom seed c a + chiSumFrom seed c b := by
  intro a
  induction a with
  | nil => intro b c h; cases b with
    | nil => simp [chiSumFrom]
    | cons x b => simp at h
  | cons x a ih =>
    intro b c h
    cases b with
    | nil => simp at h
    | cons y b =>
      simp only [List.length_cons, Nat.add_right_cancel_iff] at h
      simp only [List.zipWith_cons_cons, chiSumFrom, ih b _ h]
      ring

omit [BlockField F] in
theorem errSumL_zip (a b : List F) (h : a.length = b.length) (seeds : Nat → F) (ts : List (Nat × Nat)) : ∀ i,
    errSumL (List.zipWith (· + ·) a b) seeds ts i = errSumL a seeds ts i + errSumL b seeds ts i := by
  induction ts with
  | nil => intro i; simp [errSumL]
  | cons t ts ih =>
    intro i
    have hl : (taskSlice a t).length = (taskSlice b t).length := by simp [taskSlice, h]
    simp only [errSumL, ih]
    have : taskSlice (List.zipWith (· + ·) a b) t = List.zipWith (· + ·) (taskSlice a t) (taskSlice b t) := by
      simp only [taskSlice, List.drop_zipWith, List.take_zipWith]
    rw [this, chiSum, chiSumFrom_zip _ _ _ _ hl, ← chiSum, ← chiSum]
    ring

theorem PreGate.err_gate (g : PreGate F) (wrong : Bool) : (g.gate wrong).err = bit wrong := by
  simp only [Gate.err, PreGate.gate, lsb_setValueInBlock, PreGate.val]
  cases lsb g.left <;> cases lsb g.right <;> cases wrong <;> rfl

theorem PreGate.ver_eq {delta : F} (h : lsb delta = true) (g : PreGate F) (wrong : Bool) :
    g.ver delta (g.corr wrong) = (g.gate wrong).key delta := by
  simp only [PreGate.ver, Gate.key, PreGate.gate, andVer_keyOf h, setValueInBlock_eq, PreGate.corr, Bool.xor_comm]

theorem PreGate.correct_gate (g : PreGate F) (wrong : Bool) : (g.gate wrong).Correct ↔ wrong = false := by
  simp only [Gate.Correct, PreGate.gate, lsb_setValueInBlock, PreGate.val]
  cases lsb g.left <;> cases lsb g.right <;> cases wrong <;> simp

/-- More gates than bits in a block: for fixed coefficients some non-empty set of wrong outputs has error sum zero. -/
theorem exists_null_pattern [Fintype F] (n : Nat) (hn : Fintype.card F < 2 ^ n) (z : List F) (hz : ∀ x ∈ z, x = 0)
    (seeds : Nat → F) (ts : List (Nat × Nat)) :
    ∃ e : List Bool, e.length = n ∧ true ∈ e ∧ errSumL (e.map bit ++ z) seeds ts 0 = 0 := by
  obtain ⟨u, v, hne, heq⟩ := Fintype.exists_ne_map_eq_of_card_lt
    (fun e : Fin n → Bool => errSumL ((List.ofFn e).map bit ++ z) seeds ts 0) (by simpa using hn)
  refine ⟨List.ofFn (fun i => u i ^^ v i), by simp, ?_, ?_⟩
  · obtain ⟨i, hi⟩ := Function.ne_iff.1 hne
    rw [List.mem_ofFn]
    exact ⟨i, by revert hi; cases u i <;> cases v i <;> simp⟩
  · have hzz : List.zipWith (· + ·) z z = z := by
      clear heq
      induction z with
      | nil => rfl
      | cons x z ih =>
        rw [List.zipWith_cons_cons, ih (fun y hy => hz y (by simp [hy])), hz x (by simp), add_zero]
    have : (List.ofFn (fun i => u i ^^ v i)).map (bit (F := F)) ++ z =
        List.zipWith (· + ·) ((List.ofFn u).map bit ++ z) ((List.ofFn v).map bit ++ z) := by
      rw [List.zipWith_append (by simp), hzz]
      congr 1
      apply List.ext_getElem
      · simp
      · intro i h1 h2
        simp [bit_xor]
    rw [this, errSumL_zip _ _ (by simp)]
    rw [show errSumL _ seeds ts 0 = _ from heq, addSelf]

/-- C73 is false for sessions in which something else takes a digest between the gates and their check (as every use of the RAM
extension does). Let the prover know the later part `post` of its own calls (for the check made by `finalize_zk_bool` right after
a RAM object is deleted: no bit at all). Then, whatever hash and generator turn the digest into the coefficients (`seedOf`), and for
any number of threads: among any more than 128 gates evaluated before the digest the prover can commit to at least one wrong output,
send the corresponding corrections, answer the check as the code does, and be accepted for every `Delta` and all masking
correlations. `late` are the gates evaluated after the digest, all correct. -/
theorem C73_false [DecidableEq F] [Fintype F] (S : Nat) (hS : 0 < S) (post : List SOp) (seedOf : List Byte → Nat → F)
    (gs : List (PreGate F)) (hn : Fintype.card F < 2 ^ gs.length) (late : List (Gate F)) (hlate : ∀ g ∈ late, g.Correct)
    (threads : Nat) (hT : 0 < threads) (hle : threads ≤ gs.length + late.length) :
    ∃ dg : List Byte, ∃ wrong : List Bool, wrong.length = gs.length ∧ true ∈ wrong ∧
      (∀ i (h : i < gs.length) (hw : i < wrong.length), (gs[i].gate wrong[i]).Correct ↔ wrong[i] = false) ∧
      (∀ (pre : List SOp) (s0 : SndSt), s0.buf.length < S →
        (sndRun S s0 (pre ++ (List.zipWith PreGate.corr gs wrong).map SOp.bit ++ [.hash] ++ post ++ [.hash])).digests.getLast? = some dg) ∧
      ∀ (delta : F) (ope : Nat → F), lsb delta = true → ∃ ans,
        andCheckPrv (List.zipWith PreGate.gate gs wrong ++ late) threads (seedOf dg) ope = some ans ∧
        andCheckVer delta (List.zipWith (PreGate.ver delta) gs (List.zipWith PreGate.corr gs wrong) ++ late.map (Gate.key delta)) threads
          (seedOf dg) (fun i => keyOf delta (ope i)) ans = some true := by
  obtain ⟨dg, hdg⟩ := C73_cut_off S hS post
  obtain ⟨tasks, hts⟩ := Option.isSome_iff_exists.1 ((splitTasks_isSome (gs.length + late.length) threads).2 ⟨hT, hle⟩)
  obtain ⟨e, hel, het, hsum⟩ := exists_null_pattern gs.length hn (late.map Gate.err)
    (by
      intro x hx
      obtain ⟨g, hg, rfl⟩ := List.mem_map.1 hx
      exact Gate.err_eq_zero (hlate g hg)) (seedOf dg) tasks
  refine ⟨dg, e, hel, het, fun i _ _ => PreGate.correct_gate _ _, fun pre s0 h0 => hdg _ s0 h0, ?_⟩
  intro delta ope hd
  have hlen : (List.zipWith PreGate.gate gs e ++ late).length = gs.length + late.length := by simp [hel]
  have hkeys : List.zipWith (PreGate.ver delta) gs (List.zipWith PreGate.corr gs e) ++ late.map (Gate.key delta) =
      (List.zipWith PreGate.gate gs e ++ late).map (Gate.key delta) := by
    rw [List.map_append]
    congr 1
    apply List.ext_getElem
    · simp
    · intro i h1 h2
      simp [PreGate.ver_eq hd]
  have herr : (List.zipWith PreGate.gate gs e ++ late).map Gate.err = e.map bit ++ late.map Gate.err := by
    rw [List.map_append]
    congr 1
    apply List.ext_getElem
    · simp [hel]
    · intro i h1 h2
      simp [PreGate.err_gate]
  refine ⟨_, by unfold andCheckPrv; rw [hlen, hts], ?_⟩
  rw [hkeys, andCheckVer_keyOf, hlen, hts, Option.map_some, errSum_eq_L, herr, hsum, Option.some.injEq, decide_eq_true_eq]
  ring

/-- The 130 gates `x AND y` with `x = y = 1` of a program that then deletes its RAM object and calls `finalize_zk_bool`: some output 0
is accepted. -/
example (seedOf : List Byte → Nat → GF128) : ∃ wrong : List Bool, wrong.length = 130 ∧ true ∈ wrong ∧
    ∀ delta : GF128, lsb delta = true → ∃ ans,
      andCheckPrv (List.zipWith PreGate.gate (List.replicate 130 (⟨1, 1, 1⟩ : PreGate GF128)) wrong) 1 (seedOf []) (fun _ => 1) = some ans ∧
      andCheckVer delta (List.zipWith (PreGate.ver delta) (List.replicate 130 (⟨1, 1, 1⟩ : PreGate GF128))
        (List.zipWith PreGate.corr (List.replicate 130 (⟨1, 1, 1⟩ : PreGate GF128)) wrong)) 1
        (seedOf []) (fun _ => keyOf delta 1) ans = some true := by
  obtain ⟨dg, wrong, h1, h2, _, h3, h4⟩ := C73_false 8 (by decide) [] seedOf (List.replicate 130 (⟨1, 1, 1⟩ : PreGate GF128))
    (by rw [GF128.card, List.length_replicate]; exact Nat.pow_lt_pow_right (by decide) (by decide)) [] (by simp) 1 (by decide) (by simp)
  have hdg : dg = [] := by
    have h := h3 [] ⟨[], [], [], []⟩ (by decide)
    rw [List.append_nil, last_digest, sndRun_append] at h
    simp only [Option.some.injEq] at h
    have hb := sndFlush_buf (S := 8) (sndRun 8 ⟨[], [], [], []⟩ ([] ++ (List.zipWith PreGate.corr
      (List.replicate 130 (⟨1, 1, 1⟩ : PreGate GF128)) wrong).map SOp.bit)) (sndRun_buf (by decide) _ _ (by decide))
    rw [sndFlush_nil] at h
    · simpa [sndRun] using h.symm
    · simpa only [sndRun] using hb
  subst hdg
  refine ⟨wrong, by simpa using h1, h2, fun delta hd => ?_⟩
  have := h4 delta (fun _ => 1) hd
  simpa only [List.append_nil, List.map_nil] using this

end
end EmpZk
