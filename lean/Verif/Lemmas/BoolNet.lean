/-
Helper lemmas about whole boolean sessions over the byte channel.
-/
import Verif.Spec.BoolNet
import Verif.Lemmas.BoolIO
import Verif.Lemmas.BoolHonest

namespace EmpZk

/-! ### flushes left out -/

/-- A flush directly after `send_data` or `recv_data` on the sending endpoint does nothing. -/
theorem flush_after_data_snd {S : Nat} (hS : 0 < S) (s : SndSt) (hs : s.buf.length < S) (o : SOp)
    (ho : (∃ bs, o = .data bs) ∨ ∃ n, o = .back n) :
    sndFlush S (sndRun S s [o]) = (sndRun S s [o], []) := by
  apply sndFlush_nil
  rcases ho with ⟨bs, rfl⟩ | ⟨n, rfl⟩ <;> exact sndFlush_buf s hs

/-- The same on the receiving endpoint. -/
theorem flush_after_data_rcv (S : Nat) (c c' : Net) (o : ROp) (rest : List ROp) (ho : (∃ n, o = .data n) ∨ ∃ bs, o = .back bs)
    (hc : c.rops = o :: rest) (h : stepR S c = .ok c') : rcvFlush S c'.rcv = c'.rcv := by
  rcases ho with ⟨n, rfl⟩ | ⟨bs, rfl⟩
  · simp only [stepR, hc] at h
    split at h
    · cases h
    · injection h with h; subst h; rfl
  · simp only [stepR, hc] at h
    injection h with h; subst h; rfl

/-! ### digests taken by a sequence of calls -/

/-- The same endpoint with other digests recorded. -/
def SndSt.wd (s : SndSt) (ds : List (List Byte)) : SndSt := ⟨s.buf, s.hashed, ds, s.got⟩

/-- The digests taken during a sequence of calls on the sending endpoint. -/
def newDigs (S : Nat) (s : SndSt) (l : List SOp) : List (List Byte) := (sndRun S (s.wd []) l).digests

theorem wd_wd (s : SndSt) (a b) : (s.wd a).wd b = s.wd b := rfl

theorem newDigs_wd (S : Nat) (s : SndSt) (a) (l : List SOp) : newDigs S (s.wd a) l = newDigs S s l := rfl

theorem sendBit_wd (S : Nat) (s : SndSt) (b : Bool) (ds) :
    sendBit S (s.wd ds) b = ((sendBit S s b).1.wd ds, (sendBit S s b).2) := by
  simp only [sendBit, SndSt.wd]
  by_cases h : (s.buf ++ [b]).length = S
  · simp only [h, if_true]
  · simp only [h, if_false]

theorem sndFlush_wd (S : Nat) (s : SndSt) (ds) :
    sndFlush S (s.wd ds) = ((sndFlush S s).1.wd ds, (sndFlush S s).2) := by
  have : ∀ k (s : SndSt), padLoop S k (s.wd ds) = ((padLoop S k s).1.wd ds, (padLoop S k s).2) := by
    intro k
    induction k with
    | zero => intro s; rfl
    | succ k ih =>
      intro s
      unfold padLoop
      by_cases hb : s.buf = []
      · simp [hb, SndSt.wd]
      · have hb' : ¬ (s.wd ds).buf = [] := hb
        simp only [hb, hb', if_false, sendBit_wd, ih]
  exact this S s

theorem sndRun_wd (S : Nat) (l : List SOp) : ∀ (s : SndSt) ds, sndRun S (s.wd ds) l =
    (sndRun S s l).wd (ds ++ newDigs S s l) := by
  induction l with
  | nil => intro s ds; simp [sndRun, newDigs, SndSt.wd]
  | cons o l ih =>
    intro s ds
    have hh : ∀ (e : List (List Byte)), sndRun S (s.wd e) (.hash :: l) =
        sndRun S (SndSt.wd ⟨(sndFlush S s).1.buf, [], [], (sndFlush S s).1.got⟩ (e ++ [(sndFlush S s).1.hashed])) l := by
      intro e
      simp only [sndRun, sndFlush_wd]
      rfl
    cases o with
    | bit b =>
      have h1 : newDigs S s (.bit b :: l) = newDigs S (sendBit S s b).1 l := by
        simp only [newDigs, sndRun, sendBit_wd]
      simp only [sndRun, h1]
      rw [sendBit_wd, ih]
    | flush =>
      have h1 : newDigs S s (.flush :: l) = newDigs S (sndFlush S s).1 l := by
        simp only [newDigs, sndRun, sndFlush_wd]
      simp only [sndRun, h1]
      rw [sndFlush_wd, ih]
    | data bs =>
      have h1 : newDigs S s (.data bs :: l) = newDigs S (sndFlush S s).1 l := by
        simp only [newDigs, sndRun, sndFlush_wd]
      simp only [sndRun, h1]
      rw [sndFlush_wd, ih]
    | back n =>
      have h1 : newDigs S s (.back n :: l) = newDigs S (sndFlush S s).1 l := by
        simp only [newDigs, sndRun, sndFlush_wd]
      simp only [sndRun, h1]
      rw [sndFlush_wd, ih]
    | hash =>
      have h1 : newDigs S s (.hash :: l) = [(sndFlush S s).1.hashed] ++
          newDigs S ⟨(sndFlush S s).1.buf, [], [], (sndFlush S s).1.got⟩ l := by
        show (sndRun S (s.wd []) (.hash :: l)).digests = _
        rw [hh, ih]; rfl
      have h2 : sndRun S s (.hash :: l) = _ := hh s.digests
      rw [hh, ih, h1, h2, ih]
      simp only [wd_wd, List.append_assoc]

theorem sndRun_new (S : Nat) (s : SndSt) (l : List SOp) : (sndRun S s l).digests = s.digests ++ newDigs S s l := by
  have := sndRun_wd S l s s.digests
  exact congrArg SndSt.digests this

theorem newDigs_append (S : Nat) (s : SndSt) (l l' : List SOp) :
    newDigs S s (l ++ l') = newDigs S s l ++ newDigs S (sndRun S s l) l' := by
  have h := sndRun_new S s (l ++ l')
  rw [sndRun_append, sndRun_new, sndRun_new, List.append_assoc] at h
  exact (List.append_cancel_left h).symm

theorem newDigs_hash (S : Nat) (s : SndSt) : newDigs S s [.hash] = [(sndFlush S s).1.hashed] := by
  simp only [newDigs, sndRun, sndFlush_wd]
  rfl

theorem sndFlush_keeps (S : Nat) (s : SndSt) : (sndFlush S s).1.digests = s.digests :=
  congrArg (fun q : SndSt × List Byte => q.1.digests) (sndFlush_wd S s s.digests)

theorem newDigs_one (S : Nat) (s : SndSt) (o : SOp) (h : o ≠ .hash) : newDigs S s [o] = [] := by
  cases o with
  | hash => exact absurd rfl h
  | bit b => simp only [newDigs, sndRun, sendBit_wd]; rfl
  | flush => simp only [newDigs, sndRun, sndFlush_wd]; rfl
  | data b => simp only [newDigs, sndRun, sndFlush_wd]; rfl
  | back b => simp only [newDigs, sndRun, sndFlush_wd]; rfl

theorem newDigs_length (S : Nat) {l : List SOp} {l' : List ROp} (h : List.Forall₂ Mirror l l') :
    ∀ s, (newDigs S s l).length = rcvDigs l' := by
  induction h with
  | nil => intro s; rfl
  | @cons o r l l' ho hl ih =>
    intro s
    have : o :: l = [o] ++ l := rfl
    rw [this, newDigs_append, List.length_append, ih]
    by_cases hh : o = .hash
    · subst hh
      rw [newDigs_hash]
      cases r <;> simp only [Mirror] at ho
      simp [rcvDigs, Nat.add_comm]
    · rw [newDigs_one S s o hh]
      cases o <;> cases r <;> simp only [Mirror] at ho <;> simp [rcvDigs] <;> exact absurd rfl hh

theorem sentBits_length {l : List SOp} {l' : List ROp} (h : List.Forall₂ Mirror l l') :
    (sentBits l).length = rcvBits l' := by
  induction h with
  | nil => rfl
  | @cons o r l l' ho hl ih =>
    have : o :: l = [o] ++ l := rfl
    rw [this, sentBits_append, List.length_append, ih]
    cases o <;> cases r <;> simp only [Mirror] at ho <;> simp [rcvBits, sentBits, List.countP_cons, Nat.add_comm]

theorem sentData_length {l : List SOp} {l' : List ROp} (h : List.Forall₂ Mirror l l') :
    (sentData l).length = rcvDatas l' := by
  induction h with
  | nil => rfl
  | @cons o r l l' ho hl ih =>
    have : o :: l = [o] ++ l := rfl
    rw [this, sentData_append, List.length_append, ih]
    cases o <;> cases r <;> simp only [Mirror] at ho <;> simp [rcvDatas, sentData, List.countP_cons, Nat.add_comm]

theorem sentBack_length {l : List SOp} {l' : List ROp} (h : List.Forall₂ Mirror l l') :
    (sentBack l').length = sndBacks l := by
  induction h with
  | nil => rfl
  | @cons o r l l' ho hl ih =>
    have : r :: l' = [r] ++ l' := rfl
    rw [this, sentBack_append, List.length_append, ih]
    cases o <;> cases r <;> simp only [Mirror] at ho <;> simp [sndBacks, sentBack, List.countP_cons, Nat.add_comm]

/-! ### calls of the prover -/

section
variable {F : Type} [Field F] [BlockField F]

/-- The session environment with given challenges. -/
def NetEnv.wc (ne : NetEnv F) (chal : Nat → List Bool → Nat → F) : BEnv F := { ne.e with chal := chal }

/-- Counters of the prover. -/
def PrvSt.cnt (s : PrvSt F) : NetCnt := ⟨s.used, s.gates.length, s.polys.length, s.polyBatches⟩
/-- Counters of the verifier. -/
def VerSt.cnt (s : VerSt F) : NetCnt := ⟨s.used, s.gates.length, s.polys.length, s.polyBatches⟩

/-- Calls of the prover during a check of AND gates with answer `a`. -/
def andCallsP (ne : NetEnv F) (c : NetCnt) (a : F × F) : List SOp :=
  [.hash] ++ ne.extP c.used 128 ++ [.data (ne.enc2 a), .flush]
/-- Calls of the prover during a check of statements with answer `a`. -/
def polyCallsP (ne : NetEnv F) (c : NetCnt) (a : F × F) : List SOp :=
  [.back 16] ++ ne.extP c.used 128 ++ [.data (ne.enc2 a)]

/-- Calls of the prover during one instruction. -/
def callsP (ne : NetEnv F) (c : NetCnt) (m : BMsg F) : BOp → List SOp
  | .input _ => ne.extP c.used 1 ++ [.bit m.bit]
  | .and _ _ => (if c.gates = ne.e.checkSz then andCallsP ne c m.ans else []) ++
      (ne.extP (cntRoomA ne c).used 1 ++ [.bit m.bit])
  | .reveal _ => [.bit m.bit]
  | .poly _ => if c.polys ≥ ne.e.polySz ∧ c.polys ≠ 0 then polyCallsP ne c m.ans else []
  | _ => []

/-- Calls of the prover at the end. -/
def finCallsP (ne : NetEnv F) (c : NetCnt) (f : BFin F) : List SOp :=
  (if c.polys ≠ 0 then polyCallsP ne c f.polyAns else []) ++
    ((if c.gates ≠ 0 then andCallsP ne (if c.polys ≠ 0 then c.polyChk else c) f.andAns else []) ++
      [.data (ne.encD f.digest), .flush])

variable {ne : NetEnv F}

theorem NetEnv.Good.enc2_length (hg : ne.Good) (a : F × F) : (ne.enc2 a).length = 32 := by
  simp [NetEnv.enc2, hg.enc_length]

theorem NetEnv.Good.dec2_enc2 (hg : ne.Good) (a : F × F) : ne.dec2 (ne.enc2 a) = a := by
  have h1 := hg.enc_length a.1
  simp only [NetEnv.dec2, NetEnv.enc2]
  rw [← h1, List.take_left', List.drop_left', hg.dec_enc, hg.dec_enc] <;> rfl

theorem andCalls_mirror (hg : ne.Good) (c : NetCnt) (a : F × F) :
    List.Forall₂ Mirror (andCallsP ne c a) (andCallsV ne c) := by
  refine List.rel_append (List.rel_append ?_ (hg.ext _ _)) ?_
  · exact .cons trivial .nil
  · exact .cons ⟨hg.enc2_length a, by decide⟩ (.cons trivial .nil)

theorem polyCalls_mirror (hg : ne.Good) (c : NetCnt) (a : F × F) :
    List.Forall₂ Mirror (polyCallsP ne c a) (polyCallsV ne c) := by
  refine List.rel_append (List.rel_append ?_ (hg.ext _ _)) ?_
  · exact .cons ⟨hg.enc_length _, by decide⟩ .nil
  · exact .cons ⟨hg.enc2_length a, by decide⟩ .nil

theorem calls_mirror (hg : ne.Good) (c : NetCnt) (m : BMsg F) (op : BOp) :
    List.Forall₂ Mirror (callsP ne c m op) (callsV ne c op) := by
  cases op with
  | input b => exact List.rel_append (hg.ext _ _) (.cons trivial .nil)
  | and i j =>
    refine List.rel_append ?_ (List.rel_append (hg.ext _ _) (.cons trivial .nil))
    split
    · exact andCalls_mirror hg c m.ans
    · exact .nil
  | reveal i => exact .cons trivial .nil
  | poly s =>
    simp only [callsP, callsV]
    split
    · exact polyCalls_mirror hg c m.ans
    · exact .nil
  | pub b => exact .nil
  | xor i j => exact .nil
  | not i => exact .nil

theorem finCalls_mirror (hg : ne.Good) (c : NetCnt) (f : BFin F) :
    List.Forall₂ Mirror (finCallsP ne c f) (finCallsV ne c) := by
  refine List.rel_append ?_ (List.rel_append ?_ ?_)
  · split
    · exact polyCalls_mirror hg c f.polyAns
    · exact .nil
  · split
    · exact andCalls_mirror hg _ f.andAns
    · exact .nil
  · exact .cons ⟨hg.encD_length _, by decide⟩ (.cons trivial .nil)

/-! ### the prover on the network and the prover of the message-level model -/

theorem rcotP_eq (hg : ne.Good) {S : Nat} (n : PrvNet F) (used k : Nat) {g : List (List Byte)}
    (h : n.got = sentBack (ne.extV used k) ++ g) :
    n.rcot ne S used k =
      some ⟨n.st, sndRun S n.io (ne.extP used k), n.calls ++ ne.extP used k, g⟩ := by
  have hl := sentBack_length (hg.ext used k)
  unfold PrvNet.rcot
  rw [if_neg (by rw [h, List.length_append]; omega)]
  simp only [PrvNet.call, h, ← hl, List.drop_left]

theorem pnAndCheck_eq (hg : ne.Good) {S : Nat} (n : PrvNet F) {g : List (List Byte)}
    (h : n.got = sentBack (andCallsV ne n.st.cnt) ++ g) (chal : Nat → List Bool → Nat → F)
    (hc : ∀ t, chal n.st.andBatches t = ne.seeds (sndFlush S n.io).1.hashed) :
    pnAndCheck ne S n = (prvAndCheck (ne.wc chal) n.st).map (fun r =>
      ⟨r.1, sndRun S n.io (andCallsP ne n.st.cnt r.2), n.calls ++ andCallsP ne n.st.cnt r.2, g⟩) := by
  have hg' : (n.call S [.hash]).got = sentBack (ne.extV n.st.used 128) ++ g := by
    have : (n.call S [.hash]).got = n.got := rfl
    rw [this, h]
    simp [andCallsV, sentBack_append, PrvSt.cnt, sentBack]
  unfold pnAndCheck
  rw [rcotP_eq hg _ _ _ hg']
  have he : prvAndCheck (ne.env (sndFlush S n.io).1.hashed 0) n.st = prvAndCheck (ne.wc chal) n.st := by
    unfold prvAndCheck
    have e1 : (ne.env (sndFlush S n.io).1.hashed 0).chal n.st.andBatches n.st.transcript =
        (ne.wc chal).chal n.st.andBatches n.st.transcript := (hc _).symm
    rw [e1]; rfl
  simp only [Option.bind_eq_bind, Option.bind_some]
  rw [show (n.call S [.hash]).st = n.st from rfl, he]
  cases prvAndCheck (ne.wc chal) n.st with
  | none => rfl
  | some r =>
    simp only [Option.bind_some, Option.map_some, Option.some.injEq, PrvNet.call, andCallsP, sndRun_append, PrvSt.cnt,
      List.append_assoc]

theorem pnPolyCheck_eq (hg : ne.Good) {S : Nat} (n : PrvNet F) {g : List (List Byte)}
    (h : n.got = sentBack (polyCallsV ne n.st.cnt) ++ g) (chal : Nat → List Bool → Nat → F) :
    pnPolyCheck ne S n = some
      ⟨(prvPolyCheck (ne.wc chal) n.st).1, sndRun S n.io (polyCallsP ne n.st.cnt (prvPolyCheck (ne.wc chal) n.st).2),
        n.calls ++ polyCallsP ne n.st.cnt (prvPolyCheck (ne.wc chal) n.st).2, g⟩ := by
  have hh : n.got = ne.enc (ne.e.polySeed n.st.polyBatches) :: (sentBack (ne.extV n.st.used 128) ++ g) := by
    rw [h]
    simp [polyCallsV, sentBack_append, PrvSt.cnt, sentBack]
  unfold pnPolyCheck
  rw [hh]
  simp only []
  rw [rcotP_eq hg (g := g) _ _ _ rfl]
  have he : prvPolyCheck (ne.env [] (ne.dec (ne.enc (ne.e.polySeed n.st.polyBatches)))) n.st =
      prvPolyCheck (ne.wc chal) n.st := by
    rw [hg.dec_enc]; rfl
  simp only [Option.bind_eq_bind, Option.bind_some, PrvNet.call, he]
  simp only [polyCallsP, sndRun_append, PrvSt.cnt, List.append_assoc]

end

end EmpZk
