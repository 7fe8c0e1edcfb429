/-
The prover of `Verif.Model.BoolProc` and the prover of `Verif.Model.BoolNet` are the same party.
-/
import Verif.Lemmas.BoolView
import Verif.Lemmas.BoolIO

namespace EmpZk

/-- A program with correlations `c` from number `i` on, whose receives return the strings `got`. -/
inductive CProg.Goes {C α : Type} (c : Nat → C) : Nat → CProg C α → List (List Byte) → Nat → List (List Byte) → List Byte → α → Prop where
  | done (i : Nat) (a : α) (g) : Goes c i (.done a) g i g [] a
  | send (bs : List Byte) {i j : Nat} {k : CProg C α} {g g' o a} (h : Goes c i k g j g' o a) : Goes c i (.send bs k) g j g' (bs ++ o) a
  | recv (n : Nat) (b : List Byte) {i j : Nat} {k : List Byte → CProg C α} {g g' o a} (h : Goes c i (k b) g j g' o a) :
      Goes c i (.recv n k) (b :: g) j g' o a
  | cor {i j : Nat} {k : C → CProg C α} {g g' o a} (h : Goes c (i + 1) (k (c i)) g j g' o a) : Goes c i (.cor k) g j g' o a

namespace CProg
variable {C α β : Type} {c : Nat → C}

theorem Goes.bind {i j j' : Nat} {p : CProg C α} {f : α → CProg C β} {g g' g'' : List (List Byte)} {o o' : List Byte} {a : α} {b : β}
    (h : Goes c i p g j g' o a) (h2 : Goes c j (f a) g' j' g'' o' b) : Goes c i (p.bind f) g j' g'' (o ++ o') b := by
  induction h with
  | done i a g => exact h2
  | send bs _ ih => rw [List.append_assoc]; exact .send bs (ih h2)
  | recv n b _ ih => exact .recv n b (ih h2)
  | cor _ ih => exact .cor (ih h2)

theorem Goes.does {i j : Nat} {p : CProg C α} {g g' : List (List Byte)} {o : List Byte} {a : α} (h : Goes c i p g j g' o a) :
    (p.given (fun k => c (i + k))).Does g g' o a := by
  induction h with
  | done i a g => exact .done a g
  | send bs _ ih => exact .send bs ih
  | recv n b _ ih => exact .recv n b ih
  | @cor i _ _ _ _ _ _ _ ih =>
    have e : (fun k => c (i + 1 + k)) = fun k => c (i + (k + 1)) := by funext k; congr 1; omega
    rw [e] at ih
    exact ih

theorem goes_askN (i n : Nat) (g : List (List Byte)) : Goes c i (askN n) g (i + n) g [] ((List.range n).map fun k => c (i + k)) := by
  induction n with
  | zero => exact .done i _ g
  | succ n ih =>
    have h2 : Goes c (i + n) (CProg.bind (CProg.cor .done) fun x => .done (((List.range n).map fun k => c (i + k)) ++ [x])) g (i + (n + 1)) g []
        ((List.range (n + 1)).map fun k => c (i + k)) := by
      rw [List.range_succ, List.map_append]
      exact .cor (.done _ _ _)
    exact ih.bind h2

end CProg

section
variable {S : Nat}

theorem sndWire_append (io : SndSt) (l l' : List SOp) : sndWire S io (l ++ l') = sndWire S io l ++ sndWire S (sndRun S io l) l' := by
  induction l generalizing io with
  | nil => rfl
  | cons o l ih =>
    cases o <;> simp only [List.cons_append, sndWire, List.append_assoc] <;> rw [ih] <;> rfl

end

section
variable {F : Type} [Field F] [BlockField F] {S : Nat} {c : Nat → F}

theorem goes_bcalls (l : List SOp) : ∀ (i : Nat) (io : SndSt) (g : List (List Byte)), sndBacks l ≤ g.length →
    CProg.Goes c i (bcalls S io l) g i (g.drop (sndBacks l)) (sndWire S io l) (sndRun S io l) := by
  induction l with
  | nil => intro i io g _; exact .done _ _ _
  | cons o l ih =>
    intro i io g hg
    cases o with
    | bit b => exact .send _ (ih i _ g (by simpa [sndBacks] using hg))
    | flush => exact .send _ (ih i _ g (by simpa [sndBacks] using hg))
    | data bs => exact .send _ (ih i _ g (by simpa [sndBacks] using hg))
    | hash => exact .send _ (ih i _ g (by simpa [sndBacks] using hg))
    | back n =>
      have e : sndBacks (SOp.back n :: l) = sndBacks l + 1 := by simp [sndBacks]
      rw [e] at hg ⊢
      cases g with
      | nil => simp at hg
      | cons b g => exact .send _ (.recv n b (ih i _ g (by simpa using hg)))

theorem goes_brcot (ne : NetEnv F) {st : PrvSt F} {io : SndSt} {k : Nat} {N N' : PrvNet F} (hN : PrvNet.rcot ne S N st.used k = some N')
    (hio : N.io = io) (i : Nat) :
    N'.st = N.st ∧ N'.calls = N.calls ++ ne.extP st.used k ∧ N'.io = sndRun S io (ne.extP st.used k) ∧
    CProg.Goes c i (brcot ne S ⟨st, io⟩ k) N.got (i + k) N'.got (sndWire S io (ne.extP st.used k))
      (⟨st, N'.io⟩, (List.range k).map fun j => c (i + j)) := by
  subst hio
  unfold PrvNet.rcot at hN
  split at hN
  · simp at hN
  rename_i hlt
  obtain rfl := Option.some.inj hN
  refine ⟨rfl, rfl, rfl, ?_⟩
  rw [← List.append_nil (sndWire S N.io _)]
  refine (goes_bcalls (c := c) (ne.extP st.used k) i N.io N.got (by omega)).bind ?_
  rw [← List.append_nil []]
  exact (CProg.goes_askN i k _).bind (CProg.Goes.done _ _ _)

theorem goes_callsEnd (l : List SOp) (hl : sndBacks l = 0) (s : PrvSt F) (i : Nat) (io : SndSt) (g : List (List Byte)) :
    CProg.Goes c i ((bcalls S io l).bind fun io => .done (⟨s, io⟩ : BPrv F)) g i g (sndWire S io l) ⟨s, sndRun S io l⟩ := by
  rw [← List.append_nil (sndWire S io _)]
  have h := goes_bcalls (S := S) (c := c) l i io g (by omega)
  rw [hl, List.drop_zero] at h
  exact h.bind (CProg.Goes.done _ _ _)

/-- A prover of `BoolNet` from `n` to `n'` and the program `p` from the same state. -/
def SamePrv (ne : NetEnv F) (S : Nat) (n n' : PrvNet F) (p : CProg F (BPrv F)) : Prop :=
  ∃ l, n'.calls = n.calls ++ l ∧ n'.io = sndRun S n.io l ∧
    CProg.Goes ne.e.mac n.st.used p n.got n'.st.used n'.got (sndWire S n.io l) ⟨n'.st, n'.io⟩

variable {ne : NetEnv F}

theorem SamePrv.refl (n : PrvNet F) : SamePrv ne S n n (pure ⟨n.st, n.io⟩) := ⟨[], by simp, rfl, .done _ _ _⟩

theorem SamePrv.bind {n n1 n2 : PrvNet F} {p : CProg F (BPrv F)} {f : BPrv F → CProg F (BPrv F)} (h : SamePrv ne S n n1 p)
    (h2 : SamePrv ne S n1 n2 (f ⟨n1.st, n1.io⟩)) : SamePrv ne S n n2 (p.bind f) := by
  obtain ⟨l, h1, h3, h4⟩ := h
  obtain ⟨l', h1', h3', h4'⟩ := h2
  refine ⟨l ++ l', by rw [h1', h1, List.append_assoc], by rw [h3', h3, sndRun_append], ?_⟩
  rw [sndWire_append, ← h3]
  exact h4.bind h4'

theorem withMacs_same (e : BEnv F) (m : BEnv F) (used n k : Nat) (hk : k < n) :
    (m.withMacs used ((List.range n).map fun j => e.mac (used + j))).mac (used + k) = e.mac (used + k) := by
  simp only [BEnv.mac, BEnv.withMacs, sel, Bool.false_eq_true, if_false, add_zero, Nat.add_sub_cancel_left]
  rw [List.getD_eq_getElem?_getD, List.getElem?_map, List.getElem?_range hk, Option.map_some, Option.getD_some]

end

section
variable {F : Type} [Field F] [PackField F] {S : Nat} {ne : NetEnv F}

theorem prvAndCheck_same (d : List Byte) (s : PrvSt F) :
    prvAndCheck ((ne.env d 0).withMacs s.used ((List.range 128).map fun j => ne.e.mac (s.used + j))) s = prvAndCheck (ne.env d 0) s := by
  have ep := packBlocks_congr (F := F) (fun k hk => withMacs_same ne.e (ne.env d 0) s.used 128 k hk)
  have el := packLsbs_congr (F := F) (fun k hk => withMacs_same ne.e (ne.env d 0) s.used 128 k hk)
  rw [prvAndCheck_map, prvAndCheck_map, ep, el]
  rfl

theorem prvPolyCheck_same (sd : F) (s : PrvSt F) :
    prvPolyCheck ((ne.env [] sd).withMacs s.used ((List.range 128).map fun j => ne.e.mac (s.used + j))) s = prvPolyCheck (ne.env [] sd) s := by
  have ep := packBlocks_congr (F := F) (fun k hk => withMacs_same ne.e (ne.env [] sd) s.used 128 k hk)
  have el := packLsbs_congr (F := F) (fun k hk => withMacs_same ne.e (ne.env [] sd) s.used 128 k hk)
  unfold prvPolyCheck polyCheckPrv
  rw [ep, el]
  rfl

theorem same_andCheck {n n' : PrvNet F} (h : pnAndCheck ne S n = some n') : SamePrv ne S n n' (bAndCheck ne S ⟨n.st, n.io⟩) := by
  simp only [pnAndCheck, Option.bind_eq_bind, Option.bind_eq_some_iff, Option.some.injEq] at h
  obtain ⟨n1, h1, r, h2, rfl⟩ := h
  obtain ⟨hs, hc, hi, hg⟩ := goes_brcot (c := ne.e.mac) ne (st := n.st) h1 rfl n.st.used
  have hs' : n1.st = n.st := hs
  rw [hs'] at h2
  have hu : r.1.used = n.st.used + 128 := by
    rw [prvAndCheck_map] at h2
    cases hsp : splitTasks n.st.gates.length (ne.env (sndFlush S n.io).1.hashed 0).threads <;> rw [hsp] at h2 <;> simp at h2
    rw [← h2]
  refine ⟨[.hash] ++ (ne.extP n.st.used 128 ++ [.data (ne.enc2 r.2), .flush]), ?_, ?_, ?_⟩
  · simp only [PrvNet.call, hc, List.append_assoc]
  · simp only [PrvNet.call, hi, sndRun_append]
  · rw [sndWire_append, sndWire_append]
    have e0 : sndRun S n.io [.hash] = (n.call S [.hash]).io := rfl
    have hw : sndWire S n.io [.hash] = (sndFlush S n.io).2 ++ [] := rfl
    rw [hw]
    refine CProg.Goes.bind (p := bcall S n.io .hash) (.send _ (.done _ _ _)) ?_
    refine CProg.Goes.bind hg ?_
    show CProg.Goes _ _ ((CProg.ofOpt (prvAndCheck _ n.st)).bind _) _ _ _ _ _
    simp only
    rw [prvAndCheck_same, h2]
    show CProg.Goes _ _ ((bcalls S n1.io [.data (ne.enc2 r.2), .flush]).bind _) _ _ _ _ _
    have h3 := goes_callsEnd (S := S) (c := ne.e.mac) [.data (ne.enc2 r.2), .flush] rfl r.1 (n.st.used + 128) n1.io n1.got
    rw [e0, ← hi]
    show CProg.Goes _ _ _ _ r.1.used _ _ _
    rw [hu]
    exact h3

theorem same_polyCheck {n n' : PrvNet F} (h : pnPolyCheck ne S n = some n') : SamePrv ne S n n' (bPolyCheck ne S ⟨n.st, n.io⟩) := by
  unfold pnPolyCheck at h
  cases hgot : n.got with
  | nil => simp only [hgot] at h; simp at h
  | cons sd g =>
    simp only [hgot, Option.bind_eq_bind, Option.bind_eq_some_iff, Option.some.injEq] at h
    obtain ⟨n1, h1, rfl⟩ := h
    obtain ⟨hs, hc, hi, hg⟩ := goes_brcot (c := ne.e.mac) ne (st := n.st) h1 rfl n.st.used
    have hs' : n1.st = n.st := hs
    rw [hs']
    refine ⟨[.back 16] ++ (ne.extP n.st.used 128 ++ [.data (ne.enc2 (prvPolyCheck (ne.env [] (ne.dec sd)) n.st).2)]), ?_, ?_, ?_⟩
    · simp only [PrvNet.call, hc, List.append_assoc]
    · simp only [PrvNet.call, hi, sndRun_append]
    · rw [sndWire_append, sndWire_append]
      have e0 : sndRun S n.io [.back 16] = (n.call S [.back 16]).io := rfl
      have hw : sndWire S n.io [.back 16] = (sndFlush S n.io).2 ++ [] := rfl
      rw [hw, hgot]
      refine CProg.Goes.bind (p := bcall S n.io (.back 16)) (.send _ (.recv 16 sd (.done _ _ _))) ?_
      refine CProg.Goes.bind hg ?_
      simp only
      rw [prvPolyCheck_same]
      have h3 := goes_callsEnd (S := S) (c := ne.e.mac) [.data (ne.enc2 (prvPolyCheck (ne.env [] (ne.dec sd)) n.st).2)] rfl
        (prvPolyCheck (ne.env [] (ne.dec sd)) n.st).1 (n.st.used + 128) n1.io n1.got
      rw [e0]
      have hi' : n1.io = sndRun S (n.call S [.back 16]).io (ne.extP n.st.used 128) := hi
      rw [← hi']
      exact h3

theorem same_andRoom {n n' : PrvNet F} (h : pnAndRoom ne S n = some n') : SamePrv ne S n n' (bAndRoom ne S ⟨n.st, n.io⟩) := by
  unfold pnAndRoom at h
  unfold bAndRoom
  split at h
  · rename_i hc
    rw [if_pos hc]; exact same_andCheck h
  · rename_i hc
    rw [if_neg hc]; obtain rfl := Option.some.inj h; exact SamePrv.refl n

theorem same_polyRoom {n n' : PrvNet F} (h : pnPolyRoom ne S n = some n') : SamePrv ne S n n' (bPolyRoom ne S ⟨n.st, n.io⟩) := by
  unfold pnPolyRoom at h
  unfold bPolyRoom
  split at h
  · rename_i hc
    rw [if_pos hc]; exact same_polyCheck h
  · rename_i hc
    rw [if_neg hc]; obtain rfl := Option.some.inj h; exact SamePrv.refl n

theorem same_finPoly {n n' : PrvNet F} (h : pnFinPoly ne S n = some n') : SamePrv ne S n n' (bFinPoly ne S ⟨n.st, n.io⟩) := by
  unfold pnFinPoly at h
  unfold bFinPoly
  split at h
  · rename_i hc
    rw [if_pos hc]; exact same_polyCheck h
  · rename_i hc
    rw [if_neg hc]; obtain rfl := Option.some.inj h; exact SamePrv.refl n

theorem same_finAnd {n n' : PrvNet F} (h : pnFinAnd ne S n = some n') : SamePrv ne S n n' (bFinAnd ne S ⟨n.st, n.io⟩) := by
  unfold pnFinAnd at h
  unfold bFinAnd
  split at h
  · rename_i hc
    rw [if_pos hc]; exact same_andCheck h
  · rename_i hc
    rw [if_neg hc]; obtain rfl := Option.some.inj h; exact SamePrv.refl n

/-- One correlation, a computation with it, one bit. -/
theorem same_bit {n n1 : PrvNet F} (h1 : PrvNet.rcot ne S n n.st.used 1 = some n1) {f : BPrv F × List F → CProg F (BPrv F)} {s : PrvSt F}
    {b : Bool} (hu : s.used = n.st.used + 1)
    (hf : f (⟨n.st, n1.io⟩, [ne.e.mac n.st.used]) = (bcalls S n1.io [.bit b]).bind fun io => .done ⟨s, io⟩) :
    SamePrv ne S n ({ n1 with st := s }.call S [.bit b]) ((brcot ne S ⟨n.st, n.io⟩ 1).bind f) := by
  obtain ⟨-, hc, hi, hg⟩ := goes_brcot (c := ne.e.mac) ne (st := n.st) h1 rfl n.st.used
  refine ⟨ne.extP n.st.used 1 ++ [.bit b], ?_, ?_, ?_⟩
  · simp only [PrvNet.call, hc, List.append_assoc]
  · simp only [PrvNet.call, hi, sndRun_append]
  · rw [sndWire_append]
    refine CProg.Goes.bind hg ?_
    have e : (List.range 1).map (fun j => ne.e.mac (n.st.used + j)) = [ne.e.mac n.st.used] := rfl
    rw [e, hf, ← hi]
    have h3 := goes_callsEnd (S := S) (c := ne.e.mac) [.bit b] rfl s (n.st.used + 1) n1.io n1.got
    show CProg.Goes _ _ _ _ s.used _ _ _
    rw [hu]
    exact h3

theorem mac_single (e m : BEnv F) (used : Nat) : (m.withMacs used [e.mac used]).mac used = e.mac used :=
  withMacs_same e m used 1 0 (by omega)

/-- A computation without communication. -/
theorem same_local {n : PrvNet F} {s : PrvSt F} (hu : s.used = n.st.used) : SamePrv ne S n { n with st := s } (.done ⟨s, n.io⟩) := by
  refine ⟨[], by simp, rfl, ?_⟩
  show CProg.Goes _ _ _ _ s.used _ _ _
  rw [hu]
  exact .done _ _ _

theorem same_step {n n' : PrvNet F} {o : BOp} (h : netStepP ne S n o = some n') : SamePrv ne S n n' (bprvStep ne S ⟨n.st, n.io⟩ o) := by
  have hst : ∀ {m m' : PrvNet F} {k : Nat}, PrvNet.rcot ne S m m.st.used k = some m' → m'.st = m.st := fun hm =>
    (goes_brcot (c := ne.e.mac) ne (st := _) hm rfl 0).1
  cases o with
  | input b =>
    simp only [netStepP, Option.bind_eq_bind, Option.bind_eq_some_iff, Option.some.injEq] at h
    obtain ⟨n1, h1, r, h2, rfl⟩ := h
    rw [hst h1] at h2
    simp only [prvStep, Option.some.injEq] at h2
    subst h2
    refine same_bit h1 rfl ?_
    simp only [prvStep, mac_single]
    rfl
  | and i j =>
    simp only [netStepP, Option.bind_eq_bind, Option.bind_eq_some_iff, Option.some.injEq] at h
    obtain ⟨a, ha, b, hb, n1, h1, n2, h2, q, h3, rfl⟩ := h
    simp only [bprvStep, ha, hb]
    refine (same_andRoom h1).bind ?_
    rw [hst h2] at h3
    unfold prvAndPush at h3
    split at h3
    · rename_i hlt
      obtain rfl := Option.some.inj h3
      refine same_bit h2 rfl ?_
      have e : prvAndPush (ne.e.withMacs n1.st.used [ne.e.mac n1.st.used]) n1.st a b = prvAndPush ne.e n1.st a b := by
        unfold prvAndPush
        rw [mac_single]
        rfl
      simp only [e]
      unfold prvAndPush
      rw [if_pos hlt]
      rfl
    · simp at h3
  | reveal i =>
    simp only [netStepP, Option.bind_eq_bind, Option.bind_eq_some_iff, Option.some.injEq] at h
    obtain ⟨r, h1, rfl⟩ := h
    show SamePrv ne S n _ ((CProg.ofOpt (prvStep ne.e n.st (.reveal i))).bind _)
    rw [h1]
    simp only [prvStep, Option.bind_eq_bind, Option.bind_eq_some_iff, Option.some.injEq] at h1
    obtain ⟨a, -, rfl⟩ := h1
    exact ⟨[.bit (lsb a)], rfl, rfl, goes_callsEnd (S := S) (c := ne.e.mac) [.bit (lsb a)] rfl _ n.st.used n.io n.got⟩
  | poly s =>
    simp only [netStepP, Option.bind_eq_bind, Option.bind_eq_some_iff, Option.some.injEq] at h
    obtain ⟨p, hp, n1, h1, q, h2, rfl⟩ := h
    show SamePrv ne S n _ ((CProg.ofOpt (s.lookup n.st.wires)).bind _)
    rw [hp]
    refine (same_polyRoom h1).bind ?_
    simp only [h2]
    unfold prvPolyPush at h2
    split at h2
    · obtain rfl := Option.some.inj h2
      exact same_local rfl
    · simp at h2
  | pub b =>
    simp only [netStepP, Option.bind_eq_bind, Option.bind_eq_some_iff, Option.some.injEq] at h
    obtain ⟨r, h1, rfl⟩ := h
    simp only [bprvStep, h1]
    simp only [prvStep, Option.some.injEq] at h1
    subst h1
    exact same_local rfl
  | xor i j =>
    simp only [netStepP, Option.bind_eq_bind, Option.bind_eq_some_iff, Option.some.injEq] at h
    obtain ⟨r, h1, rfl⟩ := h
    show SamePrv ne S n _ ((CProg.ofOpt (prvStep ne.e n.st (.xor i j))).bind _)
    rw [h1]
    simp only [prvStep, Option.bind_eq_bind, Option.bind_eq_some_iff, Option.some.injEq] at h1
    obtain ⟨a, -, b, -, rfl⟩ := h1
    exact same_local rfl
  | not i =>
    simp only [netStepP, Option.bind_eq_bind, Option.bind_eq_some_iff, Option.some.injEq] at h
    obtain ⟨r, h1, rfl⟩ := h
    show SamePrv ne S n _ ((CProg.ofOpt (prvStep ne.e n.st (.not i))).bind _)
    rw [h1]
    simp only [prvStep, Option.bind_eq_bind, Option.bind_eq_some_iff, Option.some.injEq] at h1
    obtain ⟨a, -, rfl⟩ := h1
    exact same_local rfl

theorem same_run (ops : List BOp) : ∀ {n n' : PrvNet F}, netRunP ne S n ops = some n' → SamePrv ne S n n' (bprvRun ne S ⟨n.st, n.io⟩ ops) := by
  induction ops with
  | nil => intro n n' h; obtain rfl := Option.some.inj h; exact SamePrv.refl n
  | cons o os ih =>
    intro n n' h
    simp only [netRunP, Option.bind_eq_bind, Option.bind_eq_some_iff] at h
    obtain ⟨n1, h1, h2⟩ := h
    exact (same_step h1).bind (ih h2)

theorem same_fin {n n' : PrvNet F} (h : netFinP ne S n = some n') : SamePrv ne S n n' (bprvFin ne S ⟨n.st, n.io⟩) := by
  simp only [netFinP, Option.bind_eq_bind, Option.bind_eq_some_iff, Option.some.injEq] at h
  obtain ⟨n1, h1, n2, h2, rfl⟩ := h
  refine (same_finPoly h1).bind ((same_finAnd h2).bind ?_)
  exact ⟨_, rfl, rfl, goes_callsEnd (S := S) (c := ne.e.mac) [.data (ne.encD (ne.e.hash n2.st.digest)), .flush] rfl _ n2.st.used n2.io n2.got⟩

theorem same_session {ops : List BOp} {got : List (List Byte)} {P : PrvNet F} (h : netSessionP ne S ops got = some P) :
    ((bprvProg ne S ops).given ne.e.mac).Does got P.got (sndWire S ⟨[], [], [], []⟩ P.calls) ⟨P.st, P.io⟩ := by
  simp only [netSessionP, Option.bind_eq_bind, Option.bind_eq_some_iff] at h
  obtain ⟨n0, h0, n1, h1, h2⟩ := h
  obtain ⟨hs, hc, hi, hg⟩ := goes_brcot (c := ne.e.mac) ne (st := { PrvSt.init with used := 0 }) h0 rfl 0
  obtain ⟨l, hl1, hl2, hl3⟩ := SamePrv.bind (same_run ops h1) (same_fin h2)
  have hs' : n0.st = PrvSt.init := hs
  have hc' : n0.calls = ne.extP 0 1 := hc
  have hi' : n0.io = sndRun S ⟨[], [], [], []⟩ (ne.extP 0 1) := hi
  rw [hs'] at hl3
  have h3 := (hg.bind (f := fun (m : BPrv F × List F) => (bprvRun ne S ⟨PrvSt.init, m.1.io⟩ ops).bind (bprvFin ne S)) hl3).does
  have e : (fun k => ne.e.mac (0 + k)) = ne.e.mac := by funext k; rw [Nat.zero_add]
  rw [e] at h3
  rw [hl1, hc', sndWire_append, ← hi']
  exact h3

end
end EmpZk
