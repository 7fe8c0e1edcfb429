/-
Simulation between the two endpoints of BoolIO.
-/
import Verif.Model.BoolIO
import Mathlib.Data.List.Forall2

namespace EmpZk

theorem unpack_pack : ∀ b0 b1 b2 b3 b4 b5 b6 b7 : Bool,
    let c := packByte b0 b1 b2 b3 b4 b5 b6 b7
    unpackByte c 0 = boolByte b0 ∧ unpackByte c 1 = boolByte b1 ∧ unpackByte c 2 = boolByte b2 ∧
    unpackByte c 3 = boolByte b3 ∧ unpackByte c 4 = boolByte b4 ∧ unpackByte c 5 = boolByte b5 ∧
    unpackByte c 6 = boolByte b6 ∧ unpackByte c 7 = boolByte b7 := by decide +kernel

theorem byteBool_boolByte (b : Bool) : byteBool (boolByte b) = some b := by cases b <;> rfl

theorem encBools_length : ∀ (n : Nat) (A : List Bool), A.length = n → (encBools A).length = encLen n := by
  intro n
  induction n using Nat.strongRecOn with
  | _ n ih =>
    intro A hA
    match A, hA with
    | b0 :: b1 :: b2 :: b3 :: b4 :: b5 :: b6 :: b7 :: rest, hA =>
      simp only [List.length_cons] at hA
      rw [encBools, List.length_cons, ih rest.length (by omega) rest rfl]
      unfold encLen
      omega
    | [], hA => subst hA; simp [encBools, encLen]
    | [a], hA => subst hA; simp [encBools, encLen]
    | [a, b], hA => subst hA; simp [encBools, encLen]
    | [a, b, c], hA => subst hA; simp [encBools, encLen]
    | [a, b, c, d], hA => subst hA; simp [encBools, encLen]
    | [a, b, c, d, e], hA => subst hA; simp [encBools, encLen]
    | [a, b, c, d, e, f], hA => subst hA; simp [encBools, encLen]
    | [a, b, c, d, e, f, g], hA => subst hA; simp [encBools, encLen]

theorem dec_enc : ∀ (n : Nat) (A : List Bool), A.length = n → decBytes n (encBools A) = A.map boolByte := by
  intro n
  induction n using Nat.strongRecOn with
  | _ n ih =>
    intro A hA
    match A, hA with
    | b0 :: b1 :: b2 :: b3 :: b4 :: b5 :: b6 :: b7 :: rest, hA =>
      simp only [List.length_cons] at hA
      obtain rfl : n = rest.length + 8 := by omega
      obtain ⟨h0, h1, h2, h3, h4, h5, h6, h7⟩ := unpack_pack b0 b1 b2 b3 b4 b5 b6 b7
      rw [encBools, decBytes, ih rest.length (by omega) rest rfl, h0, h1, h2, h3, h4, h5, h6, h7]
      rfl
    | [], hA => subst hA; rfl
    | [a], hA => subst hA; rfl
    | [a, b], hA => subst hA; rfl
    | [a, b, c], hA => subst hA; rfl
    | [a, b, c, d], hA => subst hA; rfl
    | [a, b, c, d, e], hA => subst hA; rfl
    | [a, b, c, d, e, f], hA => subst hA; rfl
    | [a, b, c, d, e, f, g], hA => subst hA; rfl

theorem boolByte_inj : Function.Injective boolByte := by
  intro a b h
  revert h
  cases a <;> cases b <;> decide

theorem encBools_inj {A B : List Bool} (hl : A.length = B.length) (h : encBools A = encBools B) : A = B := by
  have h1 := dec_enc A.length A rfl
  have h2 := dec_enc A.length B hl.symm
  rw [h, h2] at h1
  exact (List.map_injective_iff.2 boolByte_inj h1).symm

theorem encLen_pos {S : Nat} (h : 0 < S) : 0 < encLen S := by unfold encLen; omega

/-- `flush` on the sender: nothing when aligned, else one padded block. -/
theorem sndFlush_nil (S : Nat) (s : SndSt) (h : s.buf = []) : sndFlush S s = (s, []) := by
  unfold sndFlush
  cases S with
  | zero => rfl
  | succ n => rw [padLoop, if_pos h]

theorem padLoop_pad (S : Nat) : ∀ (k n : Nat) (s : SndSt), s.buf ≠ [] → s.buf.length + (k + 1) = S → k + 1 ≤ n →
    padLoop S n s = ({ s with buf := [], hashed := s.hashed ++ encBools (s.buf ++ List.replicate (k + 1) true) },
      encBools (s.buf ++ List.replicate (k + 1) true)) := by
  intro k
  induction k with
  | zero =>
    intro n s hne hl hn
    obtain ⟨n, rfl⟩ : ∃ m, n = m + 1 := ⟨n - 1, by omega⟩
    rw [padLoop, if_neg hne]
    have : sendBit S s true = ({ s with buf := [], hashed := s.hashed ++ encBools (s.buf ++ [true]) },
        encBools (s.buf ++ [true])) := by
      unfold sendBit
      simp only
      rw [if_pos (by simpa using hl)]
    rw [this]
    have hz : ∀ t : SndSt, t.buf = [] → padLoop S n t = (t, []) := by
      intro t ht
      cases n with
      | zero => rfl
      | succ n => rw [padLoop, if_pos ht]
    simp only [hz, List.append_nil]
    rfl
  | succ k ih =>
    intro n s hne hl hn
    obtain ⟨n, rfl⟩ : ∃ m, n = m + 1 := ⟨n - 1, by omega⟩
    rw [padLoop, if_neg hne]
    have : sendBit S s true = ({ s with buf := s.buf ++ [true] }, []) := by
      unfold sendBit
      simp only
      rw [if_neg (by simp; omega)]
    rw [this]
    simp only
    rw [ih n _ (by simp) (by simp; omega) (by omega)]
    simp only [List.nil_append, List.append_assoc, List.singleton_append, ← List.replicate_succ]

theorem sndFlush_pad (S : Nat) (s : SndSt) (hne : s.buf ≠ []) (hlt : s.buf.length < S) :
    sndFlush S s = (⟨[], s.hashed ++ encBools (s.buf ++ List.replicate (S - s.buf.length) true), s.digests, s.got⟩,
      encBools (s.buf ++ List.replicate (S - s.buf.length) true)) := by
  have := padLoop_pad S (S - s.buf.length - 1) S s hne (by omega) (by omega)
  have he : S - s.buf.length - 1 + 1 = S - s.buf.length := by omega
  rw [he] at this
  exact this

/-- What the receiver still has to execute of the calls already made by the sender (`mid`), and how the bytes in transit
(`w`), the unread part of its buffer (`cur`), its hash (`h`) and the digests to come (`ds`) relate to the sender's buffer
(`sb`) and hash (`hs`).  `pre`: the sender has already padded for the call it is waiting in. -/
def Pend (S : Nat) (pre : Prop) (sb : List Bool) (hs : List Byte) :
    List SOp → List Bool → List Byte → List Byte → List (List Byte) → Prop
  | [], cur, w, h, ds => w = [] ∧ sb = [] ∧ (cur = [] ∨ pre) ∧ h = hs ∧ ds = []
  | .bit b :: mid, cur, w, h, ds =>
    (∃ cur', cur = b :: cur' ∧ Pend S pre sb hs mid cur' w h ds) ∨
    (cur = [] ∧ ∃ A w', (b :: A).length = S ∧ w = encBools (b :: A) ++ w' ∧
      Pend S pre sb hs mid A w' (h ++ encBools (b :: A)) ds) ∨
    (cur = [] ∧ w = [] ∧ (SOp.bit b :: mid) = sb.map SOp.bit ∧ sb.length < S ∧ h = hs ∧ ds = [])
  | .flush :: mid, _, w, h, ds => Pend S pre sb hs mid [] w h ds
  | .data bs :: mid, _, w, h, ds => ∃ w', w = bs ++ w' ∧ Pend S pre sb hs mid [] w' h ds
  | .hash :: mid, _, w, h, ds => ∃ ds', ds = h :: ds' ∧ Pend S pre sb hs mid [] w [] ds'
  | .back _ :: _, _, _, _, _ => False

theorem Pend.bits {S : Nat} {pre : Prop} {hs : List Byte} (x : List Bool) (hx : x = [] ∨ pre) : ∀ l : List Bool,
    Pend S pre [] hs (l.map SOp.bit) (l ++ x) [] hs []
  | [] => ⟨rfl, rfl, hx, rfl, rfl⟩
  | b :: l => Or.inl ⟨l ++ x, rfl, Pend.bits x hx l⟩

theorem Pend.pad {S : Nat} {pre : Prop} {sb : List Bool} {hs : List Byte} {x : List Bool} (hne : sb ≠ [])
    (hl : (sb ++ x).length = S) : ∀ (mid : List SOp) (cur : List Bool) (w h : List Byte) (ds : List (List Byte)),
    Pend S pre sb hs mid cur w h ds →
    Pend S True [] (hs ++ encBools (sb ++ x)) mid cur (w ++ encBools (sb ++ x)) h ds := by
  intro mid
  induction mid with
  | nil => intro cur w h ds hp; exact absurd hp.2.1 hne
  | cons o mid ih =>
    intro cur w h ds hp
    cases o with
    | bit b =>
      rcases hp with ⟨c', h1, h2⟩ | ⟨h1, A, w', h2, h3, h4⟩ | ⟨h1, h2, h3, h4, h5, h6⟩
      · exact Or.inl ⟨c', h1, ih _ _ _ _ h2⟩
      · refine Or.inr (Or.inl ⟨h1, A, w' ++ encBools (sb ++ x), h2, ?_, ih _ _ _ _ h4⟩)
        rw [h3, List.append_assoc]
      · match sb, h3 with
        | b' :: l, h3 =>
          simp only [List.map_cons, List.cons.injEq, SOp.bit.injEq] at h3
          obtain ⟨rfl, rfl⟩ := h3
          subst h5; subst h6; subst h2; subst h1
          exact Or.inr (Or.inl ⟨rfl, l ++ x, [], hl, by simp, Pend.bits x (Or.inr trivial) l⟩)
    | flush => exact ih _ _ _ _ hp
    | data bs =>
      obtain ⟨w', h1, h2⟩ := hp
      exact ⟨w' ++ encBools (sb ++ x), by rw [h1, List.append_assoc], ih _ _ _ _ h2⟩
    | hash =>
      obtain ⟨ds', h1, h2⟩ := hp
      exact ⟨ds', h1, ih _ _ _ _ h2⟩
    | back n => exact hp.elim

theorem Pend.snocFlush {S : Nat} {pre pre' : Prop} {hs : List Byte} : ∀ (mid : List SOp) (cur : List Bool)
    (w h : List Byte) (ds : List (List Byte)),
    Pend S pre [] hs mid cur w h ds → Pend S pre' [] hs (mid ++ [.flush]) cur w h ds := by
  intro mid
  induction mid with
  | nil => intro cur w h ds hp; exact ⟨hp.1, rfl, Or.inl rfl, hp.2.2.2.1, hp.2.2.2.2⟩
  | cons o mid ih =>
    intro cur w h ds hp
    cases o with
    | bit b =>
      rcases hp with ⟨c', h1, h2⟩ | ⟨h1, A, w', h2, h3, h4⟩ | ⟨_, _, h3, _⟩
      · exact Or.inl ⟨c', h1, ih _ _ _ _ h2⟩
      · exact Or.inr (Or.inl ⟨h1, A, w', h2, h3, ih _ _ _ _ h4⟩)
      · simp at h3
    | flush => exact ih _ _ _ _ hp
    | data bs =>
      obtain ⟨w', h1, h2⟩ := hp
      exact ⟨w', h1, ih _ _ _ _ h2⟩
    | hash =>
      obtain ⟨ds', h1, h2⟩ := hp
      exact ⟨ds', h1, ih _ _ _ _ h2⟩
    | back n => exact hp.elim

theorem Pend.snocData {S : Nat} {pre pre' : Prop} {hs : List Byte} (bs : List Byte) : ∀ (mid : List SOp)
    (cur : List Bool) (w h : List Byte) (ds : List (List Byte)),
    Pend S pre [] hs mid cur w h ds → Pend S pre' [] hs (mid ++ [.data bs]) cur (w ++ bs) h ds := by
  intro mid
  induction mid with
  | nil =>
    intro cur w h ds hp
    exact ⟨[], by simp [hp.1], rfl, rfl, Or.inl rfl, hp.2.2.2.1, hp.2.2.2.2⟩
  | cons o mid ih =>
    intro cur w h ds hp
    cases o with
    | bit b =>
      rcases hp with ⟨c', h1, h2⟩ | ⟨h1, A, w', h2, h3, h4⟩ | ⟨_, _, h3, _⟩
      · exact Or.inl ⟨c', h1, ih _ _ _ _ h2⟩
      · exact Or.inr (Or.inl ⟨h1, A, w' ++ bs, h2, by rw [h3, List.append_assoc], ih _ _ _ _ h4⟩)
      · simp at h3
    | flush => exact ih _ _ _ _ hp
    | data bs' =>
      obtain ⟨w', h1, h2⟩ := hp
      exact ⟨w' ++ bs, by rw [h1, List.append_assoc], ih _ _ _ _ h2⟩
    | hash =>
      obtain ⟨ds', h1, h2⟩ := hp
      exact ⟨ds', h1, ih _ _ _ _ h2⟩
    | back n => exact hp.elim

theorem Pend.snocHash {S : Nat} {pre pre' : Prop} {hs : List Byte} : ∀ (mid : List SOp) (cur : List Bool)
    (w h : List Byte) (ds : List (List Byte)),
    Pend S pre [] hs mid cur w h ds → Pend S pre' [] [] (mid ++ [.hash]) cur w h (ds ++ [hs]) := by
  intro mid
  induction mid with
  | nil =>
    intro cur w h ds hp
    exact ⟨[], by simp [hp.2.2.2.1, hp.2.2.2.2], hp.1, rfl, Or.inl rfl, rfl, rfl⟩
  | cons o mid ih =>
    intro cur w h ds hp
    cases o with
    | bit b =>
      rcases hp with ⟨c', h1, h2⟩ | ⟨h1, A, w', h2, h3, h4⟩ | ⟨_, _, h3, _⟩
      · exact Or.inl ⟨c', h1, ih _ _ _ _ h2⟩
      · exact Or.inr (Or.inl ⟨h1, A, w', h2, h3, ih _ _ _ _ h4⟩)
      · simp at h3
    | flush => exact ih _ _ _ _ hp
    | data bs' =>
      obtain ⟨w', h1, h2⟩ := hp
      exact ⟨w', h1, ih _ _ _ _ h2⟩
    | hash =>
      obtain ⟨ds', h1, h2⟩ := hp
      exact ⟨ds' ++ [hs], by rw [h1]; rfl, ih _ _ _ _ h2⟩
    | back n => exact hp.elim

theorem Pend.snocBit {S : Nat} {sb : List Bool} {hs : List Byte} (b : Bool) (hlt : sb.length + 1 < S) :
    ∀ (mid : List SOp) (cur : List Bool) (w h : List Byte) (ds : List (List Byte)),
    Pend S False sb hs mid cur w h ds → Pend S False (sb ++ [b]) hs (mid ++ [.bit b]) cur w h ds := by
  intro mid
  induction mid with
  | nil =>
    intro cur w h ds hp
    obtain ⟨h1, h2, h3, h4, h5⟩ := hp
    subst h2
    exact Or.inr (Or.inr ⟨by simpa using h3, h1, rfl, hlt, h4, h5⟩)
  | cons o mid ih =>
    intro cur w h ds hp
    cases o with
    | bit b' =>
      rcases hp with ⟨c', h1, h2⟩ | ⟨h1, A, w', h2, h3, h4⟩ | ⟨h1, h2, h3, h4, h5, h6⟩
      · exact Or.inl ⟨c', h1, ih _ _ _ _ h2⟩
      · exact Or.inr (Or.inl ⟨h1, A, w', h2, h3, ih _ _ _ _ h4⟩)
      · refine Or.inr (Or.inr ⟨h1, h2, ?_, by simp; omega, h5, h6⟩)
        rw [List.map_append, ← h3]; rfl
    | flush => exact ih _ _ _ _ hp
    | data bs' =>
      obtain ⟨w', h1, h2⟩ := hp
      exact ⟨w', h1, ih _ _ _ _ h2⟩
    | hash =>
      obtain ⟨ds', h1, h2⟩ := hp
      exact ⟨ds', h1, ih _ _ _ _ h2⟩
    | back n => exact hp.elim

theorem Pend.snocBitFull {S : Nat} {sb : List Bool} {hs : List Byte} (b : Bool) (hl : sb.length + 1 = S) :
    ∀ (mid : List SOp) (cur : List Bool) (w h : List Byte) (ds : List (List Byte)),
    Pend S False sb hs mid cur w h ds →
    Pend S False [] (hs ++ encBools (sb ++ [b])) (mid ++ [.bit b]) cur (w ++ encBools (sb ++ [b])) h ds := by
  intro mid
  induction mid with
  | nil =>
    intro cur w h ds hp
    obtain ⟨h1, h2, h3, h4, h5⟩ := hp
    subst h2; subst h1
    refine Or.inr (Or.inl ⟨by simpa using h3, [], [], by simpa using hl, by simp, rfl, rfl, Or.inl rfl, ?_, h5⟩)
    rw [h4]; rfl
  | cons o mid ih =>
    intro cur w h ds hp
    cases o with
    | bit b' =>
      rcases hp with ⟨c', h1, h2⟩ | ⟨h1, A, w', h2, h3, h4⟩ | ⟨h1, h2, h3, h4, h5, h6⟩
      · exact Or.inl ⟨c', h1, ih _ _ _ _ h2⟩
      · exact Or.inr (Or.inl ⟨h1, A, w' ++ encBools (sb ++ [b]), h2, by rw [h3, List.append_assoc], ih _ _ _ _ h4⟩)
      · match sb, h3 with
        | b'' :: l, h3 =>
          simp only [List.map_cons, List.cons.injEq, SOp.bit.injEq] at h3
          obtain ⟨rfl, rfl⟩ := h3
          subst h5; subst h6; subst h2; subst h1
          refine Or.inr (Or.inl ⟨rfl, l ++ [b], [], by simpa using hl, by simp, ?_⟩)
          have := Pend.bits (S := S) (pre := False) (hs := h ++ encBools (b' :: l ++ [b])) [] (Or.inl rfl) (l ++ [b])
          simpa using this
    | flush => exact ih _ _ _ _ hp
    | data bs' =>
      obtain ⟨w', h1, h2⟩ := hp
      exact ⟨w' ++ encBools (sb ++ [b]), by rw [h1, List.append_assoc], ih _ _ _ _ h2⟩
    | hash =>
      obtain ⟨ds', h1, h2⟩ := hp
      exact ⟨ds', h1, ih _ _ _ _ h2⟩
    | back n => exact hp.elim

theorem Pend.weaken {S : Nat} {pre pre' : Prop} {sb : List Bool} {hs : List Byte} (hpp : pre → pre') :
    ∀ (mid : List SOp) (cur : List Bool) (w h : List Byte) (ds : List (List Byte)),
    Pend S pre sb hs mid cur w h ds → Pend S pre' sb hs mid cur w h ds := by
  intro mid
  induction mid with
  | nil => intro cur w h ds hp; exact ⟨hp.1, hp.2.1, hp.2.2.1.imp_right hpp, hp.2.2.2⟩
  | cons o mid ih =>
    intro cur w h ds hp
    cases o with
    | bit b' =>
      rcases hp with ⟨c', h1, h2⟩ | ⟨h1, A, w', h2, h3, h4⟩ | h
      · exact Or.inl ⟨c', h1, ih _ _ _ _ h2⟩
      · exact Or.inr (Or.inl ⟨h1, A, w', h2, h3, ih _ _ _ _ h4⟩)
      · exact Or.inr (Or.inr h)
    | flush => exact ih _ _ _ _ hp
    | data bs' =>
      obtain ⟨w', h1, h2⟩ := hp
      exact ⟨w', h1, ih _ _ _ _ h2⟩
    | hash =>
      obtain ⟨ds', h1, h2⟩ := hp
      exact ⟨ds', h1, ih _ _ _ _ h2⟩
    | back n => exact hp.elim

/-- What the sender still has to execute of the calls already made by the receiver (`rah`). -/
def Ahead : List ROp → (sh rh : List Byte) → (es : List (List Byte)) → (toS : List Byte) → Prop
  | [], sh, rh, es, toS => rh = sh ∧ es = [] ∧ toS = []
  | .flush :: rah, sh, rh, es, toS => Ahead rah sh rh es toS
  | .hash :: rah, sh, rh, es, toS => ∃ es', es = sh :: es' ∧ Ahead rah [] rh es' toS
  | .back bs :: rah, sh, rh, es, toS => ∃ t, toS = bs ++ t ∧ Ahead rah sh rh es t
  | .bit :: _, _, _, _, _ => False
  | .data _ :: _, _, _, _, _ => False

theorem Ahead.snocFlush : ∀ (rah : List ROp) (sh rh : List Byte) (es : List (List Byte)) (toS : List Byte),
    Ahead rah sh rh es toS → Ahead (rah ++ [.flush]) sh rh es toS := by
  intro rah
  induction rah with
  | nil => intro sh rh es toS h; exact h
  | cons o rah ih =>
    intro sh rh es toS h
    cases o with
    | flush => exact ih _ _ _ _ h
    | hash => obtain ⟨e, h1, h2⟩ := h; exact ⟨e, h1, ih _ _ _ _ h2⟩
    | back bs => obtain ⟨t, h1, h2⟩ := h; exact ⟨t, h1, ih _ _ _ _ h2⟩
    | bit => exact h.elim
    | data n => exact h.elim

theorem Ahead.snocHash : ∀ (rah : List ROp) (sh rh : List Byte) (es : List (List Byte)) (toS : List Byte),
    Ahead rah sh rh es toS → Ahead (rah ++ [.hash]) sh [] (es ++ [rh]) toS := by
  intro rah
  induction rah with
  | nil =>
    intro sh rh es toS h
    obtain ⟨h1, h2, h3⟩ := h
    exact ⟨[], by simp [h1, h2], rfl, rfl, h3⟩
  | cons o rah ih =>
    intro sh rh es toS h
    cases o with
    | flush => exact ih _ _ _ _ h
    | hash => obtain ⟨e, h1, h2⟩ := h; exact ⟨e ++ [rh], by rw [h1]; rfl, ih _ _ _ _ h2⟩
    | back bs => obtain ⟨t, h1, h2⟩ := h; exact ⟨t, h1, ih _ _ _ _ h2⟩
    | bit => exact h.elim
    | data n => exact h.elim

theorem Ahead.snocBack (bs : List Byte) : ∀ (rah : List ROp) (sh rh : List Byte) (es : List (List Byte))
    (toS : List Byte), Ahead rah sh rh es toS → Ahead (rah ++ [.back bs]) sh rh es (toS ++ bs) := by
  intro rah
  induction rah with
  | nil =>
    intro sh rh es toS h
    obtain ⟨h1, h2, h3⟩ := h
    exact ⟨[], by simp [h3], h1, h2, rfl⟩
  | cons o rah ih =>
    intro sh rh es toS h
    cases o with
    | flush => exact ih _ _ _ _ h
    | hash => obtain ⟨e, h1, h2⟩ := h; exact ⟨e, h1, ih _ _ _ _ h2⟩
    | back bs' => obtain ⟨t, h1, h2⟩ := h; exact ⟨t ++ bs, by rw [h1, List.append_assoc], ih _ _ _ _ h2⟩
    | bit => exact h.elim
    | data n => exact h.elim

/-! ### specification of what is transferred -/

/-- The bits sent by a program. -/
def sentBits (l : List SOp) : List Bool := l.flatMap (fun o => match o with | .bit b => [b] | _ => [])
/-- The byte strings sent by a program of the sending endpoint. -/
def sentData (l : List SOp) : List (List Byte) := l.flatMap (fun o => match o with | .data b => [b] | _ => [])
/-- The byte strings sent by a program of the receiving endpoint. -/
def sentBack (l : List ROp) : List (List Byte) := l.flatMap (fun o => match o with | .back b => [b] | _ => [])

theorem sentBits_append (a b : List SOp) : sentBits (a ++ b) = sentBits a ++ sentBits b := by simp [sentBits]
theorem sentData_append (a b : List SOp) : sentData (a ++ b) = sentData a ++ sentData b := by simp [sentData]
theorem sentBack_append (a b : List ROp) : sentBack (a ++ b) = sentBack a ++ sentBack b := by simp [sentBack]

/-- The unread part of the receiver's buffer. -/
def Unread (S : Nat) (r : RcvSt) (cur : List Bool) : Prop :=
  r.ptr ≤ S ∧ (r.ptr < S → r.arr.length = S ∧ r.arr.drop r.ptr = cur.map boolByte) ∧ (r.ptr = S → cur = [])

/-- The invariant of the network. -/
inductive NetInv (S : Nat) (sops0 : List SOp) (rops0 : List ROp) (c : Net) : Prop where
  | sender (sd mid : List SOp) (rd : List ROp) (cur : List Bool) (ds : List (List Byte))
      (hs0 : sops0 = sd ++ mid ++ c.sops) (hr0 : rops0 = rd ++ c.rops)
      (hm1 : List.Forall₂ Mirror sd rd) (hm2 : List.Forall₂ Mirror (mid ++ c.sops) c.rops)
      (hcur : Unread S c.rcv cur) (hlt : c.snd.buf.length < S)
      (hp : Pend S (∃ n rest, c.sops = .back n :: rest) c.snd.buf c.snd.hashed mid cur c.toR c.rcv.hashed ds)
      (hdig : c.snd.digests = c.rcv.digests ++ ds) (hgot : c.snd.got = sentBack rd) (htoS : c.toS = [])
      (hbits : c.rcv.bits = sentBits sd) (hdata : c.rcv.datas = sentData sd)
  | receiver (sd : List SOp) (rd rah : List ROp) (es : List (List Byte))
      (hs0 : sops0 = sd ++ c.sops) (hr0 : rops0 = rd ++ rah ++ c.rops)
      (hm1 : List.Forall₂ Mirror sd rd) (hm2 : List.Forall₂ Mirror c.sops (rah ++ c.rops))
      (hcur : Unread S c.rcv []) (hbuf : c.snd.buf = []) (hS : 0 < S)
      (hp : Ahead rah c.snd.hashed c.rcv.hashed es c.toS) (htoR : c.toR = [])
      (hdig : c.rcv.digests = c.snd.digests ++ es) (hgot : c.snd.got = sentBack rd)
      (hbits : c.rcv.bits = sentBits sd) (hdata : c.rcv.datas = sentData sd)

theorem NetInv.init (S : Nat) (hS : 0 < S) (junk : List Byte) (sops : List SOp) (rops : List ROp)
    (h : List.Forall₂ Mirror sops rops) : NetInv S sops rops (netInit S junk sops rops) :=
  .sender [] [] [] [] [] rfl rfl .nil h ⟨Nat.le_refl _, fun h => absurd h (Nat.lt_irrefl _), fun _ => rfl⟩ hS
    ⟨rfl, rfl, Or.inl rfl, rfl, rfl⟩ rfl rfl rfl rfl rfl

theorem forall2_mem {α β : Type} {R : α → β → Prop} {a : List α} {b : List β} {x : α}
    (h : List.Forall₂ R a b) (hx : x ∈ a) : ∃ y ∈ b, R x y := by
  induction h with
  | nil => simp at hx
  | cons h _ ih =>
    rcases List.mem_cons.1 hx with rfl | hx
    · exact ⟨_, by simp, h⟩
    · obtain ⟨y, hy, hr⟩ := ih hx
      exact ⟨y, by simp [hy], hr⟩

theorem forall2_snoc {α β : Type} {R : α → β → Prop} {a : List α} {b : List β} {x : α} {y : β}
    (h : List.Forall₂ R a b) (hxy : R x y) : List.Forall₂ R (a ++ [x]) (b ++ [y]) := by
  induction h with
  | nil => exact .cons hxy .nil
  | cons h _ ih => exact .cons h ih

theorem Unread.flushed (S : Nat) (r : RcvSt) : Unread S (rcvFlush S r) [] :=
  ⟨Nat.le_refl _, fun h => absurd h (Nat.lt_irrefl _), fun _ => rfl⟩

theorem Pend.noPre {S : Nat} {pre : Prop} (h : ¬ pre) {sb hs mid cur w x ds} (hp : Pend S pre sb hs mid cur w x ds) :
    Pend S False sb hs mid cur w x ds := Pend.weaken h _ _ _ _ _ hp

/-- Flushing the sender, in any state: it ends aligned, and the pending relation is kept. -/
theorem sndFlush_pend {S : Nat} {pre : Prop} {s : SndSt} {mid cur w h ds} (hlt : s.buf.length < S)
    (hp : Pend S pre s.buf s.hashed mid cur w h ds) :
    ∃ s' e, sndFlush S s = (s', e) ∧ s'.buf = [] ∧ s'.digests = s.digests ∧ s'.got = s.got ∧
      Pend S (s.buf = [] → pre) [] s'.hashed mid cur (w ++ e) h ds := by
  by_cases hb : s.buf = []
  · refine ⟨s, [], sndFlush_nil S s hb, hb, rfl, rfl, ?_⟩
    rw [List.append_nil]
    rw [hb] at hp
    exact Pend.weaken (fun h _ => h) _ _ _ _ _ hp
  · refine ⟨_, _, sndFlush_pad S s hb hlt, rfl, rfl, rfl, ?_⟩
    exact Pend.weaken (fun _ h => absurd h hb) _ _ _ _ _
      (Pend.pad hb (by simp; omega) mid cur w h ds hp)

theorem stepS_sender {S : Nat} (hS : 0 < S) {sops0 : List SOp} {rops0 : List ROp} {c c' : Net}
    (sd mid : List SOp) (rd : List ROp) (cur : List Bool) (ds : List (List Byte))
    (hs0 : sops0 = sd ++ mid ++ c.sops) (hr0 : rops0 = rd ++ c.rops)
    (hm1 : List.Forall₂ Mirror sd rd) (hm2 : List.Forall₂ Mirror (mid ++ c.sops) c.rops)
    (hcur : Unread S c.rcv cur) (hlt : c.snd.buf.length < S)
    (hp : Pend S (∃ n rest, c.sops = .back n :: rest) c.snd.buf c.snd.hashed mid cur c.toR c.rcv.hashed ds)
    (hdig : c.snd.digests = c.rcv.digests ++ ds) (hgot : c.snd.got = sentBack rd) (htoS : c.toS = [])
    (hbits : c.rcv.bits = sentBits sd) (hdata : c.rcv.datas = sentData sd)
    (h : stepS S c = some c') : NetInv S sops0 rops0 c' := by
  cases hops : c.sops with
  | nil => simp [stepS, hops] at h
  | cons o rest =>
    rw [hops] at hs0 hm2
    have hs1 : sops0 = sd ++ (mid ++ [o]) ++ rest := by rw [hs0]; simp
    have hm3 : List.Forall₂ Mirror ((mid ++ [o]) ++ rest) c.rops := by simpa using hm2
    cases o with
    | bit b =>
      simp only [stepS, hops, Option.some.injEq] at h
      have hnp := hp.noPre (by rintro ⟨n, r, he⟩; rw [hops] at he; simp at he)
      unfold sendBit at h
      simp only at h
      split at h
      · rename_i hfull
        subst h
        refine .sender sd (mid ++ [.bit b]) rd cur ds hs1 hr0 hm1 hm3 hcur hS ?_ hdig hgot htoS hbits hdata
        exact Pend.weaken False.elim _ _ _ _ _ (Pend.snocBitFull b (by simpa using hfull) _ _ _ _ _ hnp)
      · rename_i hnf
        subst h
        refine .sender sd (mid ++ [.bit b]) rd cur ds hs1 hr0 hm1 hm3 hcur ?_ ?_ hdig hgot htoS hbits hdata
        · simp at hnf ⊢; omega
        · rw [List.append_nil]
          exact Pend.weaken False.elim _ _ _ _ _
            (Pend.snocBit b (by simp at hnf; omega) _ _ _ _ _ hnp)
    | flush =>
      obtain ⟨s', e, h1, h2, h3, h4, h5⟩ := sndFlush_pend hlt hp
      simp only [stepS, hops, h1, Option.some.injEq] at h
      subst h
      refine .sender sd (mid ++ [.flush]) rd cur ds hs1 hr0 hm1 hm3 hcur (by simp [h2, hS]) ?_ (by simp [h3, hdig])
        (by simp [h4, hgot]) htoS hbits hdata
      simp only [h2]
      exact Pend.snocFlush _ _ _ _ _ h5
    | data bs =>
      obtain ⟨s', e, h1, h2, h3, h4, h5⟩ := sndFlush_pend hlt hp
      simp only [stepS, hops, h1, Option.some.injEq] at h
      subst h
      refine .sender sd (mid ++ [.data bs]) rd cur ds hs1 hr0 hm1 hm3 hcur (by simp [h2, hS]) ?_ (by simp [h3, hdig])
        (by simp [h4, hgot]) htoS hbits hdata
      simp only [h2]
      exact Pend.snocData bs _ _ _ _ _ h5
    | hash =>
      obtain ⟨s', e, h1, h2, h3, h4, h5⟩ := sndFlush_pend hlt hp
      simp only [stepS, hops, h1, Option.some.injEq] at h
      subst h
      refine .sender sd (mid ++ [.hash]) rd cur (ds ++ [s'.hashed]) hs1 hr0 hm1 hm3 hcur (by simp [h2, hS]) ?_
        (by simp [h3, hdig]) (by simp [h4, hgot]) htoS hbits hdata
      simp only [h2]
      exact Pend.snocHash _ _ _ _ _ h5
    | back n =>
      by_cases hb : c.snd.buf = []
      · -- cannot happen: nothing to receive
        have hn : 0 < n := by
          obtain ⟨y, _, hy⟩ := forall2_mem hm2 (x := SOp.back n) (by simp)
          cases y <;> simp [Mirror] at hy
          exact hy.2
        simp [stepS, hops, hb, htoS, hn] at h
      · obtain ⟨s', e, h1, h2, h3, h4, h5⟩ := sndFlush_pend hlt hp
        simp only [stepS, hops, ne_eq, hb, not_false_eq_true, if_true, h1, Option.some.injEq] at h
        subst h
        refine .sender sd mid rd cur ds hs0 hr0 hm1 hm2 hcur
          (by simp [h2, hS]) ?_ (by simp [h3, hdig]) (by simp [h4, hgot]) htoS hbits hdata
        simp only [h2]
        exact Pend.weaken (fun _ => ⟨n, rest, rfl⟩) _ _ _ _ _ h5

theorem stepS_inv {S : Nat} (hS : 0 < S) {sops0 : List SOp} {rops0 : List ROp} {c c' : Net}
    (hi : NetInv S sops0 rops0 c) (h : stepS S c = some c') : NetInv S sops0 rops0 c' := by
  cases hi with
  | sender sd mid rd cur ds hs0 hr0 hm1 hm2 hcur hlt hp hdig hgot htoS hbits hdata =>
    exact stepS_sender hS sd mid rd cur ds hs0 hr0 hm1 hm2 hcur hlt hp hdig hgot htoS hbits hdata h
  | receiver sd rd rah es hs0 hr0 hm1 hm2 hcur hbuf _ hp htoR hdig hgot hbits hdata =>
    cases hops : c.sops with
    | nil => simp [stepS, hops] at h
    | cons o rest =>
      rw [hops] at hs0 hm2
      cases rah with
      | nil =>
        -- the sender moves ahead
        obtain ⟨e1, e2, e3⟩ := hp
        subst e2
        have hp' : Pend S (∃ n rest, c.sops = .back n :: rest) c.snd.buf c.snd.hashed [] [] c.toR c.rcv.hashed [] :=
          ⟨htoR, hbuf, Or.inl rfl, e1, rfl⟩
        exact stepS_sender hS sd [] rd [] [] (by rw [hs0, hops]; simp) (by simpa using hr0) hm1
          (by rw [hops]; simpa using hm2) hcur (by rw [hbuf]; exact hS) hp' (by simpa using hdig.symm) hgot e3 hbits hdata h
      | cons y rah =>
        have hy : Mirror o y ∧ List.Forall₂ Mirror rest (rah ++ c.rops) := by
          cases hm2 with
          | cons a b => exact ⟨a, b⟩
        have hr1 : rops0 = (rd ++ [y]) ++ rah ++ c.rops := by rw [hr0]; simp
        have hs1 : sops0 = (sd ++ [o]) ++ rest := by rw [hs0]; simp
        have hm3 := forall2_snoc hm1 hy.1
        cases y with
        | bit => exact hp.elim
        | data n => exact hp.elim
        | flush =>
          cases o <;> simp [Mirror] at hy
          simp only [stepS, hops, sndFlush_nil S _ hbuf, Option.some.injEq] at h
          subst h
          exact .receiver (sd ++ [.flush]) (rd ++ [.flush]) rah es hs1 hr1 hm3 hy hcur hbuf hS hp
            (by simp [htoR]) hdig (by simp [hgot, sentBack]) (by simp [hbits, sentBits]) (by simp [hdata, sentData])
        | hash =>
          cases o <;> simp [Mirror] at hy
          obtain ⟨es', h1, h2⟩ := hp
          simp only [stepS, hops, sndFlush_nil S _ hbuf, Option.some.injEq] at h
          subst h
          exact .receiver (sd ++ [.hash]) (rd ++ [.hash]) rah es' hs1 hr1 hm3 hy hcur hbuf hS h2
            (by simp [htoR]) (by simp [hdig, h1]) (by simp [hgot, sentBack]) (by simp [hbits, sentBits])
            (by simp [hdata, sentData])
        | back bs =>
          cases o <;> simp [Mirror] at hy
          obtain ⟨t, h1, h2⟩ := hp
          rename_i n
          obtain ⟨⟨hbn, hn⟩, hyr⟩ := hy
          simp only [stepS, hops] at h
          rw [if_neg (by simp [hbuf]), if_neg (by rw [h1, List.length_append]; omega)] at h
          simp only [Option.some.injEq] at h
          subst h
          refine .receiver (sd ++ [.back n]) (rd ++ [.back bs]) rah es hs1 hr1 hm3 hyr hcur hbuf hS ?_
            htoR hdig ?_ (by simp [hbits, sentBits]) (by simp [hdata, sentData])
          · show Ahead rah c.snd.hashed c.rcv.hashed es (c.toS.drop n)
            rw [h1, ← hbn, List.drop_left]
            exact h2
          · show c.snd.got ++ [c.toS.take n] = _
            rw [h1, ← hbn, List.take_left, hgot, sentBack_append]
            rfl

/-- Why the receiving endpoint may be waiting. -/
def Waiting (sops0 : List SOp) (c : Net) : Prop :=
  c.rops = [] ∨ (∃ pre b, sops0 = pre ++ [SOp.bit b] ++ c.sops ∧ c.snd.buf ≠ []) ∨
    (∃ b rest, c.sops = .bit b :: rest) ∨ (∃ bs rest, c.sops = .data bs :: rest)

theorem Unread.ptr_eq {S : Nat} {r : RcvSt} (h : Unread S r []) : r.ptr = S := by
  by_contra hne
  have hlt : r.ptr < S := Nat.lt_of_le_of_ne h.1 hne
  obtain ⟨h1, h2⟩ := h.2.1 hlt
  have := congrArg List.length h2
  simp at this
  omega

theorem Unread.take {S : Nat} {r : RcvSt} {b : Bool} {cur : List Bool} (h : Unread S r (b :: cur)) :
    r.ptr ≠ S ∧ ∃ r', rcvTake r = .ok r' ∧ Unread S r' cur ∧ r'.bits = r.bits ++ [b] ∧ r'.hashed = r.hashed ∧
      r'.digests = r.digests ∧ r'.datas = r.datas := by
  have hne : r.ptr ≠ S := fun he => by simpa using h.2.2 he
  have hlt : r.ptr < S := Nat.lt_of_le_of_ne h.1 hne
  obtain ⟨h1, h2⟩ := h.2.1 hlt
  have hget : r.arr[r.ptr]? = some (boolByte b) := by
    have : (r.arr.drop r.ptr)[0]? = some (boolByte b) := by rw [h2]; rfl
    simpa using this
  have hlen := congrArg List.length h2
  simp at hlen
  refine ⟨hne, { r with ptr := r.ptr + 1, bits := r.bits ++ [b] }, ?_, ⟨by simp; omega, ?_, ?_⟩, rfl, rfl, rfl, rfl⟩
  · unfold rcvTake
    rw [hget]
    simp only [byteBool_boolByte]
  · intro _
    refine ⟨h1, ?_⟩
    show r.arr.drop (r.ptr + 1) = _
    rw [← List.drop_drop, h2]
    rfl
  · intro he
    simp at he
    apply List.eq_nil_of_length_eq_zero
    omega

theorem stepR_receiver {S : Nat} (hS : 0 < S) {sops0 : List SOp} {rops0 : List ROp} {c : Net}
    (sd : List SOp) (rd rah : List ROp) (es : List (List Byte))
    (hs0 : sops0 = sd ++ c.sops) (hr0 : rops0 = rd ++ rah ++ c.rops)
    (hm1 : List.Forall₂ Mirror sd rd) (hm2 : List.Forall₂ Mirror c.sops (rah ++ c.rops))
    (hcur : ((∃ rest, c.rops = .bit :: rest) ∨ (∃ n rest, c.rops = .data n :: rest)) → Unread S c.rcv [])
    (hbuf : c.snd.buf = [])
    (hp : Ahead rah c.snd.hashed c.rcv.hashed es c.toS) (htoR : c.toR = [])
    (hdig : c.rcv.digests = c.snd.digests ++ es) (hgot : c.snd.got = sentBack rd)
    (hbits : c.rcv.bits = sentBits sd) (hdata : c.rcv.datas = sentData sd) :
    (∃ c', stepR S c = .ok c' ∧ NetInv S sops0 rops0 c') ∨
      (stepR S c = .blocked ∧ (rah = [] → Waiting sops0 c) ) := by
  cases hops : c.rops with
  | nil => right; exact ⟨by simp [stepR, hops], fun _ => Or.inl hops⟩
  | cons y rest =>
    rw [hops] at hr0 hm2
    have hr1 : rops0 = rd ++ (rah ++ [y]) ++ rest := by rw [hr0]; simp
    have hm3 : List.Forall₂ Mirror c.sops ((rah ++ [y]) ++ rest) := by simpa using hm2
    cases y with
    | bit =>
      right
      have hptr := (hcur (Or.inl ⟨rest, hops⟩)).ptr_eq
      refine ⟨by simp [stepR, hops, rcvFill, hptr, htoR, encLen_pos hS], ?_⟩
      rintro rfl
      rw [List.nil_append] at hm2
      revert hm2
      cases hso : c.sops with
      | nil => intro h; cases h
      | cons o sr =>
        intro h
        cases h with
        | cons a _ =>
          cases o <;> simp [Mirror] at a
          exact Or.inr (Or.inr (Or.inl ⟨_, _, hso⟩))
    | data n =>
      right
      have hn : 0 < n ∧ (rah = [] → ∃ bs sr, c.sops = .data bs :: sr) := by
        have hm4 := hm2.flip
        obtain ⟨x, _, hx⟩ := forall2_mem hm4 (x := ROp.data n) (by simp)
        constructor
        · cases x <;> simp [Mirror] at hx
          exact hx.2
        · rintro rfl
          rw [List.nil_append] at hm2
          revert hm2
          cases c.sops with
          | nil => intro h; cases h
          | cons o sr =>
            intro h
            cases h with
            | cons a _ =>
              cases o <;> simp [Mirror] at a
              exact ⟨_, _, rfl⟩
      refine ⟨by simp [stepR, hops, htoR, hn.1], fun h => Or.inr (Or.inr (Or.inr (hn.2 h)))⟩
    | flush =>
      left
      refine ⟨_, by simp only [stepR, hops] <;> rfl, ?_⟩
      exact .receiver sd rd (rah ++ [.flush]) es hs0 hr1 hm1 hm3 (Unread.flushed S _) hbuf hS
        (Ahead.snocFlush _ _ _ _ _ hp) htoR hdig hgot hbits hdata
    | hash =>
      left
      refine ⟨_, by simp only [stepR, hops] <;> rfl, ?_⟩
      exact .receiver sd rd (rah ++ [.hash]) (es ++ [c.rcv.hashed]) hs0 hr1 hm1 hm3 (Unread.flushed S _) hbuf hS
        (Ahead.snocHash _ _ _ _ _ hp) htoR (by simp [rcvFlush, hdig]) hgot hbits hdata
    | back bs =>
      left
      refine ⟨_, by simp only [stepR, hops] <;> rfl, ?_⟩
      exact .receiver sd rd (rah ++ [.back bs]) es hs0 hr1 hm1 hm3 (Unread.flushed S _) hbuf hS
        (Ahead.snocBack bs _ _ _ _ _ hp) htoR hdig hgot hbits hdata

theorem stepR_inv {S : Nat} (hS : 0 < S) {sops0 : List SOp} {rops0 : List ROp} {c : Net}
    (hi : NetInv S sops0 rops0 c) :
    (∃ c', stepR S c = .ok c' ∧ NetInv S sops0 rops0 c') ∨
      (stepR S c = .blocked ∧ (Waiting sops0 c ∨ ∃ c', stepS S c = some c')) := by
  cases hi with
  | sender sd mid rd cur ds hs0 hr0 hm1 hm2 hcur hlt hp hdig hgot htoS hbits hdata =>
    cases mid with
    | nil =>
      obtain ⟨h1, h2, h3, h4, h5⟩ := hp
      subst h5
      have := stepR_receiver hS (c := c) sd rd [] [] (by simpa using hs0) (by simpa using hr0) hm1 (by simpa using hm2)
        (by
          intro hy
          rcases h3 with h3 | ⟨n, sr, hso⟩
          · subst h3; exact hcur
          · exfalso
            rw [List.nil_append, hso] at hm2
            rcases hy with ⟨r, hy⟩ | ⟨n, r, hy⟩
            · rw [hy] at hm2; cases hm2 with | cons a _ => simp [Mirror] at a
            · rw [hy] at hm2; cases hm2 with | cons a _ => simp [Mirror] at a)
        h2 ⟨h4, rfl, htoS⟩ h1 (by simpa using hdig.symm) hgot hbits hdata
      rcases this with h | ⟨h, hw⟩
      · exact Or.inl h
      · exact Or.inr ⟨h, Or.inl (hw rfl)⟩
    | cons o mid =>
      cases hops : c.rops with
      | nil => rw [hops] at hm2; cases hm2
      | cons y rest =>
        rw [hops] at hm2 hr0
        have hmm : Mirror o y ∧ List.Forall₂ Mirror (mid ++ c.sops) rest := by
          cases hm2 with | cons a b => exact ⟨a, b⟩
        have hs1 : sops0 = (sd ++ [o]) ++ mid ++ c.sops := by rw [hs0]; simp
        have hr1 : rops0 = (rd ++ [y]) ++ rest := by rw [hr0]; simp
        have hm3 := forall2_snoc hm1 hmm.1
        cases o with
        | bit b =>
          cases y <;> simp [Mirror] at hmm
          rcases hp with ⟨cur', rfl, h2⟩ | ⟨rfl, A, w', h2, h3, h4⟩ | ⟨rfl, h2, h3, h4, h5, h6⟩
          · left
            obtain ⟨g1, r', g2, g3, g4, g5, g6, g7⟩ := hcur.take
            refine ⟨{ c with rcv := r', rops := rest, toR := c.toR }, by simp [stepR, hops, rcvFill, g1, g2], ?_⟩
            refine .sender (sd ++ [.bit b]) mid (rd ++ [.bit]) cur' ds hs1 hr1 hm3 hmm g3 hlt ?_ (by simp [g6, hdig])
              (by simp [hgot, sentBack]) htoS (by simp [g4, hbits, sentBits]) (by simp [g7, hdata, sentData])
            simp only [g5]
            exact h2
          · left
            have hptr := hcur.ptr_eq
            have hel := encBools_length S (b :: A) h2
            have hlen : ¬ c.toR.length < encLen S := by rw [h3, List.length_append, hel]; omega
            have htake : c.toR.take (encLen S) = encBools (b :: A) := by rw [h3, ← hel, List.take_left]
            have hdrop : c.toR.drop (encLen S) = w' := by rw [h3, ← hel, List.drop_left]
            have hdec := dec_enc S (b :: A) h2
            have hun : Unread S ⟨(b :: A).map boolByte, 0, c.rcv.hashed ++ encBools (b :: A), c.rcv.digests,
                c.rcv.bits, c.rcv.datas⟩ (b :: A) :=
              ⟨Nat.zero_le _, fun _ => ⟨by simpa using h2, rfl⟩, fun h => by simp at h; omega⟩
            obtain ⟨g1, r', g2, g3, g4, g5, g6, g7⟩ := hun.take
            refine ⟨{ c with rcv := r', rops := rest, toR := w' },
              by simp only [stepR, hops, rcvFill, hptr, if_true, hlen, if_false, htake, hdrop, hdec, g2], ?_⟩
            refine .sender (sd ++ [.bit b]) mid (rd ++ [.bit]) A ds hs1 hr1 hm3 hmm g3 hlt ?_ (by simp [g6, hdig])
              (by simp [hgot, sentBack]) htoS (by simp [g4, hbits, sentBits]) (by simp [g7, hdata, sentData])
            simp only [g5]
            exact h4
          · right
            have hptr := hcur.ptr_eq
            refine ⟨by simp [stepR, hops, rcvFill, hptr, h2, encLen_pos hS], Or.inl (Or.inr (Or.inl ?_))⟩
            have hne : c.snd.buf ≠ [] := by
              intro h; rw [h] at h3; simp at h3
            obtain ⟨l, x, hlx⟩ : ∃ l x, c.snd.buf = l ++ [x] :=
              ⟨c.snd.buf.dropLast, c.snd.buf.getLast hne, (List.dropLast_append_getLast hne).symm⟩
            refine ⟨sd ++ l.map SOp.bit, x, ?_, hne⟩
            rw [hs0, h3, hlx]
            simp
        | flush =>
          cases y <;> simp [Mirror] at hmm
          left
          refine ⟨_, by simp only [stepR, hops] <;> rfl, ?_⟩
          exact .sender (sd ++ [.flush]) mid (rd ++ [.flush]) [] ds hs1 hr1 hm3 hmm (Unread.flushed S _) hlt hp hdig
            (by simp [hgot, sentBack]) htoS (by simp [rcvFlush, hbits, sentBits]) (by simp [rcvFlush, hdata, sentData])
        | data bs =>
          cases y <;> simp [Mirror] at hmm
          rename_i n
          obtain ⟨⟨hbn, hn⟩, hm5⟩ := hmm
          obtain ⟨w', h1, h2⟩ := hp
          left
          have hlen : ¬ c.toR.length < n := by rw [h1, List.length_append]; omega
          have htake : c.toR.take n = bs := by rw [h1, ← hbn, List.take_left]
          have hdrop : c.toR.drop n = w' := by rw [h1, ← hbn, List.drop_left]
          refine ⟨_, by simp only [stepR, hops, hlen, if_false, htake, hdrop] <;> rfl, ?_⟩
          exact .sender (sd ++ [.data bs]) mid (rd ++ [.data n]) [] ds hs1 hr1 hm3 hm5 (Unread.flushed S _) hlt h2 hdig
            (by simp [hgot, sentBack]) htoS (by simp [rcvFlush, hbits, sentBits]) (by simp [rcvFlush, hdata, sentData])
        | hash =>
          cases y <;> simp [Mirror] at hmm
          obtain ⟨ds', h1, h2⟩ := hp
          left
          refine ⟨_, by simp only [stepR, hops] <;> rfl, ?_⟩
          exact .sender (sd ++ [.hash]) mid (rd ++ [.hash]) [] ds' hs1 hr1 hm3 hmm (Unread.flushed S _) hlt h2
            (by simp [rcvFlush, hdig, h1])
            (by simp [hgot, sentBack]) htoS (by simp [rcvFlush, hbits, sentBits]) (by simp [rcvFlush, hdata, sentData])
        | back n => exact hp.elim
  | receiver sd rd rah es hs0 hr0 hm1 hm2 hcur hbuf _ hp htoR hdig hgot hbits hdata =>
    have := stepR_receiver hS (c := c) sd rd rah es hs0 hr0 hm1 hm2 (fun _ => hcur) hbuf hp htoR hdig hgot hbits hdata
    rcases this with h | ⟨h, hw⟩
    · exact Or.inl h
    · refine Or.inr ⟨h, ?_⟩
      cases rah with
      | nil => exact Or.inl (hw rfl)
      | cons y rah =>
        right
        revert hm2
        cases hso : c.sops with
        | nil => intro h; cases h
        | cons o sr =>
          intro hm2
          have hmm : Mirror o y := by cases hm2 with | cons a b => exact a
          cases y with
          | bit => exact hp.elim
          | data n => exact hp.elim
          | flush => cases o <;> simp [Mirror] at hmm; exact ⟨_, by simp only [stepS, hso] <;> rfl⟩
          | hash => cases o <;> simp [Mirror] at hmm; exact ⟨_, by simp only [stepS, hso] <;> rfl⟩
          | back bs =>
            cases o <;> simp [Mirror] at hmm
            obtain ⟨t, h1, h2⟩ := hp
            rename_i n
            have : ¬ c.toS.length < n := by rw [h1, List.length_append]; omega
            refine ⟨_, by simp only [stepS, hso]; rw [if_neg (by simp [hbuf]), if_neg this]⟩

theorem reach_inv {S : Nat} (hS : 0 < S) {junk : List Byte} {sops : List SOp} {rops : List ROp}
    (hm : List.Forall₂ Mirror sops rops) {c : Net} (h : Reach S (netInit S junk sops rops) c) :
    NetInv S sops rops c := by
  induction h with
  | init => exact NetInv.init S hS junk sops rops hm
  | sndStep _ hs ih => exact stepS_inv hS ih hs
  | rcvStep _ hr ih =>
    rcases stepR_inv hS ih with ⟨c', h1, h2⟩ | ⟨h1, _⟩
    · rw [h1] at hr; injection hr with hr; subst hr; exact h2
    · rw [h1] at hr; simp at hr

theorem sndRun_append (S : Nat) (l l' : List SOp) : ∀ s, sndRun S s (l ++ l') = sndRun S (sndRun S s l) l' := by
  induction l with
  | nil => intro s; rfl
  | cons o l ih => intro s; cases o <;> simp only [List.cons_append, sndRun, ih]

theorem sndFlush_buf {S : Nat} (s : SndSt) (hs : s.buf.length < S) : (sndFlush S s).1.buf = [] := by
  by_cases hb : s.buf = []
  · rw [sndFlush_nil S s hb]; exact hb
  · rw [sndFlush_pad S s hb hs]

theorem sndRun_buf {S : Nat} (hS : 0 < S) (l : List SOp) : ∀ s : SndSt, s.buf.length < S → (sndRun S s l).buf.length < S := by
  induction l with
  | nil => intro s h; exact h
  | cons o l ih =>
    intro s h
    have hf : ((sndFlush S s).1.buf).length < S := by rw [sndFlush_buf s h]; exact hS
    cases o with
    | bit b =>
      simp only [sndRun]
      apply ih
      unfold sendBit
      simp only
      split
      · exact hS
      · rename_i hne
        simp only [List.length_append, List.length_singleton] at hne ⊢
        omega
    | hash => exact ih _ hf
    | flush => exact ih _ hf
    | data bs => exact ih _ hf
    | back n => exact ih _ hf

/-- The bytes in the next digest depend only on the buffered bits and the bytes hashed so far. -/
theorem sndRun_congr {S : Nat} (hS : 0 < S) (l : List SOp) : ∀ s t : SndSt, s.buf.length < S → s.buf = t.buf → s.hashed = t.hashed →
    (sndRun S s l).buf = (sndRun S t l).buf ∧ (sndRun S s l).hashed = (sndRun S t l).hashed := by
  have hfl : ∀ s t : SndSt, s.buf.length < S → s.buf = t.buf → s.hashed = t.hashed →
      (sndFlush S s).1.buf = (sndFlush S t).1.buf ∧ (sndFlush S s).1.hashed = (sndFlush S t).1.hashed := by
    intro s t h hb hh
    by_cases hn : s.buf = []
    · rw [sndFlush_nil S s hn, sndFlush_nil S t (hb ▸ hn)]; exact ⟨hb, hh⟩
    · rw [sndFlush_pad S s hn h, sndFlush_pad S t (hb ▸ hn) (hb ▸ h)]
      exact ⟨rfl, by simp only [hb, hh]⟩
  induction l with
  | nil => intro s t _ hb hh; exact ⟨hb, hh⟩
  | cons o l ih =>
    intro s t h hb hh
    have hf : ((sndFlush S s).1.buf).length < S := by rw [sndFlush_buf s h]; exact hS
    have h2 := hfl s t h hb hh
    cases o with
    | bit b =>
      simp only [sndRun]
      have hlt := sndRun_buf hS [.bit b] s h
      simp only [sndRun] at hlt
      refine ih _ _ hlt ?_ ?_
      · simp only [sendBit, hb]; split <;> rfl
      · simp only [sendBit, hb]; split <;> simp [hh]
    | hash => exact ih _ _ hf h2.1 rfl
    | flush => exact ih _ _ hf h2.1 h2.2
    | data bs => exact ih _ _ hf h2.1 h2.2
    | back n => exact ih _ _ hf h2.1 h2.2

theorem last_digest {S : Nat} (l : List SOp) (s : SndSt) :
    (sndRun S s (l ++ [.hash])).digests.getLast? = some (sndFlush S (sndRun S s l)).1.hashed := by
  rw [sndRun_append]
  simp [sndRun]

/-- The network and the sending endpoint alone go through the same buffers, hashed bytes and digests: `done` are the calls made so far,
and a waiting call may already have flushed. -/
theorem sndRun_of_reach {S : Nat} (hS : 0 < S) {junk : List Byte} {sops : List SOp} {rops : List ROp} {c : Net}
    (h : Reach S (netInit S junk sops rops) c) :
    ∃ dn, sops = dn ++ c.sops ∧ c.snd.buf.length < S ∧
      ((c.snd.buf = (sndRun S ⟨[], [], [], []⟩ dn).buf ∧ c.snd.hashed = (sndRun S ⟨[], [], [], []⟩ dn).hashed ∧
        c.snd.digests = (sndRun S ⟨[], [], [], []⟩ dn).digests) ∨
      (∃ n l, c.sops = .back n :: l) ∧ c.snd.buf = (sndFlush S (sndRun S ⟨[], [], [], []⟩ dn)).1.buf ∧
        c.snd.hashed = (sndFlush S (sndRun S ⟨[], [], [], []⟩ dn)).1.hashed ∧
        c.snd.digests = (sndFlush S (sndRun S ⟨[], [], [], []⟩ dn)).1.digests) := by
  induction h with
  | init => exact ⟨[], rfl, hS, Or.inl ⟨rfl, rfl, rfl⟩⟩
  | @rcvStep c c' _ hst ih =>
    obtain ⟨dn, h1, h2, h3⟩ := ih
    have hsame : c'.sops = c.sops ∧ c'.snd = c.snd := by
      unfold stepR at hst
      split at hst
      · cases hst
      · split at hst
        · cases hst
        · cases hst
        · split at hst
          · cases hst; exact ⟨rfl, rfl⟩
          · cases hst
          · cases hst
      · cases hst; exact ⟨rfl, rfl⟩
      · split at hst
        · cases hst
        · cases hst; exact ⟨rfl, rfl⟩
      · cases hst; exact ⟨rfl, rfl⟩
      · cases hst; exact ⟨rfl, rfl⟩
    rw [hsame.1, hsame.2]
    exact ⟨dn, h1, h2, h3⟩
  | @sndStep c c' _ hst ih =>
    obtain ⟨dn, h1, h2, h3⟩ := ih
    have hff : ∀ s t : SndSt, s.buf.length < S → s.buf = t.buf → s.hashed = t.hashed → s.digests = t.digests →
        (sndFlush S s).1.buf = (sndFlush S t).1.buf ∧ (sndFlush S s).1.hashed = (sndFlush S t).1.hashed ∧
        (sndFlush S s).1.digests = (sndFlush S t).1.digests := by
      intro s t hl hb hh hd
      by_cases hn : s.buf = []
      · rw [sndFlush_nil S s hn, sndFlush_nil S t (hb ▸ hn)]; exact ⟨hb, hh, hd⟩
      · rw [sndFlush_pad S s hn hl, sndFlush_pad S t (hb ▸ hn) (hb ▸ hl)]
        exact ⟨rfl, by simp only [hb, hh], hd⟩
    have hfb := sndFlush_buf c.snd h2
    have hfl : (sndFlush S c.snd).1.buf.length < S := by rw [hfb]; exact hS
    unfold stepS at hst
    split at hst
    · cases hst
    · rename_i b rest hs
      rcases h3 with ⟨hb, hh, hd⟩ | ⟨⟨n, l, hw⟩, _⟩
      · have hsend : ∀ s t : SndSt, s.buf = t.buf → s.hashed = t.hashed → s.digests = t.digests →
            (sendBit S s b).1.buf = (sendBit S t b).1.buf ∧ (sendBit S s b).1.hashed = (sendBit S t b).1.hashed ∧
            (sendBit S s b).1.digests = (sendBit S t b).1.digests := by
          intro s t hb hh hd
          unfold sendBit
          simp only [hb]
          split
          · exact ⟨rfl, by simp only [hh], hd⟩
          · exact ⟨rfl, hh, hd⟩
        have hlt := sndRun_buf hS [.bit b] c.snd h2
        simp only [sndRun] at hlt
        have hc := (Option.some.inj hst).symm
        subst hc
        refine ⟨dn ++ [.bit b], by rw [h1, hs, List.append_assoc]; rfl, hlt, Or.inl ?_⟩
        rw [sndRun_append]
        exact hsend _ _ hb hh hd
      · rw [hw] at hs; cases hs
    · rename_i rest hs
      rcases h3 with ⟨hb, hh, hd⟩ | ⟨⟨n, l, hw⟩, _⟩
      · have hc := (Option.some.inj hst).symm
        subst hc
        refine ⟨dn ++ [.flush], by rw [h1, hs, List.append_assoc]; rfl, hfl, Or.inl ?_⟩
        rw [sndRun_append]
        exact hff _ _ h2 hb hh hd
      · rw [hw] at hs; cases hs
    · rename_i bs rest hs
      rcases h3 with ⟨hb, hh, hd⟩ | ⟨⟨n, l, hw⟩, _⟩
      · have hc := (Option.some.inj hst).symm
        subst hc
        refine ⟨dn ++ [.data bs], by rw [h1, hs, List.append_assoc]; rfl, hfl, Or.inl ?_⟩
        rw [sndRun_append]
        exact hff _ _ h2 hb hh hd
      · rw [hw] at hs; cases hs
    · rename_i rest hs
      rcases h3 with ⟨hb, hh, hd⟩ | ⟨⟨n, l, hw⟩, _⟩
      · have hc := (Option.some.inj hst).symm
        subst hc
        refine ⟨dn ++ [.hash], by rw [h1, hs, List.append_assoc]; rfl, hfl, Or.inl ?_⟩
        rw [sndRun_append]
        obtain ⟨q1, q2, q3⟩ := hff _ _ h2 hb hh hd
        exact ⟨q1, rfl, congrArg₂ (fun a b => a ++ [b]) q3 q2⟩
      · rw [hw] at hs; cases hs
    · rename_i n rest hs
      split at hst
      · rename_i hne
        have hc := (Option.some.inj hst).symm
        subst hc
        refine ⟨dn, by rw [h1], hfl, Or.inr ⟨⟨n, rest, hs⟩, ?_⟩⟩
        rcases h3 with ⟨hb, hh, hd⟩ | ⟨_, hb, hh, hd⟩
        · exact hff _ _ h2 hb hh hd
        · exact absurd (hb.trans (sndFlush_buf _ (sndRun_buf hS dn _ hS))) hne
      · rename_i hne
        have hnil : c.snd.buf = [] := by simpa using hne
        split at hst
        · cases hst
        · cases hst
          refine ⟨dn ++ [.back n], by rw [h1, hs, List.append_assoc]; rfl, h2, Or.inl ?_⟩
          rw [sndRun_append]
          simp only [sndRun]
          rcases h3 with ⟨hb, hh, hd⟩ | ⟨_, hb, hh, hd⟩
          · rw [sndFlush_nil S _ (hb ▸ hnil)]
            exact ⟨hb, hh, hd⟩
          · exact ⟨hb, hh, hd⟩

end EmpZk
