/-
Properties C14-C16: the bit channel.
-/
import Verif.Lemmas.BoolIO

namespace EmpZk

/-! ### C14 -/

/-- C14. For every buffer size, mirrored programs and schedule: the receiving endpoint never runs into undefined
behaviour (out-of-range access or a memory byte that is not a boolean). -/
theorem C14_no_ub {S : Nat} (hS : 0 < S) {junk : List Byte} {sops : List SOp} {rops : List ROp}
    (hm : List.Forall₂ Mirror sops rops) {c : Net} (h : Reach S (netInit S junk sops rops) c) :
    stepR S c ≠ .ub := by
  rcases stepR_inv hS (reach_inv hS hm h) with ⟨c', h1, _⟩ | ⟨h1, _⟩ <;> rw [h1] <;> simp

/-- C14. No deadlock: if the program ends with a flush (the destructor does), then in every reachable configuration
either both ends are finished or one of them can make a step. -/
theorem C14_no_deadlock {S : Nat} (hS : 0 < S) {junk : List Byte} {sops : List SOp} {rops : List ROp}
    (hm : List.Forall₂ Mirror (sops ++ [.flush]) (rops ++ [.flush])) {c : Net}
    (h : Reach S (netInit S junk (sops ++ [.flush]) (rops ++ [.flush])) c) :
    (c.sops = [] ∧ c.rops = []) ∨ (∃ c', stepS S c = some c') ∨ (∃ c', stepR S c = .ok c') := by
  have hi := reach_inv hS hm h
  rcases stepR_inv hS hi with ⟨c', h1, _⟩ | ⟨_, hw | hw⟩
  · exact Or.inr (Or.inr ⟨c', h1⟩)
  · rcases hw with hr | ⟨pre, b, he, hne⟩ | ⟨b, rest, he⟩ | ⟨bs, rest, he⟩
    · -- receiver finished
      cases hso : c.sops with
      | nil => exact Or.inl ⟨rfl, hr⟩
      | cons o rest =>
        right; left
        cases hi with
        | sender sd mid rd cur ds hs0 hr0 hm1 hm2 _ _ _ _ _ _ _ _ =>
          rw [hr, hso] at hm2
          have := hm2.length_eq
          simp at this
        | receiver sd rd rah es hs0 hr0 hm1 hm2 hcur hbuf _ hp _ _ _ _ _ =>
          rw [hr, hso, List.append_nil] at hm2
          cases rah with
          | nil => cases hm2
          | cons y rah' =>
            have hmm : Mirror o y := by cases hm2 with | cons a _ => exact a
            cases y with
            | bit => exact hp.elim
            | data n => exact hp.elim
            | flush => cases o <;> simp [Mirror] at hmm; exact ⟨_, by simp only [stepS, hso] <;> rfl⟩
            | hash => cases o <;> simp [Mirror] at hmm; exact ⟨_, by simp only [stepS, hso] <;> rfl⟩
            | back bs =>
              cases o <;> simp [Mirror] at hmm
              obtain ⟨t, h1, h2⟩ := hp
              rename_i n
              have : ¬ c.toS.length < n := by rw [h1, List.length_append]; omega
              refine ⟨_, by simp only [stepS, hso]; rw [if_neg (by simp [hbuf]), if_neg this]⟩
    · cases hso : c.sops with
      | nil =>
        rw [hso, List.append_nil] at he
        have := congrArg List.getLast? he
        simp at this
      | cons o rest =>
        right; left
        cases o with
        | bit b => exact ⟨_, by simp only [stepS, hso] <;> rfl⟩
        | flush => exact ⟨_, by simp only [stepS, hso] <;> rfl⟩
        | data bs => exact ⟨_, by simp only [stepS, hso] <;> rfl⟩
        | hash => exact ⟨_, by simp only [stepS, hso] <;> rfl⟩
        | back n => exact ⟨_, by simp only [stepS, hso]; rw [if_pos hne]⟩
    · exact Or.inr (Or.inl ⟨_, by simp only [stepS, he] <;> rfl⟩)
    · exact Or.inr (Or.inl ⟨_, by simp only [stepS, he] <;> rfl⟩)
  · exact Or.inr (Or.inl hw)

/-- C14. When both ends are finished the receiver has obtained exactly the bits and byte strings sent, in order, the
sender exactly the byte strings sent back, and nothing is left in transit. -/
theorem C14_fifo {S : Nat} (hS : 0 < S) {junk : List Byte} {sops : List SOp} {rops : List ROp}
    (hm : List.Forall₂ Mirror sops rops) {c : Net} (h : Reach S (netInit S junk sops rops) c)
    (h1 : c.sops = []) (h2 : c.rops = []) :
    c.rcv.bits = sentBits sops ∧ c.rcv.datas = sentData sops ∧ c.snd.got = sentBack rops ∧ c.toR = [] ∧ c.toS = [] := by
  cases reach_inv hS hm h with
  | sender sd mid rd cur ds hs0 hr0 hm1 hm2 hcur hlt hp hdig hgot htoS hbits hdata =>
    rw [h1, h2] at hm2
    have : mid = [] := by cases mid with | nil => rfl | cons a b => cases hm2
    subst this
    rw [h1] at hs0; rw [h2] at hr0
    simp at hs0 hr0
    subst hs0; subst hr0
    exact ⟨hbits, hdata, hgot, hp.1, htoS⟩
  | receiver sd rd rah es hs0 hr0 hm1 hm2 hcur hbuf _ hp htoR hdig hgot hbits hdata =>
    rw [h1, h2] at hm2
    have : rah = [] := by cases rah with | nil => rfl | cons a b => cases hm2
    subst this
    rw [h1] at hs0; rw [h2] at hr0
    simp at hs0 hr0
    subst hs0; subst hr0
    exact ⟨hbits, hdata, hgot, htoR, hp.2.2⟩

/-- C14. At every moment of every schedule what the receiver has obtained is a prefix of what was sent. -/
theorem C14_prefix {S : Nat} (hS : 0 < S) {junk : List Byte} {sops : List SOp} {rops : List ROp}
    (hm : List.Forall₂ Mirror sops rops) {c : Net} (h : Reach S (netInit S junk sops rops) c) :
    c.rcv.bits <+: sentBits sops ∧ c.rcv.datas <+: sentData sops ∧ c.snd.got <+: sentBack rops := by
  cases reach_inv hS hm h with
  | sender sd mid rd cur ds hs0 hr0 hm1 hm2 hcur hlt hp hdig hgot htoS hbits hdata =>
    refine ⟨⟨sentBits (mid ++ c.sops), ?_⟩, ⟨sentData (mid ++ c.sops), ?_⟩, ⟨sentBack c.rops, ?_⟩⟩
    · rw [hbits, ← sentBits_append, ← List.append_assoc, ← hs0]
    · rw [hdata, ← sentData_append, ← List.append_assoc, ← hs0]
    · rw [hgot, ← sentBack_append, ← hr0]
  | receiver sd rd rah es hs0 hr0 hm1 hm2 hcur hbuf _ hp htoR hdig hgot hbits hdata =>
    refine ⟨⟨sentBits c.sops, ?_⟩, ⟨sentData c.sops, ?_⟩, ⟨sentBack (rah ++ c.rops), ?_⟩⟩
    · rw [hbits, ← sentBits_append, ← hs0]
    · rw [hdata, ← sentData_append, ← hs0]
    · rw [hgot, ← sentBack_append, ← List.append_assoc, ← hr0]

/-- Work left: remaining calls, plus one for a padding that a waiting call may have to send. -/
def netMeasure (c : Net) : Nat := 2 * c.sops.length + c.rops.length + (if c.snd.buf = [] then 0 else 1)

/-- C14. Every step strictly reduces the work left, so every schedule comes to an end. -/
theorem C14_terminates {S : Nat} {c c' : Net} (hlt : c.snd.buf.length < S) :
    (stepS S c = some c' → netMeasure c' < netMeasure c) ∧ (stepR S c = .ok c' → netMeasure c' < netMeasure c) := by
  have hfl : ∀ s : SndSt, s.buf.length < S → (sndFlush S s).1.buf = [] := by
    intro s hs
    by_cases hb : s.buf = []
    · rw [sndFlush_nil S s hb]; exact hb
    · rw [sndFlush_pad S s hb hs]
  constructor
  · intro h
    cases hso : c.sops with
    | nil => simp [stepS, hso] at h
    | cons o rest =>
      cases o with
      | bit b =>
        simp only [stepS, hso, Option.some.injEq] at h
        subst h
        simp only [netMeasure, hso, List.length_cons]
        split <;> split <;> omega
      | flush =>
        simp only [stepS, hso, Option.some.injEq] at h
        subst h
        simp only [netMeasure, hso, List.length_cons, hfl _ hlt, if_true]
        split <;> omega
      | data bs =>
        simp only [stepS, hso, Option.some.injEq] at h
        subst h
        simp only [netMeasure, hso, List.length_cons, hfl _ hlt, if_true]
        split <;> omega
      | hash =>
        simp only [stepS, hso, Option.some.injEq] at h
        subst h
        simp only [netMeasure, hso, List.length_cons, hfl _ hlt, if_true]
        split <;> omega
      | back n =>
        by_cases hb : c.snd.buf = []
        · simp only [stepS, hso, hb, ne_eq, not_true_eq_false, if_false] at h
          split at h
          · simp at h
          · simp only [Option.some.injEq] at h
            subst h
            simp [netMeasure, hso, hb]
        · simp only [stepS, hso, ne_eq, hb, not_false_eq_true, if_true, Option.some.injEq] at h
          subst h
          simp only [netMeasure, hfl _ hlt, if_true, if_neg hb, hso]
          omega
  · intro h
    cases hro : c.rops with
    | nil => simp [stepR, hro] at h
    | cons o rest =>
      cases o with
      | bit =>
        simp only [stepR, hro] at h
        split at h
        · simp at h
        · simp at h
        · split at h
          · injection h with h; subst h; simp only [netMeasure, hro, List.length_cons]; omega
          · simp at h
          · simp at h
      | flush =>
        simp only [stepR, hro] at h
        injection h with h; subst h; simp only [netMeasure, hro, List.length_cons]; omega
      | data n =>
        simp only [stepR, hro] at h
        split at h
        · simp at h
        · injection h with h; subst h; simp only [netMeasure, hro, List.length_cons]; omega
      | hash =>
        simp only [stepR, hro] at h
        injection h with h; subst h; simp only [netMeasure, hro, List.length_cons]; omega
      | back bs =>
        simp only [stepR, hro] at h
        injection h with h; subst h; simp only [netMeasure, hro, List.length_cons]; omega

/-! ### C15 -/

/-- C15. For every schedule, when both ends are finished they have derived the same challenges: the byte strings hashed
for each of them are identical. -/
theorem C15_same_challenges {S : Nat} (hS : 0 < S) {junk : List Byte} {sops : List SOp} {rops : List ROp}
    (hm : List.Forall₂ Mirror sops rops) {c : Net} (h : Reach S (netInit S junk sops rops) c)
    (h1 : c.sops = []) (h2 : c.rops = []) : c.snd.digests = c.rcv.digests := by
  cases reach_inv hS hm h with
  | sender sd mid rd cur ds hs0 hr0 hm1 hm2 hcur hlt hp hdig hgot htoS hbits hdata =>
    rw [h1, h2] at hm2
    have : mid = [] := by cases mid with | nil => rfl | cons a b => cases hm2
    subst this
    rw [hdig, hp.2.2.2.2, List.append_nil]
  | receiver sd rd rah es hs0 hr0 hm1 hm2 hcur hbuf _ hp htoR hdig hgot hbits hdata =>
    rw [h1, h2] at hm2
    have : rah = [] := by cases rah with | nil => rfl | cons a b => cases hm2
    subst this
    rw [hdig, hp.2.1, List.append_nil]

/-- Two programs with the same calls, possibly different bits. -/
def SameShape : SOp → SOp → Prop
  | .bit _, .bit _ => True
  | a, b => a = b

/-- C15. The hashed transcript determines every bit sent: two programs making the same calls, with the hash of everything
sent equal at the end (after a flush), sent the same bits. -/
theorem C15_binding (S : Nat) (hS : 0 < S) : ∀ (l l' : List SOp) (s s' : SndSt),
    List.Forall₂ SameShape l l' → SOp.hash ∉ l → s.buf.length < S → s.buf.length = s'.buf.length →
    s.hashed.length = s'.hashed.length →
    (sndFlush S (sndRun S s l)).1.hashed = (sndFlush S (sndRun S s' l')).1.hashed →
    s.hashed = s'.hashed ∧ s.buf = s'.buf ∧ sentBits l = sentBits l' := by
  have hflush : ∀ s s' : SndSt, s.buf.length < S → s.buf.length = s'.buf.length →
      s.hashed.length = s'.hashed.length →
      (sndFlush S s).1.hashed.length = (sndFlush S s').1.hashed.length ∧ (sndFlush S s).1.buf = [] ∧
      (sndFlush S s').1.buf = [] ∧
      ((sndFlush S s).1.hashed = (sndFlush S s').1.hashed → s.hashed = s'.hashed ∧ s.buf = s'.buf) := by
    intro s s' h1 h2 h3
    by_cases hb : s.buf = []
    · have hb' : s'.buf = [] := by apply List.eq_nil_of_length_eq_zero; rw [← h2, hb]; rfl
      rw [sndFlush_nil S s hb, sndFlush_nil S s' hb']
      exact ⟨h3, hb, hb', fun h => ⟨h, by rw [hb, hb']⟩⟩
    · have hb' : s'.buf ≠ [] := by
        intro h; apply hb; apply List.eq_nil_of_length_eq_zero; rw [h2, h]; rfl
      rw [sndFlush_pad S s hb h1, sndFlush_pad S s' hb' (h2 ▸ h1)]
      have hl : (s.buf ++ List.replicate (S - s.buf.length) true).length = S := by simp; omega
      have hl' : (s'.buf ++ List.replicate (S - s'.buf.length) true).length = S := by simp; omega
      refine ⟨?_, rfl, rfl, ?_⟩
      · simp only [List.length_append]
        rw [encBools_length S _ hl, encBools_length S _ hl', h3]
      · intro h
        have := List.append_inj h h3
        refine ⟨this.1, ?_⟩
        have h5 := encBools_inj (by rw [hl, hl']) this.2
        exact (List.append_inj h5 h2).1
  intro l
  induction l with
  | nil =>
    intro l' s s' hf _ h1 h2 h3 h4
    cases hf
    obtain ⟨a, b⟩ := (hflush s s' h1 h2 h3).2.2.2 h4
    exact ⟨a, b, rfl⟩
  | cons o l ih =>
    intro l' s s' hf hnh h1 h2 h3 h4
    cases hf with
    | cons hs hf =>
      rename_i o' l'
      have hnh' : SOp.hash ∉ l := fun h => hnh (by simp [h])
      have hfl : ∀ t t' : SndSt, t = (sndFlush S s).1 → t' = (sndFlush S s').1 →
          (sndFlush S (sndRun S t l)).1.hashed = (sndFlush S (sndRun S t' l')).1.hashed →
          s.hashed = s'.hashed ∧ s.buf = s'.buf ∧ sentBits l = sentBits l' := by
        rintro t t' rfl rfl h
        obtain ⟨a, b, c, d⟩ := hflush s s' h1 h2 h3
        obtain ⟨e, f, g⟩ := ih l' _ _ hf hnh' (by rw [b]; exact hS) (by rw [b, c]) a h
        obtain ⟨u, v⟩ := d e
        exact ⟨u, v, g⟩
      cases o with
      | bit b =>
        cases o' <;> simp [SameShape] at hs
        rename_i b'
        simp only [sndRun] at h4
        have hlen : (s.buf ++ [b]).length = (s'.buf ++ [b']).length := by simp [h2]
        unfold sendBit at h4
        simp only at h4
        by_cases hfull : (s.buf ++ [b]).length = S
        · rw [if_pos hfull, if_pos (hlen ▸ hfull)] at h4
          obtain ⟨e, f, g⟩ := ih l' ⟨[], s.hashed ++ encBools (s.buf ++ [b]), s.digests, s.got⟩
            ⟨[], s'.hashed ++ encBools (s'.buf ++ [b']), s'.digests, s'.got⟩ hf hnh' hS rfl
            (by simp only [List.length_append] ; rw [encBools_length S _ hfull, encBools_length S _ (hlen ▸ hfull), h3]) h4
          have := List.append_inj e h3
          have h5 := encBools_inj hlen this.2
          have h6 := List.append_inj h5 h2
          refine ⟨this.1, h6.1, ?_⟩
          have h7 : b = b' := by simpa using h6.2
          simp only [sentBits, List.flatMap_cons, h7] at g ⊢
          rw [g]
        · rw [if_neg hfull, if_neg (hlen ▸ hfull)] at h4
          obtain ⟨e, f, g⟩ := ih l' ⟨s.buf ++ [b], s.hashed, s.digests, s.got⟩ ⟨s'.buf ++ [b'], s'.hashed, s'.digests, s'.got⟩
            hf hnh' (by simp at hfull ⊢; omega) hlen h3 h4
          have h6 := List.append_inj f h2
          refine ⟨e, h6.1, ?_⟩
          have h7 : b = b' := by simpa using h6.2
          simp only [sentBits, List.flatMap_cons, h7] at g ⊢
          rw [g]
      | flush =>
        have : o' = .flush := by cases o' <;> simp [SameShape] at hs ⊢
        subst this
        exact hfl _ _ rfl rfl h4
      | data bs =>
        have : o' = .data bs := by cases o' <;> simp [SameShape] at hs ⊢; exact hs.symm
        subst this
        exact hfl _ _ rfl rfl h4
      | back n =>
        have : o' = .back n := by cases o' <;> simp [SameShape] at hs ⊢; exact hs.symm
        subst this
        exact hfl _ _ rfl rfl h4
      | hash => exact absurd (by simp) hnh

/-- C15 (limit of the guarantee): byte strings sent with `send_data` are not hashed; two runs that differ only in them
derive the same challenges. -/
theorem C15_data_not_hashed (S : Nat) : ∀ (l : List SOp) (f : List Byte → List Byte) (s : SndSt),
    sndRun S s (l.map (fun o => match o with | .data bs => .data (f bs) | o => o)) = sndRun S s l := by
  intro l f
  induction l with
  | nil => intro s; rfl
  | cons o l ih =>
    intro s
    cases o <;> simp only [List.map_cons, sndRun, ih]

/-! ### C16 -/

/-- C16. Packing and unpacking booleans is lossless for every length, and the receiver reads exactly the bytes sent. -/
theorem C16_roundtrip (A : List Bool) (junk : List Byte) :
    (encBools A).length = A.length / 8 + A.length % 8 ∧
    (encBools A ++ junk).take (encLen A.length) = encBools A ∧
    (decBytes A.length (encBools A)).map byteBool = A.map some := by
  have h := encBools_length A.length A rfl
  refine ⟨h, ?_, ?_⟩
  · rw [← h, List.take_left]
  · rw [dec_enc _ _ rfl, List.map_map]
    apply List.map_congr_left
    intro b _
    exact byteBool_boolByte b

/-- C16. The portable loops compute what the instructions compute, on every byte group. -/
theorem C16_portable_pack (b0 b1 b2 b3 b4 b5 b6 b7 : Bool) :
    (pextLoop (boolsWord b0 b1 b2 b3 b4 b5 b6 b7) 8 boolMask 1#64 0#64) =
      pextU64 (boolsWord b0 b1 b2 b3 b4 b5 b6 b7) boolMask 64 0 0 := by
  revert b0 b1 b2 b3 b4 b5 b6 b7
  decide +kernel

/-- C16. Same for unpacking. -/
theorem C16_portable_unpack (c : Byte) :
    pdepLoop (c.setWidth 64) 8 boolMask 1#64 0#64 = pdepU64 (c.setWidth 64) boolMask 64 0 0 := by
  have : ∀ n : Fin 256, pdepLoop ((BitVec.ofFin (w := 8) n).setWidth 64) 8 boolMask 1#64 0#64 =
      pdepU64 ((BitVec.ofFin (w := 8) n).setWidth 64) boolMask 64 0 0 := by decide +kernel
  exact this c.toFin

/-- C16. For lengths divisible by 8 every received byte string is valid: unpacked memory holds booleans only. -/
theorem C16_any_bytes (n : Nat) : ∀ (w : List Byte), w.length = n → ∀ c ∈ decBytes (8 * n) w, (byteBool c).isSome := by
  have hun : ∀ m : Fin 256, ∀ j : Fin 8, (byteBool (unpackByte (BitVec.ofFin (w := 8) m) j)).isSome := by
    decide +kernel
  have hun' : ∀ (c : Byte) (j : Fin 8), (byteBool (unpackByte c j)).isSome := fun c j => hun c.toFin j
  induction n with
  | zero =>
    intro w hw c hc
    have : w = [] := List.eq_nil_of_length_eq_zero hw
    subst this
    simp [decBytes] at hc
  | succ n ih =>
    intro w hw c hc
    match w, hw with
    | a :: w, hw =>
      have he : 8 * (n + 1) = 8 * n + 8 := by omega
      rw [he, decBytes] at hc
      simp only [List.mem_cons] at hc
      rcases hc with rfl | rfl | rfl | rfl | rfl | rfl | rfl | rfl | hc
      · exact hun' a 0
      · exact hun' a 1
      · exact hun' a 2
      · exact hun' a 3
      · exact hun' a 4
      · exact hun' a 5
      · exact hun' a 6
      · exact hun' a 7
      · exact ih w (by simpa using hw) c hc

/-! ### concrete cases -/

/-- A mirrored pair of programs: three bits, a byte string, a bit, a byte back, a challenge. -/
def exS : List SOp := [.bit true, .bit false, .bit true, .data [7#8], .bit true, .back 1, .hash, .flush]
/-- The other end. -/
def exR : List ROp := [.bit, .bit, .bit, .data 1, .bit, .back [9#8], .hash, .flush]

example : List.Forall₂ Mirror exS exR := by
  unfold exS exR
  repeat (first | exact .nil | refine .cons (by simp [Mirror]) ?_)

/-- Runs the sender as far as possible, then the receiver, `n` times. -/
def drive (S : Nat) : Nat → Net → Net
  | 0, c => c
  | n + 1, c =>
    match stepS S c with
    | some c' => drive S n c'
    | none => match stepR S c with | .ok c' => drive S n c' | _ => c

example : (drive 2 40 (netInit 2 [] exS exR)).rcv.bits = [true, false, true, true] ∧
    (drive 2 40 (netInit 2 [] exS exR)).rops = [] ∧
    (drive 2 40 (netInit 2 [] exS exR)).snd.got = [[9#8]] := by decide +kernel

example : encBools [true, false, false, false, false, false, true, false, true] = [0x41#8, 1#8] := by decide +kernel

-- without the flush before `get_hash_block` the two ends can disagree: after one bit and S = 2 the sender has hashed
-- nothing, while the receiver can only have the bit after hashing its whole block
example : (sendBit 2 ⟨[], [], [], []⟩ true).1.hashed = [] ∧
    (match rcvFill 2 ⟨[], 2, [], [], [], []⟩ (encBools [true, true]) with
     | .ok (r, _) => r.hashed
     | _ => []) = [1#8, 1#8] := by decide +kernel

end EmpZk
