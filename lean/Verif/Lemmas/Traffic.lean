/-
Programs whose calls are of the same kinds have the same traffic.
-/
import Verif.Spec.Traffic
import Verif.Lemmas.Calls

namespace EmpZk

/-- Two programs whose calls are of the same kinds whatever digests they get, as long as the other party sends them the same bytes. -/
inductive Alike {α β : Type} (W : Kind → List Byte → List Byte → Prop) (R : α → β → Prop) : SProg α → SProg β → Prop where
  | done {a b} : R a b → Alike W R (.done a) (.done b)
  | fail : Alike W R .fail .fail
  | stop : Alike W R .stop .stop
  | call {o o' k k'} : o.kind = o'.kind → (∀ x y, (o.kind.fromPeer → W o.kind x y) → Alike W R (k x) (k' y)) → Alike W R (.call o k) (.call o' k')

section
variable {α β γ δ : Type} {W : Kind → List Byte → List Byte → Prop} {R : α → β → Prop} {Q : γ → δ → Prop}

theorem Alike.bind {P : SProg α} {P' : SProg β} {f : α → SProg γ} {g : β → SProg δ} (h : Alike W R P P')
    (hf : ∀ a b, R a b → Alike W Q (f a) (g b)) : Alike W Q (P.bind f) (P'.bind g) := by
  induction h with
  | done h => exact hf _ _ h
  | fail => exact .fail
  | stop => exact .stop
  | call hk _ ih => exact .call hk ih

theorem Alike.mono {R' : α → β → Prop} {P : SProg α} {P' : SProg β} (h : Alike W R P P') (hr : ∀ a b, R a b → R' a b) : Alike W R' P P' := by
  induction h with
  | done h => exact .done (hr _ _ h)
  | fail => exact .fail
  | stop => exact .stop
  | call hk _ ih => exact .call hk ih

/-- Both undefined, or both defined and related. -/
def ORel (R : α → β → Prop) (a : Option α) (b : Option β) : Prop := (a = none ∧ b = none) ∨ ∃ x y, a = some x ∧ b = some y ∧ R x y

theorem ORel.some {x : α} {y : β} (h : R x y) : ORel R (some x) (some y) := .inr ⟨x, y, rfl, rfl, h⟩

theorem ORel.none : ORel R none none := .inl ⟨rfl, rfl⟩

theorem ORel.bind {a : Option α} {b : Option β} {f : α → Option γ} {g : β → Option δ} (h : ORel R a b)
    (hf : ∀ x y, R x y → ORel Q (f x) (g y)) : ORel Q (a.bind f) (b.bind g) := by
  rcases h with ⟨rfl, rfl⟩ | ⟨x, y, rfl, rfl, h⟩
  · exact .inl ⟨rfl, rfl⟩
  · exact hf x y h

theorem ORel.map {a : Option α} {b : Option β} {f : α → γ} {g : β → δ} (h : ORel R a b)
    (hf : ∀ x y, R x y → Q (f x) (g y)) : ORel Q (a.map f) (b.map g) := by
  rcases h with ⟨rfl, rfl⟩ | ⟨x, y, rfl, rfl, h⟩
  · exact .inl ⟨rfl, rfl⟩
  · exact .inr ⟨_, _, rfl, rfl, hf x y h⟩

theorem Alike.opt {a : Option α} {b : Option β} (h : ORel R a b) : Alike W R (SProg.ofOpt a) (SProg.ofOpt b) := by
  rcases h with ⟨rfl, rfl⟩ | ⟨x, y, rfl, rfl, h⟩
  · exact .fail
  · exact .done h

theorem Alike.calls {l l' : List SOp} (h : l.map SOp.kind = l'.map SOp.kind) : Alike W (fun _ _ => True) (SProg.calls l) (SProg.calls l') := by
  induction l generalizing l' with
  | nil => cases l' with
    | nil => exact .done trivial
    | cons => simp at h
  | cons o l ih => cases l' with
    | nil => simp at h
    | cons o' l' =>
      simp only [List.map_cons, List.cons.injEq] at h
      exact .call h.1 (fun _ _ _ => ih h.2)

/-! ### traffic -/

theorem encBools_len {l l' : List Bool} (h : l.length = l'.length) : (encBools l).length = (encBools l').length := by
  rw [encBools_length _ l rfl, encBools_length _ l' rfl, h]

theorem sendBit_alike (S : Nat) {s s' : SndSt} (h : s.buf.length = s'.buf.length) (b b' : Bool) :
    (sendBit S s b).1.buf.length = (sendBit S s' b').1.buf.length ∧ (sendBit S s b).2.length = (sendBit S s' b').2.length := by
  have hl : (s.buf ++ [b]).length = (s'.buf ++ [b']).length := by simp [h]
  simp only [sendBit]
  rw [← hl]
  split
  · exact ⟨rfl, encBools_len hl⟩
  · exact ⟨hl, rfl⟩

theorem padLoop_alike (S : Nat) : ∀ (n : Nat) {s s' : SndSt}, s.buf.length = s'.buf.length →
    (padLoop S n s).1.buf.length = (padLoop S n s').1.buf.length ∧ (padLoop S n s).2.length = (padLoop S n s').2.length := by
  intro n
  induction n with
  | zero => intro s s' h; exact ⟨h, rfl⟩
  | succ n ih =>
    intro s s' h
    by_cases hb : s.buf = []
    · have hb' : s'.buf = [] := by rw [← List.length_eq_zero_iff, ← h, hb]; rfl
      rw [padLoop, padLoop, if_pos hb, if_pos hb']
      exact ⟨h, rfl⟩
    · have hb' : ¬ s'.buf = [] := by rw [← List.length_eq_zero_iff, ← h, List.length_eq_zero_iff]; exact hb
      rw [padLoop, padLoop, if_neg hb, if_neg hb']
      have h1 := sendBit_alike S h true true
      have h2 := ih h1.1
      refine ⟨h2.1, ?_⟩
      simp only [List.length_append, h1.2, h2.2]

theorem sndFlush_alike (S : Nat) {s s' : SndSt} (h : s.buf.length = s'.buf.length) :
    (sndFlush S s).1.buf.length = (sndFlush S s').1.buf.length ∧ (sndFlush S s).2.length = (sndFlush S s').2.length := padLoop_alike S S h

/-- The same bytes are received. -/
abbrev EqMsg : Kind → List Byte → List Byte → Prop := fun _ x y => x = y

/-- Programs that are alike have the same traffic. -/
theorem alike_traffic (S : Nat) {P : SProg α} {P' : SProg β} (h : Alike EqMsg R P P') : ∀ {s s' : SndSt} (got : List (List Byte)),
    s.buf.length = s'.buf.length → traffic S P s got = traffic S P' s' got := by
  induction h with
  | done _ => intros; rfl
  | fail => intros; rfl
  | stop => intros; rfl
  | @call o o' k k' hk _ ih =>
    intro s s' got hs
    have hf := sndFlush_alike S hs
    cases o with
    | bit b =>
      cases o' <;> simp only [SOp.kind, reduceCtorEq] at hk
      next b' =>
        have hb := sendBit_alike S hs b b'
        simp only [traffic]
        rw [ih [] [] (fun _ => rfl) got hb.1, hb.2]
    | flush =>
      cases o' <;> simp only [SOp.kind, reduceCtorEq] at hk
      simp only [traffic]
      rw [ih [] [] (fun _ => rfl) got hf.1, hf.2]
    | data bs =>
      cases o' <;> simp only [SOp.kind, Kind.data.injEq, reduceCtorEq] at hk
      simp only [traffic]
      rw [ih [] [] (fun _ => rfl) got hf.1, hf.2, hk]
    | hash =>
      cases o' <;> simp only [SOp.kind, reduceCtorEq] at hk
      simp only [traffic]
      rw [ih _ (sndFlush S s').1.hashed (fun h => h.elim) got
        (s := { (sndFlush S s).1 with hashed := [], digests := (sndFlush S s).1.digests ++ [(sndFlush S s).1.hashed] })
        (s' := { (sndFlush S s').1 with hashed := [], digests := (sndFlush S s').1.digests ++ [(sndFlush S s').1.hashed] }) hf.1, hf.2]
    | back n =>
      cases o' <;> simp only [SOp.kind, Kind.back.injEq, reduceCtorEq] at hk
      cases got with
      | nil => simp only [traffic, hf.2]
      | cons g gs =>
        simp only [traffic]
        rw [ih g g (fun _ => rfl) gs (s := { (sndFlush S s).1 with got := (sndFlush S s).1.got ++ [g] })
          (s' := { (sndFlush S s').1 with got := (sndFlush S s').1.got ++ [g] }) hf.1, hf.2]

/-! ### the network -/

theorem piece_append (n : Nat) (l m : List Nat) : piece n (l ++ m) = piece n l ++ m := by
  unfold piece
  split <;> rfl

theorem piece_zero (l : List Nat) : piece 0 l = l := rfl

theorem sndFlush_empty (S : Nat) (s : SndSt) (h : s.buf.length < S) : (sndFlush S s).1.buf = [] := by
  by_cases hb : s.buf = []
  · rw [sndFlush_nil S s hb]; exact hb
  · rw [sndFlush_pad S s hb h]

theorem sendBit_lt (S : Nat) (s : SndSt) (b : Bool) (h : s.buf.length < S) : (sendBit S s b).1.buf.length < S := by
  simp only [sendBit]
  split
  · simp only [List.length_nil]; omega
  · next hn =>
    simp only [List.length_append, List.length_singleton] at hn ⊢
    omega

/-- A run of the network is a beginning of the traffic. -/
theorem sent_traffic {S : Nat} (hS : 0 < S) {junk : List Byte} {p : SProg α} {q : RProg β} {l : List Nat} {c : PNet α β}
    (h : PSent S (pnetInit S junk p q) l c) : c.snd.buf.length < S ∧ ∀ more,
      trafficOf S p (c.snd.got ++ more) = (l ++ (traffic S c.p c.snd more).1, (traffic S c.p c.snd more).2) := by
  induction h with
  | init => exact ⟨hS, fun more => rfl⟩
  | @rcvStep l c c' _ hq ih =>
    have : c'.snd = c.snd ∧ c'.p = c.p := by
      unfold stepQ at hq
      split at hq
      · split at hq
        · cases hq
        · cases hq
        · cases hq; exact ⟨rfl, rfl⟩
      · cases hq
    rw [this.1, this.2]
    exact ih
  | @sndStep l c c' _ hp ih =>
    obtain ⟨hlt, ih⟩ := ih
    unfold stepP at hp
    split at hp
    · next o k hc =>
      cases o with
      | bit b =>
        simp only [stepS, Option.some.injEq] at hp
        subst hp
        refine ⟨sendBit_lt S _ b hlt, fun more => ?_⟩
        have hg : (sendBit S c.snd b).1.got = c.snd.got := (sendBit_keeps S c.snd b).2
        show trafficOf S p ((sendBit S c.snd b).1.got ++ more) = _
        rw [hg, ih more, hc]
        simp only [traffic, List.length_append, Nat.add_sub_cancel_left, if_true, sndRet, List.append_assoc, ← piece_append, List.nil_append]
      | flush =>
        simp only [stepS, Option.some.injEq] at hp
        subst hp
        refine ⟨by show (sndFlush S c.snd).1.buf.length < S; rw [sndFlush_empty S _ hlt]; exact hS, fun more => ?_⟩
        show trafficOf S p ((sndFlush S c.snd).1.got ++ more) = _
        rw [sndFlush_got, ih more, hc]
        simp only [traffic, List.length_append, Nat.add_sub_cancel_left, if_true, sndRet, List.append_assoc, ← piece_append, List.nil_append]
      | data bs =>
        simp only [stepS, Option.some.injEq] at hp
        subst hp
        refine ⟨by show (sndFlush S c.snd).1.buf.length < S; rw [sndFlush_empty S _ hlt]; exact hS, fun more => ?_⟩
        show trafficOf S p ((sndFlush S c.snd).1.got ++ more) = _
        rw [sndFlush_got, ih more, hc]
        simp only [traffic, List.length_append, Nat.add_sub_cancel_left, if_true, sndRet, List.append_assoc, ← piece_append,
          List.nil_append]
      | hash =>
        simp only [stepS, Option.some.injEq] at hp
        subst hp
        refine ⟨by show (sndFlush S c.snd).1.buf.length < S; rw [sndFlush_empty S _ hlt]; exact hS, fun more => ?_⟩
        show trafficOf S p ((sndFlush S c.snd).1.got ++ more) = _
        rw [sndFlush_got, ih more, hc]
        simp only [traffic, List.length_append, Nat.add_sub_cancel_left, if_true, sndRet, List.append_assoc, ← piece_append, List.nil_append,
          List.getLastD_concat]
        simp only [sndFlush_got]
      | back n =>
        simp only [stepS] at hp
        by_cases hb : c.snd.buf = []
        · rw [if_neg (not_not.2 hb)] at hp
          by_cases hn : c.toS.length < n
          · rw [if_pos hn] at hp; cases hp
          · rw [if_neg hn] at hp
            simp only [Option.some.injEq] at hp
            subst hp
            refine ⟨hlt, fun more => ?_⟩
            show trafficOf S p ((c.snd.got ++ [c.toS.take n]) ++ more) = _
            rw [List.append_assoc, ih, hc]
            simp only [List.singleton_append, traffic, sndFlush_nil S _ hb, List.length_nil, piece_zero, Nat.sub_self, List.append_nil, if_true,
              sndRet, List.getLastD_concat]
        · rw [if_pos hb] at hp
          simp only [Option.some.injEq] at hp
          subst hp
          have he := sndFlush_empty S _ hlt
          refine ⟨by show (sndFlush S c.snd).1.buf.length < S; rw [he]; exact hS, fun more => ?_⟩
          show trafficOf S p ((sndFlush S c.snd).1.got ++ more) = _
          rw [sndFlush_got, ih more, hc]
          simp only [List.length_append, Nat.add_sub_cancel_left, reduceCtorEq, if_false, List.append_assoc, ← piece_append, List.nil_append]
          cases more with
          | nil => simp only [traffic, sndFlush_nil S _ he, List.length_nil, piece_zero]
          | cons g gs => simp only [traffic, sndFlush_nil S _ he, List.length_nil, piece_zero]
    · cases hp

end
/-- Two programs with the same traffic in two runs over the network. -/
theorem traffic_network {S : Nat} (hS : 0 < S) {α α' β β' : Type} {p : SProg α} {p' : SProg α'} (h : ∀ got, trafficOf S p got = trafficOf S p' got)
    {q : RProg β} {q' : RProg β'} {junk junk' : List Byte} {l l' : List Nat} {c : PNet α β} {c' : PNet α' β'}
    (hc : PSent S (pnetInit S junk p q) l c) (hc' : PSent S (pnetInit S junk' p' q') l' c') (hg : c.snd.got <+: c'.snd.got) :
    (l <+: l' ∨ l' <+: l) ∧
    (c.snd.got = c'.snd.got → ∀ P, c.p = .done P → (∀ P', c'.p = .done P' → l = l') ∧ c'.p ≠ .fail ∧ c'.p ≠ .stop) := by
  obtain ⟨_, ht⟩ := sent_traffic hS hc
  obtain ⟨_, ht'⟩ := sent_traffic hS hc'
  obtain ⟨t, hgt⟩ := hg
  have key := ht t
  have key' := ht' []
  rw [List.append_nil, ← hgt, ← h, key, Prod.mk.injEq] at key'
  refine ⟨?_, ?_⟩
  · have hp := List.prefix_append l' (traffic S c'.p c'.snd []).1
    rw [← key'.1] at hp
    exact List.prefix_or_prefix_of_prefix (List.prefix_append _ _) hp
  · intro he P hP
    have h0 : t = [] := by
      rw [he] at hgt
      simpa using hgt
    rw [hP] at key'
    refine ⟨fun P' hP' => ?_, fun hf => ?_, fun hf => ?_⟩
    · rw [hP'] at key'
      simpa [traffic] using key'.1
    · rw [hf] at key'
      simp [traffic] at key'
    · rw [hf] at key'
      simp [traffic] at key'

end EmpZk
