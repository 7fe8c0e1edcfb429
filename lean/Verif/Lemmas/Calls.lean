/-
Two programs whose calls mirror each other, under every schedule.
-/
import Verif.Model.Calls
import Verif.Lemmas.BoolNet
import Verif.Lemmas.RowNet
import Verif.Props.BoolIO

namespace EmpZk

/-! ### runs of one program on given results -/

/-- Calls on the sending endpoint that return nothing. -/
def SOp.plain : SOp → Prop
  | .hash | .back _ => False
  | _ => True

/-- The program makes the calls `l`, getting the byte strings `g` and the digests `d`, and returns `a`. -/
inductive SProg.Run {α : Type} : SProg α → List SOp → List (List Byte) → List (List Byte) → α → Prop where
  | done (a : α) : Run (.done a) [] [] [] a
  | plain {o k l g d a} (ho : o.plain) : Run (k []) l g d a → Run (.call o k) (o :: l) g d a
  | hash {k x l g d a} : Run (k x) l g d a → Run (.call .hash k) (.hash :: l) g (x :: d) a
  | back {n k x l g d a} : Run (k x) l g d a → Run (.call (.back n) k) (.back n :: l) (x :: g) d a

/-- Calls on the receiving endpoint that return nothing. -/
def ROp.plain : ROp → Prop
  | .flush | .back _ => True
  | _ => False

/-- The program makes the calls `l`, getting the bits `B`, the byte strings `D` and the digests `H`, and returns `b`. -/
inductive RProg.Run {α : Type} : RProg α → List ROp → List Bool → List (List Byte) → List (List Byte) → α → Prop where
  | done (a : α) : Run (.done a) [] [] [] [] a
  | plain {o k l B D H a} (ho : o.plain) : Run (k false []) l B D H a → Run (.call o k) (o :: l) B D H a
  | bit {k x l B D H a} : Run (k x []) l B D H a → Run (.call .bit k) (.bit :: l) (x :: B) D H a
  | data {n k x l B D H a} : Run (k false x) l B D H a → Run (.call (.data n) k) (.data n :: l) B (x :: D) H a
  | hash {k x l B D H a} : Run (k false x) l B D H a → Run (.call .hash k) (.hash :: l) B D (x :: H) a

theorem SProg.bind_assoc {α β γ : Type} (p : SProg α) (f : α → SProg β) (g : β → SProg γ) :
    (p.bind f).bind g = p.bind (fun a => (f a).bind g) := by
  induction p with
  | done a => rfl
  | fail => rfl
  | stop => rfl
  | call o k ih => simp only [SProg.bind, ih]

theorem RProg.bind_assoc {α β γ : Type} (p : RProg α) (f : α → RProg β) (g : β → RProg γ) :
    (p.bind f).bind g = p.bind (fun a => (f a).bind g) := by
  induction p with
  | done a => rfl
  | fail => rfl
  | stop => rfl
  | call o k ih => simp only [RProg.bind, ih]

theorem SProg.Run.bind {α β : Type} {p : SProg α} {f : α → SProg β} {l g d a l' g' d' b} (h : p.Run l g d a)
    (h' : (f a).Run l' g' d' b) : (p.bind f).Run (l ++ l') (g ++ g') (d ++ d') b := by
  induction h with
  | done a => exact h'
  | plain ho _ ih => exact .plain ho (ih h')
  | hash _ ih => exact .hash (ih h')
  | back _ ih => exact .back (ih h')

theorem RProg.Run.bind {α β : Type} {p : RProg α} {f : α → RProg β} {l B D H a l' B' D' H' b} (h : p.Run l B D H a)
    (h' : (f a).Run l' B' D' H' b) : (p.bind f).Run (l ++ l') (B ++ B') (D ++ D') (H ++ H') b := by
  induction h with
  | done a => exact h'
  | plain ho _ ih => exact .plain ho (ih h')
  | bit _ ih => exact .bit (ih h')
  | data _ ih => exact .data (ih h')
  | hash _ ih => exact .hash (ih h')

theorem SProg.Run.head {α : Type} {o : SOp} {k : List Byte → SProg α} {l g d a} (h : (SProg.call o k).Run l g d a) : ∃ rest, l = o :: rest := by
  cases h <;> exact ⟨_, rfl⟩

theorem RProg.Run.head {α : Type} {o : ROp} {k : Bool → List Byte → RProg α} {l B D H a} (h : (RProg.call o k).Run l B D H a) :
    ∃ rest, l = o :: rest := by
  cases h <;> exact ⟨_, rfl⟩

theorem SProg.Run.of_cons {α : Type} {p : SProg α} {o : SOp} {rest : List SOp} {g d a} (h : p.Run (o :: rest) g d a) :
    ∃ k, p = .call o k := by
  cases h <;> exact ⟨_, rfl⟩

theorem RProg.Run.of_cons {α : Type} {p : RProg α} {o : ROp} {rest : List ROp} {B D H a} (h : p.Run (o :: rest) B D H a) :
    ∃ k, p = .call o k := by
  cases h <;> exact ⟨_, rfl⟩

theorem SProg.Run.of_nil {α : Type} {p : SProg α} {g d a} (h : p.Run [] g d a) : p = .done a := by
  cases h; rfl

theorem RProg.Run.of_nil {α : Type} {p : RProg α} {B D H a} (h : p.Run [] B D H a) : p = .done a := by
  cases h; rfl

/-- A run does not meet the two bad ends. -/
theorem SProg.Run.ok {α : Type} {p : SProg α} {l g d a} (h : p.Run l g d a) : p ≠ .fail ∧ p ≠ .stop ∧ (∀ x, p = .done x → l = [] ∧ x = a) := by
  cases h <;> refine ⟨by simp, by simp, ?_⟩ <;> intro x hx <;> cases hx
  exact ⟨rfl, rfl⟩

theorem RProg.Run.ok {α : Type} {p : RProg α} {l B D H a} (h : p.Run l B D H a) :
    p ≠ .fail ∧ p ≠ .stop ∧ (∀ x, p = .done x → l = [] ∧ x = a) := by
  cases h <;> refine ⟨by simp, by simp, ?_⟩ <;> intro x hx <;> cases hx
  exact ⟨rfl, rfl⟩

/-! ### two programs in step -/

/-- Whatever the sender's endpoint holds, the two programs make mirrored calls when each is given what the other sends, and return results
related by `Post`. -/
def Lock {α β : Type} (S : Nat) (P : SProg α) (V : RProg β) (Post : α → β → Prop) : Prop :=
  ∀ s : SndSt, ∃ l l' a b, List.Forall₂ Mirror l l' ∧ P.Run l (sentBack l') (newDigs S s l) a ∧
    V.Run l' (sentBits l) (sentData l) (newDigs S s l) b ∧ Post a b

section
variable {S : Nat} {α β γ δ : Type}

theorem Lock.pure {a : α} {b : β} {Post : α → β → Prop} (h : Post a b) : Lock S (.done a) (.done b) Post :=
  fun _ => ⟨[], [], a, b, .nil, .done a, .done b, h⟩

theorem Lock.bind {P : SProg α} {V : RProg β} {Post : α → β → Prop} {f : α → SProg γ} {g : β → RProg δ} {Post' : γ → δ → Prop}
    (h : Lock S P V Post) (h' : ∀ a b, Post a b → Lock S (f a) (g b) Post') : Lock S (P.bind f) (V.bind g) Post' := by
  intro s
  obtain ⟨l, l', a, b, h1, h2, h3, h4⟩ := h s
  obtain ⟨m, m', c, d, k1, k2, k3, k4⟩ := h' a b h4 (sndRun S s l)
  refine ⟨l ++ m, l' ++ m', c, d, List.rel_append h1 k1, ?_, ?_, k4⟩
  · rw [sentBack_append, newDigs_append]
    exact h2.bind k2
  · rw [sentBits_append, sentData_append, newDigs_append]
    exact h3.bind k3

theorem Lock.mono {P : SProg α} {V : RProg β} {Post Post' : α → β → Prop} (h : Lock S P V Post) (hp : ∀ a b, Post a b → Post' a b) :
    Lock S P V Post' := by
  intro s
  obtain ⟨l, l', a, b, h1, h2, h3, h4⟩ := h s
  exact ⟨l, l', a, b, h1, h2, h3, hp a b h4⟩

/-- One mirrored call. -/
theorem Lock.call {o : SOp} {r : ROp} (hm : Mirror o r) {k : List Byte → SProg α} {k' : Bool → List Byte → RProg β}
    {Post : α → β → Prop}
    (h : ∀ d : List Byte, Lock S (k (match r with | .back bs => bs | .hash => d | _ => []))
      (k' (match o with | .bit b => b | _ => false) (match o with | .data bs => bs | .hash => d | _ => [])) Post) :
    Lock S (.call o k) (.call r k') Post := by
  intro s
  obtain ⟨l, l', a, b, h1, h2, h3, h4⟩ := h (sndFlush S s).1.hashed (sndRun S s [o])
  refine ⟨o :: l, r :: l', a, b, .cons hm h1, ?_, ?_, h4⟩
  · rw [show o :: l = [o] ++ l from rfl, newDigs_append, show r :: l' = [r] ++ l' from rfl, sentBack_append]
    cases o <;> cases r <;> simp only [Mirror] at hm
    · rw [newDigs_one S s _ (by simp)]; exact .plain trivial h2
    · rw [newDigs_one S s _ (by simp)]; exact .plain trivial h2
    · rw [newDigs_one S s _ (by simp)]; exact .plain trivial h2
    · rw [newDigs_one S s _ (by simp)]; exact .back h2
    · rw [newDigs_hash]; exact .hash h2
  · rw [show o :: l = [o] ++ l from rfl, newDigs_append, sentBits_append, sentData_append]
    cases o <;> cases r <;> simp only [Mirror] at hm
    · rw [newDigs_one S s _ (by simp)]; exact .bit h3
    · rw [newDigs_one S s _ (by simp)]; exact .plain trivial h3
    · rw [newDigs_one S s _ (by simp)]; exact .data h3
    · rw [newDigs_one S s _ (by simp)]; exact .plain trivial h3
    · rw [newDigs_hash]; exact .hash h3

/-- Mirrored calls whose results are not used. -/
theorem Lock.calls {l : List SOp} {l' : List ROp} (h : List.Forall₂ Mirror l l') :
    Lock S (SProg.calls l) (RProg.calls l') (fun _ _ => True) := by
  induction h with
  | nil => exact Lock.pure trivial
  | cons hm _ ih => exact Lock.call hm (fun _ => ih)

end

/-! ### the network of programs follows the network of call lists -/

theorem drop_prefix {α : Type} {l L : List α} {x : α} (h : l ++ [x] <+: L) : L.drop l.length = x :: L.drop (l.length + 1) := by
  obtain ⟨t, rfl⟩ := h
  simp

theorem stepR_snd {S : Nat} {c c' : Net} (h : stepR S c = .ok c') : c'.sops = c.sops ∧ c'.snd = c.snd := by
  unfold stepR at h
  split at h
  · cases h
  · split at h
    · cases h
    · cases h
    · split at h
      · cases h; exact ⟨rfl, rfl⟩
      · cases h
      · cases h
  · cases h; exact ⟨rfl, rfl⟩
  · split at h
    · cases h
    · cases h; exact ⟨rfl, rfl⟩
  · cases h; exact ⟨rfl, rfl⟩
  · cases h; exact ⟨rfl, rfl⟩

theorem rcvFill_keeps {S : Nat} {r : RcvSt} {w : List Byte} {r' : RcvSt} {w' : List Byte} (h : rcvFill S r w = .ok (r', w')) :
    r'.digests = r.digests ∧ r'.bits = r.bits ∧ r'.datas = r.datas := by
  unfold rcvFill at h
  repeat (split at h)
  all_goals (first | (cases h; done) | (injection h with h; cases h; exact ⟨rfl, rfl, rfl⟩))

theorem rcvTake_keeps {r r' : RcvSt} (h : rcvTake r = .ok r') :
    r'.digests = r.digests ∧ r'.datas = r.datas ∧ ∃ b, r'.bits = r.bits ++ [b] := by
  unfold rcvTake at h
  cases hc : r.arr[r.ptr]? with
  | none => simp [hc] at h
  | some x =>
    cases hb : byteBool x with
    | none => simp [hc, hb] at h
    | some b =>
      simp only [hc, hb] at h
      injection h with h
      subst h
      exact ⟨rfl, rfl, _, rfl⟩

theorem rcvFlush_keeps (S : Nat) (r : RcvSt) :
    (rcvFlush S r).digests = r.digests ∧ (rcvFlush S r).bits = r.bits ∧ (rcvFlush S r).datas = r.datas := ⟨rfl, rfl, rfl⟩

/-- One step of the receiving endpoint: what it returns is appended to the records. -/
theorem stepR_rec {S : Nat} {c c' : Net} (h : stepR S c = .ok c') : ∃ o, c.rops = o :: c'.rops ∧
    (∀ b, o = .bit → rcvRetB c'.rcv o = b → c'.rcv.bits = c.rcv.bits ++ [b]) ∧ (o ≠ .bit → c'.rcv.bits = c.rcv.bits) ∧
    (∀ n, o = .data n → c'.rcv.datas = c.rcv.datas ++ [rcvRetD c'.rcv o]) ∧ ((∀ n, o ≠ .data n) → c'.rcv.datas = c.rcv.datas) ∧
    (o = .hash → c'.rcv.digests = c.rcv.digests ++ [rcvRetD c'.rcv o]) ∧ (o ≠ .hash → c'.rcv.digests = c.rcv.digests) := by
  unfold stepR at h
  split at h
  · cases h
  · rename_i rest hs
    split at h
    · cases h
    · cases h
    · rename_i r w hf
      split at h
      · rename_i r' ht
        injection h with h
        subst h
        obtain ⟨f1, f2, f3⟩ := rcvFill_keeps hf
        obtain ⟨t1, t2, b, t3⟩ := rcvTake_keeps ht
        refine ⟨.bit, hs, ?_, fun q => absurd rfl q, (fun n q => by cases q), fun _ => by rw [t2, f3], (fun q => by cases q), fun _ => by rw [t1, f1]⟩
        intro b' _ hb
        simp only [rcvRetB, t3] at hb
        rw [t3, f2]
        simp at hb
        rw [hb]
      · cases h
      · cases h
  · rename_i rest hs
    injection h with h; subst h
    exact ⟨.flush, hs, (fun b q => by cases q), fun _ => rfl, (fun n q => by cases q), fun _ => rfl, (fun q => by cases q), fun _ => rfl⟩
  · rename_i n rest hs
    split at h
    · cases h
    · injection h with h; subst h
      refine ⟨.data n, hs, (fun b q => by cases q), fun _ => rfl, (fun n q => ?_), fun q => absurd rfl (q n), (fun q => by cases q), fun _ => rfl⟩
      simp [rcvRetD, rcvFlush]
  · rename_i rest hs
    injection h with h; subst h
    refine ⟨.hash, hs, (fun b q => by cases q), fun _ => rfl, (fun n q => by cases q), fun _ => rfl, (fun q => ?_), fun q => absurd rfl q⟩
    simp [rcvRetD, rcvFlush]
  · rename_i bs rest hs
    injection h with h; subst h
    exact ⟨.back bs, hs, (fun b q => by cases q), fun _ => rfl, (fun n q => by cases q), fun _ => rfl, (fun q => by cases q), fun _ => rfl⟩

theorem sendBit_keeps (S : Nat) (s : SndSt) (b : Bool) : (sendBit S s b).1.digests = s.digests ∧ (sendBit S s b).1.got = s.got := by
  unfold sendBit
  simp only
  split <;> exact ⟨rfl, rfl⟩

theorem padLoop_got (S : Nat) : ∀ (k : Nat) (s : SndSt), (padLoop S k s).1.got = s.got
  | 0, _ => rfl
  | k + 1, s => by
    unfold padLoop
    split
    · rfl
    · simp only [padLoop_got S k]
      exact (sendBit_keeps S s true).2

theorem sndFlush_got (S : Nat) (s : SndSt) : (sndFlush S s).1.got = s.got := padLoop_got S S s

/-- One step of the sending endpoint: either a padding sent while waiting, or a finished call, whose result is appended to the records. -/
theorem stepS_rec {S : Nat} {c c' : Net} (h : stepS S c = some c') : ∃ o rest, c.sops = o :: rest ∧
    c'.rcv = c.rcv ∧ c'.rops = c.rops ∧
    ((c'.sops = c.sops ∧ c'.snd.digests = c.snd.digests ∧ c'.snd.got = c.snd.got) ∨
     (c'.sops = rest ∧
      (o = .hash → c'.snd.digests = c.snd.digests ++ [sndRet c'.snd o]) ∧ (o ≠ .hash → c'.snd.digests = c.snd.digests) ∧
      (∀ n, o = .back n → c'.snd.got = c.snd.got ++ [sndRet c'.snd o]) ∧ ((∀ n, o ≠ .back n) → c'.snd.got = c.snd.got))) := by
  unfold stepS at h
  split at h
  · cases h
  · rename_i b rest hs
    have hc := (Option.some.inj h).symm
    subst hc
    obtain ⟨k1, k2⟩ := sendBit_keeps S c.snd b
    exact ⟨_, rest, hs, rfl, rfl, Or.inr ⟨rfl, (fun q => by cases q), fun _ => k1, (fun n q => by cases q), fun _ => k2⟩⟩
  · rename_i rest hs
    have hc := (Option.some.inj h).symm
    subst hc
    exact ⟨_, rest, hs, rfl, rfl, Or.inr ⟨rfl, (fun q => by cases q), fun _ => sndFlush_keeps S _, (fun n q => by cases q), fun _ => sndFlush_got S _⟩⟩
  · rename_i bs rest hs
    have hc := (Option.some.inj h).symm
    subst hc
    exact ⟨_, rest, hs, rfl, rfl, Or.inr ⟨rfl, (fun q => by cases q), fun _ => sndFlush_keeps S _, (fun n q => by cases q), fun _ => sndFlush_got S _⟩⟩
  · rename_i rest hs
    have hc := (Option.some.inj h).symm
    subst hc
    refine ⟨_, rest, hs, rfl, rfl, Or.inr ⟨rfl, fun _ => ?_, fun q => absurd rfl q, (fun n q => by cases q), fun _ => sndFlush_got S _⟩⟩
    have e := sndFlush_keeps S c.snd
    simp only [sndFlush] at e
    simp [sndRet, e]
  · rename_i n rest hs
    split at h
    · have hc := (Option.some.inj h).symm
      subst hc
      exact ⟨_, rest, hs, rfl, rfl, Or.inl ⟨rfl, sndFlush_keeps S _, sndFlush_got S _⟩⟩
    · split at h
      · cases h
      · have hc := (Option.some.inj h).symm
        subst hc
        refine ⟨_, rest, hs, rfl, rfl, Or.inr ⟨rfl, (fun q => by cases q), fun _ => rfl, fun m _ => ?_, fun q => absurd rfl (q n)⟩⟩
        simp [sndRet]

/-- A step of the sending endpoint depends on the next call only. -/
theorem stepS_head {S : Nat} {s : SndSt} {o : SOp} {rest : List SOp} {toR toS : List Byte} {rcv rcv' : RcvSt} {rops rops' : List ROp} :
    stepS S ⟨s, o :: rest, toR, toS, rcv, rops⟩ =
      (stepS S ⟨s, [o], toR, toS, rcv', rops'⟩).map (fun n => ⟨n.snd, n.sops ++ rest, n.toR, n.toS, rcv, rops⟩) := by
  cases o with
  | bit b => simp only [stepS, Option.map_some, List.nil_append]
  | flush => simp only [stepS, Option.map_some, List.nil_append]
  | data bs => simp only [stepS, Option.map_some, List.nil_append]
  | hash => simp only [stepS, Option.map_some, List.nil_append]
  | back n =>
    simp only [stepS]
    by_cases hb : s.buf ≠ []
    · rw [if_pos hb, if_pos hb]; rfl
    · rw [if_neg hb, if_neg hb]
      by_cases hl : toS.length < n
      · rw [if_pos hl, if_pos hl]; rfl
      · rw [if_neg hl, if_neg hl]; rfl

/-- `RecvRes` is a functor. -/
def RecvRes.map {α β : Type} (f : α → β) : RecvRes α → RecvRes β
  | .blocked => .blocked
  | .ub => .ub
  | .ok a => .ok (f a)

theorem stepR_head {S : Nat} {s s' : SndSt} {o : ROp} {rest : List ROp} {toR toS : List Byte} {rcv : RcvSt} {sops sops' : List SOp} :
    stepR S ⟨s, sops, toR, toS, rcv, o :: rest⟩ =
      (stepR S ⟨s', sops', toR, toS, rcv, [o]⟩).map (fun n => ⟨s, sops, n.toR, n.toS, n.rcv, n.rops ++ rest⟩) := by
  cases o with
  | bit =>
    simp only [stepR]
    cases h : rcvFill S rcv toR with
    | blocked => rfl
    | ub => rfl
    | ok q =>
      obtain ⟨r, w⟩ := q
      simp only
      cases h' : rcvTake r with
      | blocked => rfl
      | ub => rfl
      | ok r' => rfl
  | flush => rfl
  | hash => rfl
  | back bs => rfl
  | data n =>
    simp only [stepR]
    by_cases hl : toR.length < n
    · rw [if_pos hl, if_pos hl]; rfl
    · rw [if_neg hl, if_neg hl]; rfl

/-- The digests of the receiving endpoint only grow. -/
theorem reach_digests {S : Nat} {c : Net} : ∀ {c1}, Reach S c c1 → c.rcv.digests <+: c1.rcv.digests := by
  intro c1 h1
  induction h1 with
  | init => exact List.prefix_rfl
  | sndStep _ hs ih =>
    obtain ⟨_, _, _, e, _⟩ := stepS_rec hs
    rw [e]; exact ih
  | rcvStep _ hr ih =>
    obtain ⟨o, _, _, _, _, _, k1, k2⟩ := stepR_rec hr
    by_cases ho : o = .hash
    · rw [k1 ho]; exact ih.trans (List.prefix_append _ _)
    · rw [k2 ho]; exact ih

theorem Reach.trans {S : Nat} {c0 c c1 : Net} (h : Reach S c0 c) (h1 : Reach S c c1) : Reach S c0 c1 := by
  induction h1 with
  | init => exact h
  | sndStep _ hs ih => exact .sndStep ih hs
  | rcvStep _ hr ih => exact .rcvStep ih hr

/-- A reachable configuration leads to a finished one. -/
theorem mirror_leads {S : Nat} (hS : 0 < S) {junk : List Byte} {L : List SOp} {R : List ROp} (hm : List.Forall₂ Mirror (L ++ [.flush]) (R ++ [.flush]))
    {c : Net} (hr : Reach S (netInit S junk (L ++ [.flush]) (R ++ [.flush])) c) :
    ∃ c', Reach S c c' ∧ c'.sops = [] ∧ c'.rops = [] := by
  generalize hmm : netMeasure c = m
  induction m using Nat.strong_induction_on generalizing c with
  | _ m ih =>
    obtain ⟨_, _, hlt, _⟩ := sndRun_of_reach hS hr
    have ht := fun c' => C14_terminates (S := S) (c := c) (c' := c') hlt
    rcases C14_no_deadlock hS hm hr with hf | ⟨c', hc⟩ | ⟨c', hc⟩
    · exact ⟨c, .init, hf⟩
    · obtain ⟨c1, h1, h2⟩ := ih _ (hmm ▸ (ht c').1 hc) (.sndStep hr hc) rfl
      exact ⟨c1, (Reach.sndStep .init hc).trans h1, h2⟩
    · obtain ⟨c1, h1, h2⟩ := ih _ (hmm ▸ (ht c').2 hc) (.rcvStep hr hc) rfl
      exact ⟨c1, (Reach.rcvStep .init hc).trans h1, h2⟩

/-- The digests taken so far, on both ends, are the first of those the whole program takes. -/
theorem reach_digs {S : Nat} (hS : 0 < S) {junk : List Byte} {L : List SOp} {R : List ROp} (hm : List.Forall₂ Mirror (L ++ [.flush]) (R ++ [.flush]))
    {c : Net} (hr : Reach S (netInit S junk (L ++ [.flush]) (R ++ [.flush])) c) :
    c.snd.digests <+: newDigs S ⟨[], [], [], []⟩ (L ++ [.flush]) ∧ c.rcv.digests <+: newDigs S ⟨[], [], [], []⟩ (L ++ [.flush]) := by
  have hs : ∀ {c}, Reach S (netInit S junk (L ++ [.flush]) (R ++ [.flush])) c →
      ∃ dn, L ++ [.flush] = dn ++ c.sops ∧ c.snd.digests = newDigs S ⟨[], [], [], []⟩ dn := by
    intro c hr
    obtain ⟨dn, h1, _, h2 | h2⟩ := sndRun_of_reach hS hr
    · refine ⟨dn, h1, ?_⟩
      rw [h2.2.2, sndRun_new]; rfl
    · refine ⟨dn, h1, ?_⟩
      rw [h2.2.2.2, sndFlush_keeps, sndRun_new]; rfl
  refine ⟨?_, ?_⟩
  · obtain ⟨dn, h1, h2⟩ := hs hr
    rw [h1, newDigs_append, h2]
    exact List.prefix_append _ _
  · obtain ⟨c1, k1, k2, k3⟩ := mirror_leads hS hm hr
    have hr1 := hr.trans k1
    have hd := C15_same_challenges hS hm hr1 k2 k3
    obtain ⟨dn, h1, h2⟩ := hs hr1
    rw [k2, List.append_nil] at h1
    have := reach_digests k1
    rw [← hd, h2, ← h1] at this
    exact this

/-- How the network of programs follows the network of call lists. -/
structure Sim {α β : Type} (S : Nat) (L : List SOp) (R : List ROp) (a : α) (b : β) (c : PNet α β) (n : Net) : Prop where
  snd : n.snd = c.snd
  toR : n.toR = c.toR
  toS : n.toS = c.toS
  rcv : n.rcv = c.rcv
  p : c.p.Run n.sops ((sentBack R).drop n.snd.got.length) ((newDigs S ⟨[], [], [], []⟩ L).drop n.snd.digests.length) a
  q : c.q.Run n.rops ((sentBits L).drop n.rcv.bits.length) ((sentData L).drop n.rcv.datas.length)
    ((newDigs S ⟨[], [], [], []⟩ L).drop n.rcv.digests.length) b

section
variable {α β : Type} {S : Nat} {L : List SOp} {R : List ROp} {a : α} {b : β} {junk : List Byte}

theorem sim_sndStep (hS : 0 < S) (hm : List.Forall₂ Mirror (L ++ [.flush]) (R ++ [.flush])) {c c' : PNet α β} {n : Net}
    (hr : Reach S (netInit S junk (L ++ [.flush]) (R ++ [.flush])) n) (h : Sim S (L ++ [.flush]) (R ++ [.flush]) a b c n)
    (hs : stepP S c = some c') : ∃ n', stepS S n = some n' ∧ Sim S (L ++ [.flush]) (R ++ [.flush]) a b c' n' := by
  obtain ⟨p, snd, toR, toS, rcv, q⟩ := c
  obtain ⟨nsnd, sops, ntoR, ntoS, nrcv, rops⟩ := n
  obtain ⟨h1, h2, h3, h4, hp, hq⟩ := h
  simp only at h1 h2 h3 h4 hp hq
  subst h1 h2 h3 h4
  cases p with
  | done x => simp [stepP] at hs
  | fail => simp [stepP] at hs
  | stop => simp [stepP] at hs
  | call o k =>
    simp only [stepP] at hs
    cases hst : stepS S ⟨nsnd, [o], ntoR, ntoS, nrcv, []⟩ with
    | none => rw [hst] at hs; cases hs
    | some m =>
      rw [hst] at hs
      have hc := (Option.some.inj hs).symm
      subst hc
      obtain ⟨rest, hrest⟩ := hp.head
      subst hrest
      have hn : stepS S ⟨nsnd, o :: rest, ntoR, ntoS, nrcv, rops⟩ = some ⟨m.snd, m.sops ++ rest, m.toR, m.toS, nrcv, rops⟩ := by
        rw [stepS_head (rcv' := nrcv) (rops' := []), hst]; rfl
      refine ⟨_, hn, ?_⟩
      have hr' := Reach.sndStep hr hn
      have hdig := (reach_digs hS hm hr').1
      have hgot := (C14_prefix hS hm hr').2.2
      obtain ⟨o', rest', ho, _, _, hk⟩ := stepS_rec hst
      simp only [List.cons.injEq] at ho
      obtain ⟨rfl, rfl⟩ := ho
      rcases hk with ⟨k1, k2, k3⟩ | ⟨k1, k2, k3, k4, k5⟩
      · simp only at k1
        rw [k1]
        refine ⟨rfl, rfl, rfl, rfl, ?_, hq⟩
        simp only [k2, k3, List.cons_ne_nil, if_false]
        exact hp
      · simp only [k1, if_true, List.nil_append]
        refine ⟨rfl, rfl, rfl, rfl, ?_, hq⟩
        simp only
        generalize hg : (sentBack (R ++ [.flush])).drop nsnd.got.length = g at hp
        generalize hd : (newDigs S ⟨[], [], [], []⟩ (L ++ [.flush])).drop nsnd.digests.length = d at hp
        cases hp with
        | plain ho hp =>
          rw [k3 (by rintro rfl; exact ho), k5 (by rintro n rfl; exact ho), hg, hd]
          have : sndRet m.snd o = [] := by cases o <;> first | rfl | exact absurd ho id
          rw [this]; exact hp
        | hash hp =>
          rw [k5 (by intro n q; cases q), hg]
          have e := k2 rfl
          rw [e] at hdig
          rw [drop_prefix hdig] at hd
          simp only [List.cons.injEq] at hd
          rw [hd.1, e, List.length_append, List.length_singleton, hd.2]
          exact hp
        | back hp =>
          rw [k3 (by intro q; cases q), hd]
          have e := k4 _ rfl
          simp only at hgot
          rw [e] at hgot
          rw [drop_prefix hgot] at hg
          simp only [List.cons.injEq] at hg
          rw [hg.1, e, List.length_append, List.length_singleton, hg.2]
          exact hp

theorem sim_rcvStep (hS : 0 < S) (hm : List.Forall₂ Mirror (L ++ [.flush]) (R ++ [.flush])) {c c' : PNet α β} {n : Net}
    (hr : Reach S (netInit S junk (L ++ [.flush]) (R ++ [.flush])) n) (h : Sim S (L ++ [.flush]) (R ++ [.flush]) a b c n)
    (hs : stepQ S c = .ok c') : ∃ n', stepR S n = .ok n' ∧ Sim S (L ++ [.flush]) (R ++ [.flush]) a b c' n' := by
  obtain ⟨p, snd, toR, toS, rcv, q⟩ := c
  obtain ⟨nsnd, sops, ntoR, ntoS, nrcv, rops⟩ := n
  obtain ⟨h1, h2, h3, h4, hp, hq⟩ := h
  simp only at h1 h2 h3 h4 hp hq
  subst h1 h2 h3 h4
  cases q with
  | done x => simp [stepQ] at hs
  | fail => simp [stepQ] at hs
  | stop => simp [stepQ] at hs
  | call o k =>
    simp only [stepQ] at hs
    cases hst : stepR S ⟨nsnd, [], ntoR, ntoS, nrcv, [o]⟩ with
    | blocked => rw [hst] at hs; cases hs
    | ub => rw [hst] at hs; cases hs
    | ok m =>
      rw [hst] at hs
      injection hs with hc
      subst hc
      obtain ⟨rest, hrest⟩ := hq.head
      subst hrest
      obtain ⟨o', ho, k1, k2, k3, k4, k5, k6⟩ := stepR_rec hst
      simp only [List.cons.injEq] at ho
      obtain ⟨rfl, hmr⟩ := ho
      have hn : stepR S ⟨nsnd, sops, ntoR, ntoS, nrcv, o :: rest⟩ = .ok ⟨nsnd, sops, m.toR, m.toS, m.rcv, rest⟩ := by
        rw [stepR_head (s' := nsnd) (sops' := []), hst]
        simp only [RecvRes.map, ← hmr, List.nil_append]
      refine ⟨_, hn, rfl, rfl, rfl, rfl, hp, ?_⟩
      have hr' := Reach.rcvStep hr hn
      have hdig := (reach_digs hS hm hr').2
      obtain ⟨hbits, hdata, _⟩ := C14_prefix hS hm hr'
      simp only at hdig hbits hdata ⊢
      generalize hB : (sentBits (L ++ [.flush])).drop nrcv.bits.length = B at hq
      generalize hD : (sentData (L ++ [.flush])).drop nrcv.datas.length = D at hq
      generalize hH : (newDigs S ⟨[], [], [], []⟩ (L ++ [.flush])).drop nrcv.digests.length = H at hq
      cases hq with
      | plain ho hq =>
        rw [k2 (by rintro rfl; exact ho), k4 (by rintro n rfl; exact ho), k6 (by rintro rfl; exact ho), hB, hD, hH]
        have e1 : rcvRetB m.rcv o = false := by cases o <;> first | rfl | exact absurd ho id
        have e2 : rcvRetD m.rcv o = [] := by cases o <;> first | rfl | exact absurd ho id
        rw [e1, e2]; exact hq
      | bit hq =>
        rw [k4 (by intro n q; cases q), k6 (by intro q; cases q), hD, hH]
        have e := k1 _ rfl rfl
        rw [e] at hbits
        rw [drop_prefix hbits] at hB
        simp only [List.cons.injEq] at hB
        rw [hB.1, e, List.length_append, List.length_singleton, hB.2]
        exact hq
      | data hq =>
        rw [k2 (by intro q; cases q), k6 (by intro q; cases q), hB, hH]
        have e := k3 _ rfl
        rw [e] at hdata
        rw [drop_prefix hdata] at hD
        simp only [List.cons.injEq] at hD
        rw [hD.1, e, List.length_append, List.length_singleton, hD.2]
        exact hq
      | hash hq =>
        rw [k2 (by intro q; cases q), k4 (by intro n q; cases q), hB, hD]
        have e := k5 rfl
        rw [e] at hdig
        rw [drop_prefix hdig] at hH
        simp only [List.cons.injEq] at hH
        rw [hH.1, e, List.length_append, List.length_singleton, hH.2]
        exact hq


/-- What is known of a configuration the two programs can reach. -/
theorem sim_reach (hS : 0 < S) (hm : List.Forall₂ Mirror (L ++ [.flush]) (R ++ [.flush])) {p : SProg α} {q : RProg β}
    (hp : p.Run (L ++ [.flush]) (sentBack (R ++ [.flush])) (newDigs S ⟨[], [], [], []⟩ (L ++ [.flush])) a)
    (hq : q.Run (R ++ [.flush]) (sentBits (L ++ [.flush])) (sentData (L ++ [.flush])) (newDigs S ⟨[], [], [], []⟩ (L ++ [.flush])) b)
    {c : PNet α β} (hc : PReach S (pnetInit S junk p q) c) :
    ∃ n, Reach S (netInit S junk (L ++ [.flush]) (R ++ [.flush])) n ∧ Sim S (L ++ [.flush]) (R ++ [.flush]) a b c n := by
  induction hc with
  | init => exact ⟨_, .init, rfl, rfl, rfl, rfl, hp, hq⟩
  | sndStep _ hs ih =>
    obtain ⟨n, h1, h2⟩ := ih
    obtain ⟨n', k1, k2⟩ := sim_sndStep hS hm h1 h2 hs
    exact ⟨n', .sndStep h1 k1, k2⟩
  | rcvStep _ hs ih =>
    obtain ⟨n, h1, h2⟩ := ih
    obtain ⟨n', k1, k2⟩ := sim_rcvStep hS hm h1 h2 hs
    exact ⟨n', .rcvStep h1 k1, k2⟩

/-- A step of the list network is a step of the programs. -/
theorem sim_stepS {c : PNet α β} {n n' : Net} (h : Sim S L R a b c n) (hs : stepS S n = some n') : ∃ c', stepP S c = some c' := by
  obtain ⟨p, snd, toR, toS, rcv, q⟩ := c
  obtain ⟨nsnd, sops, ntoR, ntoS, nrcv, rops⟩ := n
  obtain ⟨h1, h2, h3, h4, hp, hq⟩ := h
  simp only at h1 h2 h3 h4 hp hq
  subst h1 h2 h3 h4
  obtain ⟨o, rest, ho, _⟩ := stepS_rec hs
  simp only at ho
  subst ho
  obtain ⟨k, rfl⟩ := hp.of_cons
  rw [stepS_head (rcv' := nrcv) (rops' := [])] at hs
  cases hst : stepS S ⟨nsnd, [o], ntoR, ntoS, nrcv, []⟩ with
  | none => rw [hst] at hs; cases hs
  | some m => simp only [stepP, hst]; exact ⟨_, rfl⟩

theorem sim_stepR {c : PNet α β} {n n' : Net} (h : Sim S L R a b c n) (hs : stepR S n = .ok n') : ∃ c', stepQ S c = .ok c' := by
  obtain ⟨p, snd, toR, toS, rcv, q⟩ := c
  obtain ⟨nsnd, sops, ntoR, ntoS, nrcv, rops⟩ := n
  obtain ⟨h1, h2, h3, h4, hp, hq⟩ := h
  simp only at h1 h2 h3 h4 hp hq
  subst h1 h2 h3 h4
  obtain ⟨o, ho, _⟩ := stepR_rec hs
  simp only at ho
  subst ho
  obtain ⟨k, rfl⟩ := hq.of_cons
  rw [stepR_head (s' := nsnd) (sops' := [])] at hs
  cases hst : stepR S ⟨nsnd, [], ntoR, ntoS, nrcv, [o]⟩ with
  | blocked => rw [hst] at hs; cases hs
  | ub => rw [hst] at hs; cases hs
  | ok m => simp only [stepQ, hst]; exact ⟨_, rfl⟩

theorem sim_ub {c : PNet α β} {n : Net} (h : Sim S L R a b c n) (hs : stepQ S c = .ub) : stepR S n = .ub := by
  obtain ⟨p, snd, toR, toS, rcv, q⟩ := c
  obtain ⟨nsnd, sops, ntoR, ntoS, nrcv, rops⟩ := n
  obtain ⟨h1, h2, h3, h4, hp, hq⟩ := h
  simp only at h1 h2 h3 h4 hp hq
  subst h1 h2 h3 h4
  cases q with
  | done x => simp [stepQ] at hs
  | fail => exact absurd rfl hq.ok.1
  | stop => simp [stepQ] at hs
  | call o k =>
    obtain ⟨rest, rfl⟩ := hq.head
    rw [stepR_head (s' := nsnd) (sops' := [])]
    simp only [stepQ] at hs
    cases hst : stepR S ⟨nsnd, [], ntoR, ntoS, nrcv, [o]⟩ with
    | blocked => rw [hst] at hs; cases hs
    | ub => rfl
    | ok m => rw [hst] at hs; cases hs

theorem PReach.trans {c0 c c1 : PNet α β} (h : PReach S c0 c) (h1 : PReach S c c1) : PReach S c0 c1 := by
  induction h1 with
  | init => exact h
  | sndStep _ hs ih => exact .sndStep ih hs
  | rcvStep _ hr ih => exact .rcvStep ih hr

/-- The end of a program: the flush of the destructor. -/
theorem Lock.flush {P : SProg α} {V : RProg β} {Post : α → β → Prop} (h : Lock S P V Post) :
    ∃ l l' a b, List.Forall₂ Mirror (l ++ [SOp.flush]) (l' ++ [ROp.flush]) ∧
      (P.bind (fun a => .call .flush (fun _ => .done a))).Run (l ++ [SOp.flush]) (sentBack (l' ++ [ROp.flush])) (newDigs S ⟨[], [], [], []⟩ (l ++ [SOp.flush])) a ∧
      (V.bind (fun b => .call .flush (fun _ _ => .done b))).Run (l' ++ [ROp.flush]) (sentBits (l ++ [SOp.flush])) (sentData (l ++ [SOp.flush]))
        (newDigs S ⟨[], [], [], []⟩ (l ++ [SOp.flush])) b ∧ Post a b := by
  obtain ⟨l, l', a, b, h1, h2, h3, h4⟩ := h ⟨[], [], [], []⟩
  have hn := newDigs_one S (sndRun S ⟨[], [], [], []⟩ l) .flush (by simp)
  refine ⟨l, l', a, b, List.rel_append h1 (.cons trivial .nil), ?_, ?_, h4⟩
  · rw [sentBack_append, newDigs_append, hn]
    exact h2.bind (.plain trivial (.done a))
  · rw [sentBits_append, sentData_append, newDigs_append, hn]
    exact h3.bind (.plain trivial (.done b))

/-- Two programs in step, each followed by the flush of the destructor, over the network: no undefined behaviour, no `error`, no deadlock,
every execution can be completed, and the results are related. -/
theorem lock_network (hS : 0 < S) {P : SProg α} {V : RProg β} {Post : α → β → Prop} (h : Lock S P V Post) (junk : List Byte)
    {c : PNet α β} (hc : PReach S (pnetInit S junk (P.bind (fun a => .call .flush (fun _ => .done a)))
      (V.bind (fun b => .call .flush (fun _ _ => .done b)))) c) :
    stepQ S c ≠ .ub ∧ (c.p ≠ .fail ∧ c.p ≠ .stop) ∧ (c.q ≠ .fail ∧ c.q ≠ .stop) ∧
    (∀ a b, c.p = .done a → c.q = .done b → Post a b ∧ c.toR = [] ∧ c.toS = []) ∧
    (((∃ a, c.p = .done a) ∧ ∃ b, c.q = .done b) ∨ (∃ c', stepP S c = some c') ∨ ∃ c', stepQ S c = .ok c') ∧
    ∃ c' a b, PReach S c c' ∧ c'.p = .done a ∧ c'.q = .done b := by
  obtain ⟨l, l', a, b, h1, h2, h3, h4⟩ := h.flush
  obtain ⟨n, hr, hn⟩ := sim_reach (junk := junk) hS h1 h2 h3 hc
  refine ⟨fun hu => C14_no_ub hS h1 hr (sim_ub hn hu), ⟨hn.p.ok.1, hn.p.ok.2.1⟩, ⟨hn.q.ok.1, hn.q.ok.2.1⟩, ?_, ?_, ?_⟩
  · intro x y hx hy
    obtain ⟨e1, e2⟩ := hn.p.ok.2.2 x hx
    obtain ⟨e3, e4⟩ := hn.q.ok.2.2 y hy
    obtain ⟨_, _, _, e5, e6⟩ := C14_fifo hS h1 hr e1 e3
    rw [e2, e4, ← hn.toR, ← hn.toS]
    exact ⟨h4, e5, e6⟩
  · rcases C14_no_deadlock hS h1 hr with ⟨e1, e2⟩ | ⟨c', hc'⟩ | ⟨c', hc'⟩
    · have hp := hn.p
      have hq := hn.q
      rw [e1] at hp
      rw [e2] at hq
      exact Or.inl ⟨⟨a, hp.of_nil⟩, b, hq.of_nil⟩
    · exact Or.inr (Or.inl (sim_stepS hn hc'))
    · exact Or.inr (Or.inr (sim_stepR hn hc'))
  · generalize hmm : netMeasure n = m
    clear hc
    induction m using Nat.strong_induction_on generalizing c n with
    | _ m ih =>
      obtain ⟨_, _, hlt, _⟩ := sndRun_of_reach hS hr
      rcases C14_no_deadlock hS h1 hr with ⟨e1, e2⟩ | ⟨n', hn'⟩ | ⟨n', hn'⟩
      · have hp := hn.p
        have hq := hn.q
        rw [e1] at hp
        rw [e2] at hq
        exact ⟨c, a, b, .init, hp.of_nil, hq.of_nil⟩
      · obtain ⟨c', hc'⟩ := sim_stepS hn hn'
        obtain ⟨n1, k1, k2⟩ := sim_sndStep hS h1 hr hn hc'
        obtain ⟨c1, x, y, j1, j2⟩ := ih _ (hmm ▸ (C14_terminates hlt).1 k1) n1 (.sndStep hr k1) k2 rfl
        exact ⟨c1, x, y, (PReach.sndStep .init hc').trans j1, j2⟩
      · obtain ⟨c', hc'⟩ := sim_stepR hn hn'
        obtain ⟨n1, k1, k2⟩ := sim_rcvStep hS h1 hr hn hc'
        obtain ⟨c1, x, y, j1, j2⟩ := ih _ (hmm ▸ (C14_terminates hlt).2 k1) n1 (.rcvStep hr k1) k2 rfl
        exact ⟨c1, x, y, (PReach.rcvStep .init hc').trans j1, j2⟩

end
end EmpZk
