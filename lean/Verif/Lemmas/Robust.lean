/-
A program whose calls do not depend on what it receives fails in no run, if it returns in one.
-/
import Verif.Lemmas.ConvSilent
import Verif.Lemmas.NetRecv

namespace EmpZk

/-- `x` is what is left of the program `q` after some calls with some results. -/
inductive RPath {β : Type} : RProg β → RProg β → Prop where
  | refl {q} : RPath q q
  | call {o k d bs x} : RPath (k d bs) x → RPath (.call o k) x

/-- The same for the other endpoint. -/
inductive SPath {α : Type} : SProg α → SProg α → Prop where
  | refl {p} : SPath p p
  | call {o k d x} : SPath (k d) x → SPath (.call o k) x

section
variable {α β γ : Type} {E : Prop} {S : Nat}

theorem RPath.snoc {q x : RProg β} (h : RPath q x) {o k} (hx : x = .call o k) (d : Bool) (bs : List Byte) : RPath q (k d bs) := by
  induction h with
  | refl => subst hx; exact .call .refl
  | call _ ih => exact .call (ih hx)

theorem SPath.snoc {p x : SProg α} (h : SPath p x) {o k} (hx : x = .call o k) (d : List Byte) : SPath p (k d) := by
  induction h with
  | refl => subst hx; exact .call .refl
  | call _ ih => exact .call (ih hx)

theorem reach_rpath {p : SProg α} {q : RProg β} {junk : List Byte} {c : PNet α β} (h : PReach S (pnetInit S junk p q) c) : RPath q c.q := by
  induction h with
  | init => exact .refl
  | @sndStep c c' _ hs ih =>
    have : c'.q = c.q := by
      unfold stepP at hs
      split at hs
      · split at hs
        · cases hs
        · cases hs; rfl
      · cases hs
    rw [this]; exact ih
  | @rcvStep c c' _ hs ih =>
    unfold stepQ at hs
    split at hs
    · next o k hq =>
      split at hs
      · cases hs
      · cases hs
      · cases hs
        exact ih.snoc hq _ _
    · cases hs

theorem reach_spath {p : SProg α} {q : RProg β} {junk : List Byte} {c : PNet α β} (h : PReach S (pnetInit S junk p q) c) : SPath p c.p := by
  induction h with
  | init => exact .refl
  | @sndStep c c' _ hs ih =>
    unfold stepP at hs
    split at hs
    · next o k hp =>
      split at hs
      · cases hs
      · cases hs
        simp only
        split
        · exact ih.snoc hp _
        · rw [← hp]; exact ih
    · cases hs
  | @rcvStep c c' _ hs ih =>
    have : c'.p = c.p := by
      unfold stepQ at hs
      split at hs
      · split at hs
        · cases hs
        · cases hs
        · cases hs; rfl
      · cases hs
    rw [this]; exact ih

/-- No run of one program fails if some run of the other one returns. -/
theorem ralike_safe {R : α → β → Prop} {q : RProg α} {q' : RProg β} (h : RAlike False E R q q') {b : β} (hr : RPath q' (.done b)) :
    ¬ RPath q .fail := by
  intro hf
  induction h with
  | done _ => cases hf
  | fail => cases hr
  | stopL _ => cases hf
  | stopR _ => cases hr
  | call _ ih =>
    cases hf with
    | call hf =>
      cases hr with
      | call hr => exact ih _ _ _ _ (fun w => w.elim) hr hf

theorem alike_safe {R : α → β → Prop} {p : SProg α} {p' : SProg β} (h : Alike (fun _ _ _ => True) R p p') {b : β} (hr : SPath p' (.done b)) :
    ¬ SPath p .fail ∧ ¬ SPath p .stop := by
  induction h with
  | done _ => exact ⟨nofun, nofun⟩
  | fail => cases hr
  | stop => cases hr
  | call _ _ ih =>
    cases hr with
    | call hr =>
      constructor
      · intro hf
        cases hf with
        | call hf => exact (ih _ _ (fun _ => trivial) hr).1 hf
      · intro hf
        cases hf with
        | call hf => exact (ih _ _ (fun _ => trivial) hr).2 hf

/-- As `SPath`; every message received satisfies `Q`. -/
inductive SPathQ {α : Type} (Q : List Byte → Prop) : SProg α → SProg α → Prop where
  | refl {p} : SPathQ Q p p
  | call {o k d x} : (∀ n, o = .back n → d.length = n ∧ Q d) → SPathQ Q (k d) x → SPathQ Q (.call o k) x

theorem SPathQ.snoc {Q : List Byte → Prop} {p x : SProg α} (h : SPathQ Q p x) {o k} (hx : x = .call o k) (d : List Byte)
    (hd : ∀ n, o = .back n → d.length = n ∧ Q d) : SPathQ Q p (k d) := by
  induction h with
  | refl => subst hx; exact .call hd .refl
  | call h0 _ ih => exact .call h0 (ih hx)

theorem stepP_got {c c' : PNet α β} (hs : stepP S c = some c') : ∃ t, c'.snd.got = c.snd.got ++ t := by
  unfold stepP at hs
  split at hs
  · next o k hp =>
    split at hs
    · cases hs
    · next n hn =>
      cases hs
      simp only [stepS] at hn
      cases o with
      | bit b => cases hn; exact ⟨[], by simp only [List.append_nil]; unfold sendBit; simp only; split <;> rfl⟩
      | flush => cases hn; exact ⟨[], by simp [sndFlush_got S c.snd]⟩
      | data bs => cases hn; exact ⟨[], by simp [sndFlush_got S c.snd]⟩
      | hash => cases hn; exact ⟨[], by simp [sndFlush_got S c.snd]⟩
      | back n =>
        simp only at hn
        split at hn
        · cases hn; exact ⟨[], by simp [sndFlush_got S c.snd]⟩
        · split at hn
          · cases hn
          · cases hn; exact ⟨_, rfl⟩
  · cases hs

theorem reach_spathQ {Q : List Byte → Prop} {p : SProg α} {q : RProg β} {junk : List Byte} {c : PNet α β} (h : PReach S (pnetInit S junk p q) c)
    (hg : ∀ g ∈ c.snd.got, Q g) : SPathQ Q p c.p := by
  induction h with
  | init => exact .refl
  | @sndStep c c' _ hs ih =>
    obtain ⟨t, ht⟩ := stepP_got hs
    have ih := ih (fun g hm => hg g (by rw [ht]; exact List.mem_append_left _ hm))
    unfold stepP at hs
    split at hs
    · next o k hp =>
      split at hs
      · cases hs
      · next n hn =>
        cases hs
        simp only
        split
        · next hso =>
          refine ih.snoc hp _ ?_
          rintro m rfl
          simp only [stepS] at hn
          split at hn
          · cases hn; cases hso
          · split at hn
            · cases hn
            · next hlen =>
              cases hn
              have e : sndRet { c.snd with got := c.snd.got ++ [c.toS.take m] } (.back m) = c.toS.take m := by
                show (c.snd.got ++ [c.toS.take m]).getLastD [] = _
                simp
              rw [e]
              refine ⟨by rw [List.length_take]; omega, hg _ ?_⟩
              simp
        · rw [← hp]; exact ih
    · cases hs
  | @rcvStep c c' _ hs ih =>
    have : c'.p = c.p ∧ c'.snd = c.snd := by
      unfold stepQ at hs
      split at hs
      · split at hs
        · cases hs
        · cases hs
        · next n hn => cases hs; exact ⟨rfl, rfl⟩
      · cases hs
    rw [this.1]; exact ih (by rw [← this.2]; exact hg)

theorem alike_safeQ {M : Kind → List Byte → List Byte → Prop} {Q : List Byte → Prop}
    (hM : ∀ n x y, x.length = n → y.length = n → Q x → Q y → M (.back n) x y) {R : α → β → Prop} {p : SProg α} {p' : SProg β}
    (h : Alike M R p p') {b : β} (hr : SPathQ Q p' (.done b)) : ¬ SPathQ Q p .fail ∧ ¬ SPathQ Q p .stop := by
  induction h with
  | done _ => exact ⟨nofun, nofun⟩
  | fail => cases hr
  | stop => cases hr
  | @call o o' k k' ho _ ih =>
    cases hr with
    | @call _ _ d' _ hd' hr =>
      have key : ∀ d, (∀ n, o = .back n → d.length = n ∧ Q d) → o.kind.fromPeer → M o.kind d d' := by
        intro d hd hp
        cases o with
        | back n =>
          cases o' with
          | back n' =>
            cases ho
            exact hM n _ _ (hd n rfl).1 (hd' n rfl).1 (hd n rfl).2 (hd' n rfl).2
          | _ => cases ho
        | _ => cases hp
      constructor
      · intro hf
        cases hf with
        | call hd hf => exact (ih _ _ (key _ hd) hr).1 hf
      · intro hf
        cases hf with
        | call hd hf => exact (ih _ _ (key _ hd) hr).2 hf

/-- The receiving endpoint is safe with every program on the other end. -/
theorem reach_rcvOk (hS : 0 < S) (h8 : S % 8 = 0) {p : SProg α} {q : RProg β} {junk : List Byte} {c : PNet α β}
    (h : PReach S (pnetInit S junk p q) c) : RcvOk S c.rcv := by
  induction h with
  | init => exact Or.inl rfl
  | @sndStep c c' _ hs ih =>
    have : c'.rcv = c.rcv := by
      unfold stepP at hs
      split at hs
      · split at hs
        · cases hs
        · cases hs; rfl
      · cases hs
    rw [this]; exact ih
  | @rcvStep c c' _ hs ih =>
    unfold stepQ at hs
    split at hs
    · next o k hq =>
      split at hs
      · cases hs
      · cases hs
      · next n hn =>
        cases hs
        exact (rcvOne_ok hS h8 ih c.toR o).2 _ _ ((stepR_one S _ rfl).1 _ hn).2
    · cases hs

theorem reach_no_ub (hS : 0 < S) (h8 : S % 8 = 0) {p : SProg α} {q : RProg β} {junk : List Byte} {c : PNet α β}
    (h : PReach S (pnetInit S junk p q) c) : stepQ S c ≠ .ub := by
  intro hub
  unfold stepQ at hub
  split at hub
  · next o k hq =>
    split at hub
    · cases hub
    · next hn => exact (rcvOne_ok hS h8 (reach_rcvOk hS h8 h) c.toR o).1 ((stepR_one S ⟨c.snd, [], c.toR, c.toS, c.rcv, [o]⟩ rfl).2 hn)
    · cases hub
  · cases hub

end

/-! ### a verifier that feeds a prover with given bytes -/

/-- What is left of a program that receives the given messages, one per receiving call; a challenge or a message of the wrong length ends
the walk. -/
def walk {α : Type} : SProg α → List (List Byte) → SProg α
  | .call (.back n) k, g :: gs => if g.length = n then walk (k g) gs else .stop
  | .call (.bit _) k, gs => walk (k []) gs
  | .call (.data _) k, gs => walk (k []) gs
  | .call .flush k, gs => walk (k []) gs
  | .call .hash _, _ => .stop
  | p, _ => p

/-- Sends the messages and returns. -/
def feeder : List (List Byte) → RProg Unit
  | [] => .done ()
  | g :: gs => .call (.back g) (fun _ _ => feeder gs)

section
variable {α β : Type} {S : Nat}

theorem PReach.trans' {c0 c1 c2 : PNet α β} (h : PReach S c0 c1) (h' : PReach S c1 c2) : PReach S c0 c2 := by
  induction h' with
  | init => exact h
  | sndStep _ hs ih => exact .sndStep ih hs
  | rcvStep _ hs ih => exact .rcvStep ih hs

/-- `n` steps of the prover alone. -/
def aloneP (S : Nat) : Nat → PNet α β → PNet α β
  | 0, c => c
  | n + 1, c => match stepP S c with
    | some c' => aloneP S n c'
    | none => c

theorem aloneP_reach : ∀ (n : Nat) (c : PNet α β), PReach S c (aloneP S n c)
  | 0, _ => .init
  | n + 1, c => by
    unfold aloneP
    split
    · next c' h => exact PReach.trans' (.sndStep .init h) (aloneP_reach n c')
    · exact .init

theorem feeder_reach : ∀ (gs : List (List Byte)) {p : SProg α} {snd : SndSt} {w t : List Byte} {rcv : RcvSt},
    ∃ c, PReach S ⟨p, snd, w, t, rcv, feeder gs⟩ c ∧ c.p = p ∧ c.snd = snd ∧ c.toS = t ++ gs.flatten
  | [], p, snd, w, t, rcv => ⟨_, .init, rfl, rfl, by simp⟩
  | g :: gs, p, snd, w, t, rcv => by
    obtain ⟨c, h1, h2, h3, h4⟩ := feeder_reach gs (p := p) (snd := snd) (w := w) (t := t ++ g) (rcv := rcvFlush S rcv)
    refine ⟨c, PReach.trans' (.rcvStep .init ?_) h1, h2, h3, by simp [h4]⟩
    rfl

theorem walk_reach (hS : 0 < S) (p : SProg α) : ∀ {gs : List (List Byte)} {c : PNet α β}, c.p = p → c.toS = gs.flatten → walk p gs = .fail →
    c.snd.buf.length < S → ∃ c', PReach S c c' ∧ c'.p = .fail := by
  induction p with
  | done a => intro gs c _ _ hw; simp [walk] at hw
  | stop => intro gs c _ _ hw; simp [walk] at hw
  | fail => intro gs c hp _ _ _; exact ⟨c, .init, hp⟩
  | call o k ih =>
    intro gs c hp ht hw hb
    obtain ⟨p, snd, w, t, rcv, q⟩ := c
    simp only at hp ht hb
    subst hp ht
    have fl := sndFlush_empty S snd hb
    cases o with
    | bit b =>
      obtain ⟨c', h1, h2⟩ := ih [] (gs := gs) (c := ⟨k [], (sendBit S snd b).1, w ++ (sendBit S snd b).2, gs.flatten, rcv, q⟩) rfl rfl
        (by cases gs <;> exact hw) (sendBit_lt S snd b hb)
      exact ⟨c', PReach.trans' (.sndStep .init rfl) h1, h2⟩
    | flush =>
      obtain ⟨c', h1, h2⟩ := ih [] (gs := gs) (c := ⟨k [], (sndFlush S snd).1, w ++ (sndFlush S snd).2, gs.flatten, rcv, q⟩) rfl rfl
        (by cases gs <;> exact hw) (by rw [fl]; exact hS)
      exact ⟨c', PReach.trans' (.sndStep .init rfl) h1, h2⟩
    | data bs =>
      obtain ⟨c', h1, h2⟩ := ih [] (gs := gs) (c := ⟨k [], (sndFlush S snd).1, w ++ (sndFlush S snd).2 ++ bs, gs.flatten, rcv, q⟩) rfl rfl
        (by cases gs <;> exact hw) (by rw [fl]; exact hS)
      exact ⟨c', PReach.trans' (.sndStep .init rfl) h1, h2⟩
    | hash => cases gs <;> simp [walk] at hw
    | back n =>
      cases gs with
      | nil => simp [walk] at hw
      | cons g gs =>
        simp only [walk] at hw
        split at hw
        · next hg =>
          have key : ∀ (snd : SndSt) (w : List Byte), snd.buf = [] →
              ∃ c', PReach S (⟨.call (.back n) k, snd, w, (g :: gs).flatten, rcv, q⟩ : PNet α β) c' ∧ c'.p = .fail := by
            intro snd w hb
            obtain ⟨c', h1, h2⟩ := ih g (gs := gs) (c := ⟨k g, { snd with got := snd.got ++ [g] }, w, gs.flatten, rcv, q⟩) rfl rfl hw
              (by simp [hb, hS])
            refine ⟨c', PReach.trans' (.sndStep .init ?_) h1, h2⟩
            subst hg
            simp [stepP, stepS, hb, sndRet]
          by_cases hbuf : snd.buf = []
          · exact key snd w hbuf
          · obtain ⟨c', h1, h2⟩ := key (sndFlush S snd).1 (w ++ (sndFlush S snd).2) fl
            refine ⟨c', PReach.trans' (.sndStep .init ?_) h1, h2⟩
            simp [stepP, stepS, hbuf]
        · simp at hw

end
end EmpZk
