/-
Two programs that draw random field elements and that no second party can tell apart.
-/
import Verif.Spec.ArithView
import Verif.Lemmas.Proc
import Mathlib.Logic.Equiv.Fin.Basic

namespace EmpZk

/-! ### what the second party returns -/

/-- The second party can return `r` from here. -/
def Ret {α β : Type} (c : Duo α β) (r : β) : Prop := ∃ n p a b, Duo.Reach n c ⟨p, .done r, a, b⟩

namespace Ret
variable {α β : Type}

/-- A step forward, when the second party has returned. -/
theorem step_of {n : Nat} : ∀ {c c' : Duo α β} {p a b} {r : β}, Duo.Reach n c ⟨p, .done r, a, b⟩ → c.Step c' → Ret c' r := by
  induction n with
  | zero =>
    intro c c' p a b r h hs
    cases h
    rcases hs with hs | hs
    · cases p with
      | done a => cases hs
      | fail => cases hs
      | send bs k => simp only [Duo.stepP, Option.some.injEq] at hs; subst hs; exact ⟨0, _, _, _, .refl _⟩
      | recv m k =>
        simp only [Duo.stepP] at hs
        split at hs
        · simp only [Option.some.injEq] at hs; subst hs; exact ⟨0, _, _, _, .refl _⟩
        · cases hs
    · cases hs
  | succ n ih =>
    intro c c' p a b r h hs
    cases h with
    | @step _ _ c1 _ h1 t =>
      rcases Duo.confluent h1 hs with rfl | ⟨d, h2, h3⟩
      · exact ⟨n, p, a, b, t⟩
      · obtain ⟨m, p', a', b', hm⟩ := ih t h2
        exact ⟨m + 1, p', a', b', .step h3 hm⟩

theorem step {c c' : Duo α β} (hs : c.Step c') (r : β) : Ret c r ↔ Ret c' r := by
  constructor
  · rintro ⟨n, p, a, b, h⟩
    exact step_of h hs
  · rintro ⟨n, p, a, b, h⟩
    exact ⟨n + 1, p, a, b, .step hs h⟩

theorem stuck {c : Duo α β} (hs : c.Stuck) (hq : ∀ r, c.q ≠ .done r) (r : β) : ¬ Ret c r := by
  rintro ⟨n, p, a, b, h⟩
  cases h with
  | refl => exact hq r rfl
  | step h1 t => exact hs _ h1

theorem done {n : Nat} : ∀ {c : Duo α β} {x r : β} {p a b}, c.q = .done x → Duo.Reach n c ⟨p, .done r, a, b⟩ → r = x := by
  induction n with
  | zero => intro c x r p a b hq h; cases h; exact (Proc.done.inj hq)
  | succ n ih =>
    intro c x r p a b hq h
    cases h with
    | @step _ _ c1 _ h1 t =>
      refine ih ?_ t
      obtain ⟨cp, cq, c3, c4⟩ := c
      subst hq
      rcases h1 with h1 | h1
      · cases cp with
        | done a => cases h1
        | fail => cases h1
        | send bs k => simp only [Duo.stepP, Option.some.injEq] at h1; subst h1; rfl
        | recv m k =>
          simp only [Duo.stepP] at h1
          split at h1
          · simp only [Option.some.injEq] at h1; subst h1; rfl
          · cases h1
      · cases h1

theorem done_iff {p : Proc α} {x : β} {a b : List Byte} (r : β) : Ret ⟨p, .done x, a, b⟩ r ↔ r = x := by
  constructor
  · rintro ⟨n, p', a', b', h⟩
    exact done rfl h
  · rintro rfl
    exact ⟨0, _, _, _, .refl _⟩

/-- The second party returns one value only. -/
theorem unique {c : Duo α β} {r x : β} (h : Ret c r) (h' : Ret c x) : r = x := by
  obtain ⟨n, p, a, b, h⟩ := h
  induction n generalizing c with
  | zero => cases h; obtain ⟨m, p', a', b', h'⟩ := h'; exact (done rfl h').symm
  | succ n ih =>
    cases h with
    | @step _ _ c1 _ h1 t => exact ih ((step h1 x).1 h') t

end Ret

/-- A party that is finished does not matter. -/
theorem ret_over {α α' β : Type} {p : Proc α} {p' : Proc α'} (hp : (∃ a, p = .done a) ∨ p = .fail) (hp' : (∃ a, p' = .done a) ∨ p' = .fail)
    (B : Proc β) : ∀ (a b : List Byte) (r : β), Ret ⟨p, B, a, b⟩ r ↔ Ret ⟨p', B, a, b⟩ r := by
  have nostep : ∀ (q : Proc β) (a b : List Byte), (⟨p, q, a, b⟩ : Duo α β).stepP = none := by
    intro q a b; rcases hp with ⟨x, rfl⟩ | rfl <;> rfl
  have nostep' : ∀ (q : Proc β) (a b : List Byte), (⟨p', q, a, b⟩ : Duo α' β).stepP = none := by
    intro q a b; rcases hp' with ⟨x, rfl⟩ | rfl <;> rfl
  induction B with
  | done x => intro a b r; rw [Ret.done_iff, Ret.done_iff]
  | fail =>
    intro a b r
    refine iff_of_false (Ret.stuck ?_ (by simp) r) (Ret.stuck ?_ (by simp) r)
    · rintro c' (h | h)
      · rw [nostep] at h; cases h
      · cases h
    · rintro c' (h | h)
      · rw [nostep'] at h; cases h
      · cases h
  | send bs k ih =>
    intro a b r
    rw [Ret.step (c := ⟨p, .send bs k, a, b⟩) (.inr rfl), Ret.step (c := ⟨p', .send bs k, a, b⟩) (.inr rfl)]
    exact ih _ _ r
  | recv n k ih =>
    intro a b r
    by_cases hn : n ≤ a.length
    · rw [Ret.step (c := ⟨p, .recv n k, a, b⟩) (.inr (if_pos hn)), Ret.step (c := ⟨p', .recv n k, a, b⟩) (.inr (if_pos hn))]
      exact ih _ _ _ r
    · refine iff_of_false (Ret.stuck ?_ (by simp) r) (Ret.stuck ?_ (by simp) r)
      · rintro c' (h | h)
        · rw [nostep] at h; cases h
        · rw [Duo.stepQ] at h; simp only [if_neg hn] at h; cases h
      · rintro c' (h | h)
        · rw [nostep'] at h; cases h
        · rw [Duo.stepQ] at h; simp only [if_neg hn] at h; cases h

/-! ### programs that look alike -/

namespace VProg
variable {α β : Type}

/-- At most `m` correlations are asked for. -/
inductive Asks : Nat → VProg α → Prop where
  | done (m a) : Asks m (.done a)
  | fail (m) : Asks m .fail
  | send {m} (bs) {k} : Asks m k → Asks m (.send bs k)
  | recv {m} (n) {k} : (∀ b, Asks m (k b)) → Asks m (.recv n k)
  | cor {m} {k} : (∀ x, Asks m (k x)) → Asks (m + 1) (.cor k)

theorem Asks.mono {m : Nat} {P : VProg α} (h : Asks m P) : ∀ {m'}, m ≤ m' → Asks m' P := by
  induction h with
  | done m a => intro m' _; exact .done _ _
  | fail m => intro m' _; exact .fail _
  | send bs _ ih => intro m' hm; exact .send bs (ih hm)
  | recv n _ ih => intro m' hm; exact .recv n (fun b => ih b hm)
  | @cor m k _ ih =>
    intro m' hm
    obtain ⟨x, rfl⟩ : ∃ x, m' = x + 1 := ⟨m' - 1, by omega⟩
    exact .cor (fun y => ih y (by omega))

theorem Asks.bind {m l : Nat} {P : VProg α} {f : α → VProg β} (h : Asks m P) (hf : ∀ a, Asks l (f a)) : Asks (l + m) (P.bind f) := by
  induction h with
  | done m a => exact (hf a).mono (Nat.le_add_right _ _)
  | fail m => exact .fail _
  | send bs _ ih => exact .send bs ih
  | recv n _ ih => exact .recv n ih
  | cor _ ih => exact .cor ih

/-- Whatever the second party does, it sees the same bytes: every draw of the first program is matched by a draw of the second, by a
bijection that depends only on what happened before. `Bad`: messages of the second party for which nothing is said. -/
inductive Equi (vc : Nat → Fp → U128) (Bad : Nat → List Byte → Prop) (Φ : Nat → α → β → Prop) : Nat → VProg α → VProg β → Prop where
  | done {i a b} : Φ i a b → Equi vc Bad Φ i (.done a) (.done b)
  | fail {i} : Equi vc Bad Φ i .fail .fail
  | send {i} (bs) {k k'} : Equi vc Bad Φ i k k' → Equi vc Bad Φ i (.send bs k) (.send bs k')
  | recv {i} (n) {k k'} : (∀ b, ¬ Bad n b → Equi vc Bad Φ i (k b) (k' b)) → Equi vc Bad Φ i (.recv n k) (.recv n k')
  | cor {i} {k k'} (σ : Equiv.Perm Fp) : (∀ u, Equi vc Bad Φ (i + 1) (k (vc i u)) (k' (vc i (σ u)))) →
      Equi vc Bad Φ i (.cor k) (.cor k')

theorem Equi.bind {γ δ : Type} {vc : Nat → Fp → U128} {Bad : Nat → List Byte → Prop} {Φ : Nat → α → β → Prop} {Ψ : Nat → γ → δ → Prop}
    {i : Nat} {P : VProg α} {P' : VProg β} {f : α → VProg γ} {g : β → VProg δ} (h : Equi vc Bad Φ i P P')
    (hf : ∀ j a b, Φ j a b → Equi vc Bad Ψ j (f a) (g b)) : Equi vc Bad Ψ i (P.bind f) (P'.bind g) := by
  induction h with
  | done h => exact hf _ _ _ h
  | fail => exact .fail
  | send bs _ ih => exact .send bs ih
  | recv n _ ih => exact .recv n ih
  | cor σ _ ih => exact .cor σ ih

theorem Equi.mono {vc : Nat → Fp → U128} {Bad : Nat → List Byte → Prop} {Φ Ψ : Nat → α → β → Prop} {i : Nat} {P : VProg α}
    {P' : VProg β} (h : Equi vc Bad Φ i P P') (hf : ∀ j a b, Φ j a b → Ψ j a b) : Equi vc Bad Ψ i P P' := by
  induction h with
  | done h => exact .done (hf _ _ _ h)
  | fail => exact .fail
  | send bs _ ih => exact .send bs ih
  | recv n _ ih => exact .recv n ih
  | cor σ _ ih => exact .cor σ ih

end VProg

/-- The first party never takes a bad message. -/
def NoBad {α β : Type} (Bad : Nat → List Byte → Prop) (c : Duo α β) : Prop :=
  ∀ n c' m k, Duo.Reach n c c' → c'.p = .recv m k → m ≤ c'.qp.length → ¬ Bad m (c'.qp.take m)

theorem NoBad.step {α β : Type} {Bad : Nat → List Byte → Prop} {c c' : Duo α β} (h : NoBad Bad c) (hs : c.Step c') : NoBad Bad c' :=
  fun n c'' m k hr hp hm => h (n + 1) c'' m k (.step hs hr) hp hm

/-- The correlations with masks `u` from index `i` on. -/
def corsOf (vc : Nat → Fp → U128) (i : Nat) {m : Nat} (u : Fin m → Fp) (j : Nat) : U128 := vc (i + j) (masks u j)

theorem corsOf_cons (vc : Nat → Fp → U128) (i : Nat) {m : Nat} (x : Fp) (u : Fin m → Fp) :
    corsOf vc i (Fin.cons x u : Fin (m + 1) → Fp) 0 = vc i x ∧
      (fun j => corsOf vc i (Fin.cons x u : Fin (m + 1) → Fp) (j + 1)) = corsOf vc (i + 1) u := by
  constructor
  · simp only [corsOf, masks, Nat.add_zero, Nat.zero_lt_succ, dif_pos]
    rfl
  · funext j
    simp only [corsOf, masks, show i + (j + 1) = i + 1 + j by omega, Nat.add_lt_add_iff_right]
    by_cases h : j < m
    · simp only [h, dif_pos]
      rfl
    · simp only [h, dif_neg, not_false_eq_true]

/-- A bijection of strings whose first letter is mapped by `σ` and the rest by a bijection depending on the first letter. -/
def consPerm {m : Nat} (σ : Equiv.Perm Fp) (φ : Fp → Equiv.Perm (Fin m → Fp)) : Equiv.Perm (Fin (m + 1) → Fp) :=
  ((Fin.consEquiv (fun _ => Fp)).symm.trans (Equiv.prodShear σ φ)).trans (Fin.consEquiv (fun _ => Fp))

theorem consPerm_cons {m : Nat} (σ : Equiv.Perm Fp) (φ : Fp → Equiv.Perm (Fin m → Fp)) (x : Fp) (u : Fin m → Fp) :
    consPerm σ φ (Fin.cons x u) = Fin.cons (σ x) (φ x u) := rfl

/-- Programs that look alike: a bijection of the masks under which every second party returns the same. -/
theorem equi_ret {α α' β : Type} {vc : Nat → Fp → U128} {Bad : Nat → List Byte → Prop} {Φ : Nat → α → α' → Prop} {i : Nat}
    {P : VProg α} {P' : VProg α'} (h : VProg.Equi vc Bad Φ i P P') : ∀ {m : Nat}, P.Asks m → P'.Asks m → ∀ (B : Proc β) (pq qp : List Byte),
      (∀ u : Fin m → Fp, NoBad Bad ⟨P.given (corsOf vc i u), B, pq, qp⟩) →
      ∃ φ : Equiv.Perm (Fin m → Fp), ∀ u r,
        Ret ⟨P.given (corsOf vc i u), B, pq, qp⟩ r ↔ Ret ⟨P'.given (corsOf vc i (φ u)), B, pq, qp⟩ r := by
  induction h with
  | done _ => intro m _ _ B pq qp _; exact ⟨Equiv.refl _, fun u r => ret_over (.inl ⟨_, rfl⟩) (.inl ⟨_, rfl⟩) B pq qp r⟩
  | fail => intro m _ _ B pq qp _; exact ⟨Equiv.refl _, fun u r => ret_over (.inr rfl) (.inr rfl) B pq qp r⟩
  | @send i bs k k' _ ih =>
    intro m h1 h2 B pq qp hb
    cases h1 with | send _ h1 =>
    cases h2 with | send _ h2 =>
    obtain ⟨φ, hφ⟩ := ih h1 h2 B (pq ++ bs) qp (fun u => (hb u).step (.inl rfl))
    refine ⟨φ, fun u r => ?_⟩
    have e1 := Ret.step (c := ⟨VProg.given (.send bs k) (corsOf vc i u), B, pq, qp⟩) (.inl rfl) r
    have e2 := Ret.step (c := ⟨VProg.given (.send bs k') (corsOf vc i (φ u)), B, pq, qp⟩) (.inl rfl) r
    exact e1.trans ((hφ u r).trans e2.symm)
  | @recv i n k k' _ ih =>
    intro m h1 h2 B
    cases h1 with | recv _ h1 =>
    cases h2 with | recv _ h2 =>
    induction B with
    | done x => intro pq qp _; exact ⟨Equiv.refl _, fun u r => by rw [Ret.done_iff, Ret.done_iff]⟩
    | fail =>
      intro pq qp hb
      by_cases hn : n ≤ qp.length
      · have hbad : ¬ Bad n (qp.take n) := hb (fun _ => 0) 0 _ n _ (.refl _) rfl hn
        obtain ⟨φ, hφ⟩ := ih _ hbad (h1 _) (h2 _) .fail pq (qp.drop n) (fun u => (hb u).step (.inl (if_pos hn)))
        refine ⟨φ, fun u r => ?_⟩
        have e1 := Ret.step (c := ⟨VProg.given (.recv n k) (corsOf vc i u), (.fail : Proc β), pq, qp⟩) (.inl (if_pos hn)) r
        have e2 := Ret.step (c := ⟨VProg.given (.recv n k') (corsOf vc i (φ u)), (.fail : Proc β), pq, qp⟩) (.inl (if_pos hn)) r
        exact e1.trans ((hφ u r).trans e2.symm)
      · refine ⟨Equiv.refl _, fun u r => iff_of_false (Ret.stuck ?_ (by simp) r) (Ret.stuck ?_ (by simp) r)⟩
        · rintro c' (h | h)
          · simp only [Duo.stepP, VProg.given, if_neg hn] at h; cases h
          · cases h
        · rintro c' (h | h)
          · simp only [Duo.stepP, VProg.given, if_neg hn] at h; cases h
          · cases h
    | send bs B ihB =>
      intro pq qp hb
      obtain ⟨φ, hφ⟩ := ihB pq (qp ++ bs) (fun u => (hb u).step (.inr rfl))
      refine ⟨φ, fun u r => ?_⟩
      have e1 := Ret.step (c := ⟨VProg.given (.recv n k) (corsOf vc i u), .send bs B, pq, qp⟩) (.inr rfl) r
      have e2 := Ret.step (c := ⟨VProg.given (.recv n k') (corsOf vc i (φ u)), .send bs B, pq, qp⟩) (.inr rfl) r
      exact e1.trans ((hφ u r).trans e2.symm)
    | recv l B ihB =>
      intro pq qp hb
      by_cases hl : l ≤ pq.length
      · obtain ⟨φ, hφ⟩ := ihB (pq.take l) (pq.drop l) qp (fun u => (hb u).step (.inr (if_pos hl)))
        refine ⟨φ, fun u r => ?_⟩
        have e1 := Ret.step (c := ⟨VProg.given (.recv n k) (corsOf vc i u), .recv l B, pq, qp⟩) (.inr (if_pos hl)) r
        have e2 := Ret.step (c := ⟨VProg.given (.recv n k') (corsOf vc i (φ u)), .recv l B, pq, qp⟩) (.inr (if_pos hl)) r
        exact e1.trans ((hφ u r).trans e2.symm)
      · by_cases hn : n ≤ qp.length
        · have hbad : ¬ Bad n (qp.take n) := hb (fun _ => 0) 0 _ n _ (.refl _) rfl hn
          obtain ⟨φ, hφ⟩ := ih _ hbad (h1 _) (h2 _) (.recv l B) pq (qp.drop n) (fun u => (hb u).step (.inl (if_pos hn)))
          refine ⟨φ, fun u r => ?_⟩
          have e1 := Ret.step (c := ⟨VProg.given (.recv n k) (corsOf vc i u), .recv l B, pq, qp⟩) (.inl (if_pos hn)) r
          have e2 := Ret.step (c := ⟨VProg.given (.recv n k') (corsOf vc i (φ u)), .recv l B, pq, qp⟩) (.inl (if_pos hn)) r
          exact e1.trans ((hφ u r).trans e2.symm)
        · refine ⟨Equiv.refl _, fun u r => iff_of_false (Ret.stuck ?_ (by simp) r) (Ret.stuck ?_ (by simp) r)⟩
          · rintro c' (h | h)
            · simp only [Duo.stepP, VProg.given, if_neg hn] at h; cases h
            · simp only [Duo.stepQ, if_neg hl] at h; cases h
          · rintro c' (h | h)
            · simp only [Duo.stepP, VProg.given, if_neg hn] at h; cases h
            · simp only [Duo.stepQ, if_neg hl] at h; cases h
  | @cor i k k' σ _ ih =>
    intro m h1 h2 B pq qp hb
    cases h1 with | @cor m _ h1 =>
    cases h2 with | cor h2 =>
    have e : ∀ {α : Type} (k : U128 → VProg α) (x : Fp) (u : Fin m → Fp),
        VProg.given (.cor k) (corsOf vc i (Fin.cons x u : Fin (m + 1) → Fp)) = (k (vc i x)).given (corsOf vc (i + 1) u) := by
      intro α k x u
      have := corsOf_cons vc i x u
      rw [VProg.given, this.1, this.2]
    have hx : ∀ x : Fp, ∃ φ : Equiv.Perm (Fin m → Fp), ∀ u r,
        Ret ⟨(k (vc i x)).given (corsOf vc (i + 1) u), B, pq, qp⟩ r ↔
          Ret ⟨(k' (vc i (σ x))).given (corsOf vc (i + 1) (φ u)), B, pq, qp⟩ r := by
      intro x
      refine ih x (h1 _) (h2 _) B pq qp (fun u => ?_)
      have := hb (Fin.cons x u)
      rwa [e] at this
    choose φ hφ using hx
    refine ⟨consPerm σ φ, fun u r => ?_⟩
    obtain ⟨x, u, rfl⟩ : ∃ x v, u = Fin.cons x v := ⟨u 0, Fin.tail u, (Fin.cons_self_tail u).symm⟩
    rw [consPerm_cons, e, e]
    exact hφ x u r

end EmpZk
