/-
Two programs that draw random bits and that no second party can tell apart: the same as `Verif.Lemmas.View`, for bits.
-/
import Verif.Spec.BoolView
import Verif.Lemmas.View

namespace EmpZk

/-! ### programs that look alike -/

namespace CProg
variable {C α β : Type}

/-- At most `m` correlations are asked for. -/
inductive Asks : Nat → CProg C α → Prop where
  | done (m a) : Asks m (.done a)
  | fail (m) : Asks m .fail
  | send {m} (bs) {k} : Asks m k → Asks m (.send bs k)
  | recv {m} (n) {k} : (∀ b, Asks m (k b)) → Asks m (.recv n k)
  | cor {m} {k} : (∀ x, Asks m (k x)) → Asks (m + 1) (.cor k)

theorem Asks.mono {m : Nat} {P : CProg C α} (h : Asks m P) : ∀ {m'}, m ≤ m' → Asks m' P := by
  induction h with
  | done m a => intro m' _; exact .done _ _
  | fail m => intro m' _; exact .fail _
  | send bs _ ih => intro m' hm; exact .send bs (ih hm)
  | recv n _ ih => intro m' hm; exact .recv n (fun b => ih b hm)
  | @cor m k _ ih =>
    intro m' hm
    obtain ⟨x, rfl⟩ : ∃ x, m' = x + 1 := ⟨m' - 1, by omega⟩
    exact .cor (fun y => ih y (by omega))

theorem Asks.bind {m l : Nat} {P : CProg C α} {f : α → CProg C β} (h : Asks m P) (hf : ∀ a, Asks l (f a)) : Asks (l + m) (P.bind f) := by
  induction h with
  | done m a => exact (hf a).mono (Nat.le_add_right _ _)
  | fail m => exact .fail _
  | send bs _ ih => exact .send bs ih
  | recv n _ ih => exact .recv n ih
  | cor _ ih => exact .cor ih

/-- Whatever the second party does, it sees the same bytes: every draw of the first program is matched by a draw of the second, by a
bijection that depends only on what happened before. -/
inductive Equi (vc : Nat → Bool → C) (Φ : Nat → α → β → Prop) : Nat → CProg C α → CProg C β → Prop where
  | done {i a b} : Φ i a b → Equi vc Φ i (.done a) (.done b)
  | fail {i} : Equi vc Φ i .fail .fail
  | send {i} (bs) {k k'} : Equi vc Φ i k k' → Equi vc Φ i (.send bs k) (.send bs k')
  | recv {i} (n) {k k'} : (∀ b, Equi vc Φ i (k b) (k' b)) → Equi vc Φ i (.recv n k) (.recv n k')
  | cor {i} {k k'} (σ : Equiv.Perm Bool) : (∀ u, Equi vc Φ (i + 1) (k (vc i u)) (k' (vc i (σ u)))) →
      Equi vc Φ i (.cor k) (.cor k')

theorem Equi.bind {γ δ : Type} {vc : Nat → Bool → C} {Φ : Nat → α → β → Prop} {Ψ : Nat → γ → δ → Prop}
    {i : Nat} {P : CProg C α} {P' : CProg C β} {f : α → CProg C γ} {g : β → CProg C δ} (h : Equi vc Φ i P P')
    (hf : ∀ j a b, Φ j a b → Equi vc Ψ j (f a) (g b)) : Equi vc Ψ i (P.bind f) (P'.bind g) := by
  induction h with
  | done h => exact hf _ _ _ h
  | fail => exact .fail
  | send bs _ ih => exact .send bs ih
  | recv n _ ih => exact .recv n ih
  | cor σ _ ih => exact .cor σ ih

theorem Equi.mono {vc : Nat → Bool → C} {Φ Ψ : Nat → α → β → Prop} {i : Nat} {P : CProg C α}
    {P' : CProg C β} (h : Equi vc Φ i P P') (hf : ∀ j a b, Φ j a b → Ψ j a b) : Equi vc Ψ i P P' := by
  induction h with
  | done h => exact .done (hf _ _ _ h)
  | fail => exact .fail
  | send bs _ ih => exact .send bs ih
  | recv n _ ih => exact .recv n ih
  | cor σ _ ih => exact .cor σ ih

end CProg

/-- The correlations with masks `u` from index `i` on. -/
def corsC {C : Type} (vc : Nat → Bool → C) (i : Nat) {m : Nat} (u : Fin m → Bool) (j : Nat) : C := vc (i + j) (maskBits u j)

theorem corsC_cons {C : Type} (vc : Nat → Bool → C) (i : Nat) {m : Nat} (x : Bool) (u : Fin m → Bool) :
    corsC vc i (Fin.cons x u : Fin (m + 1) → Bool) 0 = vc i x ∧
      (fun j => corsC vc i (Fin.cons x u : Fin (m + 1) → Bool) (j + 1)) = corsC vc (i + 1) u := by
  constructor
  · simp only [corsC, maskBits, Nat.add_zero, Nat.zero_lt_succ, dif_pos]
    rfl
  · funext j
    simp only [corsC, maskBits, show i + (j + 1) = i + 1 + j by omega, Nat.add_lt_add_iff_right]
    by_cases h : j < m
    · simp only [h, dif_pos]
      rfl
    · simp only [h, dif_neg, not_false_eq_true]

/-- A bijection of strings whose first letter is mapped by `σ` and the rest by a bijection depending on the first letter. -/
def consPermC {m : Nat} (σ : Equiv.Perm Bool) (φ : Bool → Equiv.Perm (Fin m → Bool)) : Equiv.Perm (Fin (m + 1) → Bool) :=
  ((Fin.consEquiv (fun _ => Bool)).symm.trans (Equiv.prodShear σ φ)).trans (Fin.consEquiv (fun _ => Bool))

theorem consPermC_cons {m : Nat} (σ : Equiv.Perm Bool) (φ : Bool → Equiv.Perm (Fin m → Bool)) (x : Bool) (u : Fin m → Bool) :
    consPermC σ φ (Fin.cons x u) = Fin.cons (σ x) (φ x u) := rfl

/-- Programs that look alike: a bijection of the masks under which every second party returns the same. -/
theorem cequi_ret {C α α' β : Type} {vc : Nat → Bool → C} {Φ : Nat → α → α' → Prop} {i : Nat}
    {P : CProg C α} {P' : CProg C α'} (h : CProg.Equi vc Φ i P P') : ∀ {m : Nat}, P.Asks m → P'.Asks m → ∀ (B : Proc β) (pq qp : List Byte),
      ∃ φ : Equiv.Perm (Fin m → Bool), ∀ u r,
        Ret ⟨P.given (corsC vc i u), B, pq, qp⟩ r ↔ Ret ⟨P'.given (corsC vc i (φ u)), B, pq, qp⟩ r := by
  induction h with
  | done _ => intro m _ _ B pq qp; exact ⟨Equiv.refl _, fun u r => ret_over (.inl ⟨_, rfl⟩) (.inl ⟨_, rfl⟩) B pq qp r⟩
  | fail => intro m _ _ B pq qp; exact ⟨Equiv.refl _, fun u r => ret_over (.inr rfl) (.inr rfl) B pq qp r⟩
  | @send i bs k k' _ ih =>
    intro m h1 h2 B pq qp
    cases h1 with | send _ h1 =>
    cases h2 with | send _ h2 =>
    obtain ⟨φ, hφ⟩ := ih h1 h2 B (pq ++ bs) qp
    refine ⟨φ, fun u r => ?_⟩
    have e1 := Ret.step (c := ⟨CProg.given (.send bs k) (corsC vc i u), B, pq, qp⟩) (.inl rfl) r
    have e2 := Ret.step (c := ⟨CProg.given (.send bs k') (corsC vc i (φ u)), B, pq, qp⟩) (.inl rfl) r
    exact e1.trans ((hφ u r).trans e2.symm)
  | @recv i n k k' _ ih =>
    intro m h1 h2 B
    cases h1 with | recv _ h1 =>
    cases h2 with | recv _ h2 =>
    induction B with
    | done x => intro pq qp; exact ⟨Equiv.refl _, fun u r => by rw [Ret.done_iff, Ret.done_iff]⟩
    | fail =>
      intro pq qp
      by_cases hn : n ≤ qp.length
      · obtain ⟨φ, hφ⟩ := ih (qp.take n) (h1 _) (h2 _) .fail pq (qp.drop n)
        refine ⟨φ, fun u r => ?_⟩
        have e1 := Ret.step (c := ⟨CProg.given (.recv n k) (corsC vc i u), (.fail : Proc β), pq, qp⟩) (.inl (if_pos hn)) r
        have e2 := Ret.step (c := ⟨CProg.given (.recv n k') (corsC vc i (φ u)), (.fail : Proc β), pq, qp⟩) (.inl (if_pos hn)) r
        exact e1.trans ((hφ u r).trans e2.symm)
      · refine ⟨Equiv.refl _, fun u r => iff_of_false (Ret.stuck ?_ (by simp) r) (Ret.stuck ?_ (by simp) r)⟩
        · rintro c' (h | h)
          · simp only [Duo.stepP, CProg.given, if_neg hn] at h; cases h
          · cases h
        · rintro c' (h | h)
          · simp only [Duo.stepP, CProg.given, if_neg hn] at h; cases h
          · cases h
    | send bs B ihB =>
      intro pq qp
      obtain ⟨φ, hφ⟩ := ihB pq (qp ++ bs)
      refine ⟨φ, fun u r => ?_⟩
      have e1 := Ret.step (c := ⟨CProg.given (.recv n k) (corsC vc i u), .send bs B, pq, qp⟩) (.inr rfl) r
      have e2 := Ret.step (c := ⟨CProg.given (.recv n k') (corsC vc i (φ u)), .send bs B, pq, qp⟩) (.inr rfl) r
      exact e1.trans ((hφ u r).trans e2.symm)
    | recv l B ihB =>
      intro pq qp
      by_cases hl : l ≤ pq.length
      · obtain ⟨φ, hφ⟩ := ihB (pq.take l) (pq.drop l) qp
        refine ⟨φ, fun u r => ?_⟩
        have e1 := Ret.step (c := ⟨CProg.given (.recv n k) (corsC vc i u), .recv l B, pq, qp⟩) (.inr (if_pos hl)) r
        have e2 := Ret.step (c := ⟨CProg.given (.recv n k') (corsC vc i (φ u)), .recv l B, pq, qp⟩) (.inr (if_pos hl)) r
        exact e1.trans ((hφ u r).trans e2.symm)
      · by_cases hn : n ≤ qp.length
        · obtain ⟨φ, hφ⟩ := ih (qp.take n) (h1 _) (h2 _) (.recv l B) pq (qp.drop n)
          refine ⟨φ, fun u r => ?_⟩
          have e1 := Ret.step (c := ⟨CProg.given (.recv n k) (corsC vc i u), .recv l B, pq, qp⟩) (.inl (if_pos hn)) r
          have e2 := Ret.step (c := ⟨CProg.given (.recv n k') (corsC vc i (φ u)), .recv l B, pq, qp⟩) (.inl (if_pos hn)) r
          exact e1.trans ((hφ u r).trans e2.symm)
        · refine ⟨Equiv.refl _, fun u r => iff_of_false (Ret.stuck ?_ (by simp) r) (Ret.stuck ?_ (by simp) r)⟩
          · rintro c' (h | h)
            · simp only [Duo.stepP, CProg.given, if_neg hn] at h; cases h
            · simp only [Duo.stepQ, if_neg hl] at h; cases h
          · rintro c' (h | h)
            · simp only [Duo.stepP, CProg.given, if_neg hn] at h; cases h
            · simp only [Duo.stepQ, if_neg hl] at h; cases h
  | @cor i k k' σ _ ih =>
    intro m h1 h2 B pq qp
    cases h1 with | @cor m _ h1 =>
    cases h2 with | cor h2 =>
    have e : ∀ {α : Type} (k : C → CProg C α) (x : Bool) (u : Fin m → Bool),
        CProg.given (.cor k) (corsC vc i (Fin.cons x u : Fin (m + 1) → Bool)) = (k (vc i x)).given (corsC vc (i + 1) u) := by
      intro α k x u
      have := corsC_cons vc i x u
      rw [CProg.given, this.1, this.2]
    have hx : ∀ x : Bool, ∃ φ : Equiv.Perm (Fin m → Bool), ∀ u r,
        Ret ⟨(k (vc i x)).given (corsC vc (i + 1) u), B, pq, qp⟩ r ↔
          Ret ⟨(k' (vc i (σ x))).given (corsC vc (i + 1) (φ u)), B, pq, qp⟩ r := by
      intro x
      exact ih x (h1 _) (h2 _) B pq qp
    choose φ hφ using hx
    refine ⟨consPermC σ φ, fun u r => ?_⟩
    obtain ⟨x, u, rfl⟩ : ∃ x v, u = Fin.cons x v := ⟨u 0, Fin.tail u, (Fin.cons_self_tail u).symm⟩
    rw [consPermC_cons, e, e]
    exact hφ x u r

end EmpZk
