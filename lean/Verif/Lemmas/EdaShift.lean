/-
Passing the bucket check for several rotations makes the set of bad candidates periodic.
-/
import Mathlib.GroupTheory.Index
import Mathlib.GroupTheory.Coset.Card
import Mathlib.Data.ZMod.Basic
import Mathlib.GroupTheory.OrderOfElement
import Mathlib.Tactic.Ring
import Mathlib.Tactic.Push

namespace EmpZk

/-- Shifts that leave `β` unchanged. -/
def periods {m : Nat} (β : ZMod m → Bool) : AddSubgroup (ZMod m) where
  carrier := {h | ∀ u, β (u + h) = β u}
  zero_mem' := by intro u; rw [add_zero]
  add_mem' := by
    intro a b ha hb u
    rw [← add_assoc, hb, ha]
  neg_mem' := by
    intro a ha u
    rw [← ha (u + -a), neg_add_cancel_right]

theorem shift_bound {m q : Nat} [NeZero m] (β o : ZMod m → Bool) (P : Finset (ZMod m)) (hP : ∀ r ∈ P, ∀ v, β (r + v) = o v)
    (h0 : o 0 = false) (h1 : o 1 = false) {v0 : ZMod m} (hv0 : o v0 = true) (hq : ∀ d, d ∣ m → d < q → d ∣ 2) :
    P.card * q ≤ m := by
  rcases P.eq_empty_or_nonempty with rfl | ⟨p, hp⟩
  · simp
  have hcard : (periods β).index * Nat.card (periods β) = m := by
    rw [AddSubgroup.index_mul_card, Nat.card_zmod]
  have hle : P.card ≤ Nat.card (periods β) := by
    have hinj : ∀ r ∈ P, r - p ∈ (periods β : Set (ZMod m)) := by
      intro r hr u
      have e1 := hP r hr (u - p)
      have e2 := hP p hp (u - p)
      rw [show r + (u - p) = u + (r - p) by ring] at e1
      rw [show p + (u - p) = u by ring] at e2
      rw [e1, e2]
    have := Nat.card_le_card_of_injective (fun r : P => (⟨r.1 - p, hinj r.1 r.2⟩ : periods β)) (by
      intro a b hab
      have := congrArg Subtype.val hab
      exact Subtype.ext (sub_left_injective this))
    simpa using this
  have hidx : q ≤ (periods β).index := by
    by_contra hlt
    have hd := hq _ (Dvd.intro _ hcard) (not_le.1 hlt)
    have hmem : (2 : ZMod m) ∈ periods β := by
      obtain ⟨k, hk⟩ := hd
      have := (periods β).nsmul_mem ((periods β).nsmul_index_mem (1 : ZMod m)) k
      rw [smul_smul, mul_comm, ← hk] at this
      simpa using this
    have hall : ∀ n : Nat, β (p + n) = false ∧ β (p + (n + 1 : Nat)) = false := by
      intro n
      induction n with
      | zero =>
        constructor
        · rw [Nat.cast_zero, hP p hp, h0]
        · rw [Nat.cast_one, hP p hp, h1]
      | succ n ih =>
        refine ⟨ih.2, ?_⟩
        rw [← ih.1]
        have := hmem (p + n)
        rw [← this]
        congr 1
        push_cast
        ring
    have := (hall v0.val).1
    rw [ZMod.natCast_zmod_val, hP p hp, hv0] at this
    simp at this
  calc P.card * q ≤ Nat.card (periods β) * (periods β).index := Nat.mul_le_mul hle hidx
    _ = m := by rw [mul_comm, hcard]

end EmpZk
