/-
Counting over functions by varying one coordinate.
-/
import Verif.Lemmas.Chi
import Mathlib.Data.Fintype.BigOperators
import Mathlib.Data.Fintype.Pi
import Mathlib.Combinatorics.Enumerative.DoubleCounting
import Mathlib.Algebra.Order.BigOperators.Group.Finset

namespace EmpZk

/-- If changing coordinate `t` hits `P` at most `n` times whatever the other coordinates are, `P` holds for at most
`n * |F|^(T-1)` functions. -/
theorem card_coord_le {ι F : Type} [Fintype ι] [DecidableEq ι] [Fintype F] [DecidableEq F] (P : (ι → F) → Prop)
    [DecidablePred P] (t : ι) (n : Nat)
    (h : ∀ s0 : ι → F, ∀ xs : Finset F, (∀ x ∈ xs, P (Function.update s0 t x)) → xs.card ≤ n) :
    (Finset.univ.filter P).card ≤ n * Fintype.card F ^ (Fintype.card ι - 1) := by
  classical
  let f : (ι → F) → ({j // j ≠ t} → F) := fun s j => s j.1
  have h1 := Finset.card_le_mul_card_image_of_maps_to (f := f) (s := Finset.univ.filter P)
    (t := (Finset.univ : Finset ({j // j ≠ t} → F))) (fun _ _ => Finset.mem_univ _) n (by
      intro b _
      by_cases he : (Finset.filter (fun a => f a = b) (Finset.univ.filter P)) = ∅
      · rw [he]; simp
      · obtain ⟨s0, hs0⟩ := Finset.nonempty_iff_ne_empty.2 he
        simp only [Finset.mem_filter, Finset.mem_univ, true_and] at hs0
        have hupd : ∀ a, f a = b → a = Function.update s0 t (a t) := by
          intro a ha
          funext j
          by_cases hj : j = t
          · subst hj; simp
          · rw [Function.update_of_ne hj]
            have e1 := congrFun ha ⟨j, hj⟩
            have e2 := congrFun hs0.2 ⟨j, hj⟩
            exact e1.trans e2.symm
        have hinj : Set.InjOn (fun a : ι → F => a t)
            (Finset.filter (fun a => f a = b) (Finset.univ.filter P) : Finset (ι → F)) := by
          intro a ha c hc hac
          simp only [Finset.coe_filter, Finset.mem_filter, Finset.mem_univ, true_and, Set.mem_setOf_eq] at ha hc
          rw [hupd a ha.2, hupd c hc.2]
          simp only at hac
          rw [hac]
        rw [← Finset.card_image_of_injOn hinj]
        apply h s0
        intro x hx
        simp only [Finset.mem_image, Finset.mem_filter, Finset.mem_univ, true_and] at hx
        obtain ⟨a, ⟨hPa, hfa⟩, rfl⟩ := hx
        rw [← hupd a hfa]
        exact hPa)
  refine h1.trans ?_
  apply Nat.mul_le_mul_left
  rw [Finset.card_univ, Fintype.card_fun]
  have : Fintype.card {j // j ≠ t} = Fintype.card ι - 1 := by
    rw [Fintype.card_subtype_compl, Fintype.card_subtype_eq]
  rw [this]

end EmpZk
