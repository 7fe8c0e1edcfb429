/-
C40: the receiver's choice bits.
-/
import Verif.Model.ChoiceBits
import Verif.Lemmas.Ggm
import Verif.Lemmas.Mpfss

namespace EmpZk

/-- C40 is false: with the constructor as written, for every number of trees and every depth with at least one level, the choice phase uses
an element of `b` that was never assigned. -/
theorem C40_false (depth : Nat) (hd : 2 ≤ depth) (treeN : Nat) (ht : 0 < treeN) (st : PreRecv) (hl : st.length = depth - 1) :
    mpfssChoices (fun _ => RecvObj.new depth) treeN st = none := by
  have h1 : ∀ st : PreRecv, st.length = depth - 1 → choicesRecverObj st (RecvObj.new depth) = none := by
    intro st hl
    unfold choicesRecverObj
    rw [hl, show depth - 1 = (depth - 2) + 1 by omega, List.range_succ_eq_map, List.mapM_cons]
    have : (RecvObj.new depth).read 0 = none := by
      have : (List.replicate (depth - 1) (none : Option Bool))[0]? = some none := by
        rw [List.getElem?_replicate, if_pos (by omega)]
      simp [RecvObj.read, RecvObj.new, this]
    rw [this]
    rfl
  obtain ⟨t, rfl⟩ : ∃ t, treeN = t + 1 := ⟨treeN - 1, by omega⟩
  induction t with
  | zero =>
    simp only [mpfssChoices, Option.bind_eq_bind, Option.bind_some]
    rw [h1 st hl]
    rfl
  | succ t ih =>
    rw [mpfssChoices, ih (by omega)]
    rfl

example : mpfssChoices (fun _ => RecvObj.new 12) 1280 ⟨11 * 1280, 11, fun _ => 0, fun _ => false, 0⟩ = none :=
  C40_false 12 (by omega) 1280 (by omega) _ rfl

private theorem read_ok (depth : Nat) (c : Nat → Bool) (i : Nat) (hi : i < depth - 1) :
    (⟨depth, (List.range (depth - 1)).map (fun j => some (c j))⟩ : RecvObj).read i = some (c i) := by
  simp [RecvObj.read, List.getElem?_range hi]

private theorem index_ok (depth : Nat) (c : Nat → Bool) (n : Nat) (hn : n ≤ depth - 1) :
    (⟨depth, (List.range (depth - 1)).map (fun j => some (c j))⟩ : RecvObj).getIndex n = some (getIndex c n) := by
  induction n with
  | zero => rfl
  | succ n ih =>
    rw [RecvObj.getIndex, ih (by omega), read_ok depth c n (by omega)]
    simp only [Option.bind_eq_bind, Option.bind_some, getIndex]
    cases c n <;> rfl

/-- C40, what holds: had every element of `b` been assigned (to any choice bits `c i`), the choice phase would run without undefined
behaviour, would give the punctured positions of those bits, and would put the OT in the state of C28. -/
theorem C40_partial (depth : Nat) (c : Nat → Nat → Bool) (treeN : Nat) (st : PreRecv) (hl : st.length = depth - 1)
    (hc : st.count + treeN * (depth - 1) ≤ st.n) :
    ∃ st', mpfssChoices (fun i => ⟨depth, (List.range (depth - 1)).map (fun j => some (c i j))⟩) treeN st =
        some (st', (List.range treeN).map (fun i => getIndex (c i) (depth - 1))) ∧
      st'.n = st.n ∧ st'.length = st.length ∧ st'.count = st.count + treeN * (depth - 1) ∧
      (∀ k, k < st.count ∨ st'.count ≤ k → st'.bits k = st.bits k) ∧
      ∀ i j, i < treeN → j < depth - 1 → st'.bits (st.count + i * (depth - 1) + j) = (c i j != st.bits (st.count + i * (depth - 1) + j)) := by
  induction treeN with
  | zero => exact ⟨st, rfl, rfl, rfl, by simp, fun _ _ => rfl, by intro i j h; omega⟩
  | succ t ih =>
    rw [Nat.succ_mul] at hc
    obtain ⟨s1, h1, h2, h3, h4, h5, h6⟩ := ih (by omega)
    have hm : (List.range (depth - 1)).mapM (⟨depth, (List.range (depth - 1)).map (fun j => some (c t j))⟩ : RecvObj).read =
        some ((List.range (depth - 1)).map (c t)) :=
      mapM_some _ _ _ (fun i hi => read_ok depth (c t) i (List.mem_range.1 hi))
    have hbits : ∀ k, k < depth - 1 → ((List.range (depth - 1)).map (c t)).getD k false = c t k := by
      intro k hk
      simp [List.getD, hk]
    rw [mpfssChoices, h1]
    simp only [Option.bind_eq_bind, Option.bind_some]
    rw [choicesRecverObj, h3, hl, hm, Option.bind_eq_bind, Option.bind_some, choicesRecver, if_pos (by omega), Option.bind_some]
    simp only
    rw [index_ok depth (c t) (depth - 1) (le_refl _), Option.bind_some]
    rw [List.range_succ (n := t), List.map_append]
    refine ⟨_, rfl, h2, h3.trans hl, ?_, ?_, ?_⟩
    · simp only; rw [h3, h4, hl, Nat.succ_mul]; omega
    · intro k hk
      simp only at hk ⊢
      rw [if_neg (by omega)]
      exact h5 k (by omega)
    · intro i j hi hj
      simp only
      by_cases hit : i = t
      · subst hit
        rw [if_pos (by omega), h4, show st.count + i * (depth - 1) + j - (st.count + i * (depth - 1)) = j by omega, hbits j hj]
        refine congrArg (c i j != ·) ?_
        exact h5 _ (Or.inr (by omega))
      · rw [if_neg ?_]
        · exact h6 i j (by omega) hj
        · rw [h4]
          have : (i + 1) * (depth - 1) ≤ t * (depth - 1) := Nat.mul_le_mul_right _ (by omega)
          rw [Nat.succ_mul] at this
          omega

end EmpZk
