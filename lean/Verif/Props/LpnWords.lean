import Verif.Lemmas.Lpn
import Verif.Model.F2kVole
import Mathlib.Data.List.Nodup

namespace EmpZk

/-! ### C72 : the random words behind the LPN entries -/

/-- The position a step starts at, which is also the number it encrypts. -/
def LpnOp.base : LpnOp → Nat
  | .quad j => j
  | .single j => j

/-- Pairs (number encrypted, word of the result) read for a list of lanes. -/
def wordsRead (ls : List (Nat × Nat × List Nat)) : List (Nat × Nat) := ls.flatMap (fun l => l.2.2.map (fun w => (l.2.1, w)))

theorem bases_sublist (ops : List LpnOp) : (ops.map LpnOp.base).Sublist (opsPos ops) := by
  induction ops with
  | nil => exact List.Sublist.refl _
  | cons op ops ih =>
    rw [List.map_cons, show op :: ops = [op] ++ ops from rfl, opsPos_append]
    refine List.Sublist.append (l₁ := [op.base]) ?_ ih
    rw [List.singleton_sublist]
    cases op <;> simp [opsPos, LpnOp.lanes, LpnOp.base]

theorem bases_nodup (n threads : Nat) : ((lpnTasks n threads).flatten.map LpnOp.base).Nodup := by
  refine (bases_sublist _).nodup ?_
  rw [opsPos_tasks]
  exact List.nodup_range

theorem words_nodup (f : LpnOp → List (Nat × Nat × List Nat)) (hf : ∀ op, (wordsRead (f op)).Nodup)
    (hb : ∀ op, ∀ l ∈ f op, l.2.1 = op.base) (ops : List LpnOp) (h : (ops.map LpnOp.base).Nodup) :
    (wordsRead (ops.flatMap f)).Nodup := by
  have e : wordsRead (ops.flatMap f) = ops.flatMap (fun op => wordsRead (f op)) := by
    unfold wordsRead
    rw [List.flatMap_assoc]
  rw [e, List.nodup_flatMap]
  refine ⟨fun op _ => hf op, ?_⟩
  have hp : ops.Pairwise (fun a b => a.base ≠ b.base) := List.pairwise_map.1 h
  refine hp.imp ?_
  intro a b hab x hx hy
  simp only [wordsRead, List.mem_flatMap, List.mem_map] at hx hy
  obtain ⟨l, hl, w, _, rfl⟩ := hx
  obtain ⟨l', hl', w', _, e'⟩ := hy
  refine hab ?_
  rw [← hb a l hl, ← hb b l' hl']
  exact (congrArg Prod.fst e').symm

theorem quad_words (j : Nat) (g : Nat → Nat → Nat) (hg : ((List.range 4).flatMap (fun l => (List.range 10).map (g l))).Nodup) :
    (wordsRead ((List.range 4).map (fun l => (j + l, j, (List.range 10).map (g l))))).Nodup := by
  have e : wordsRead ((List.range 4).map (fun l => (j + l, j, (List.range 10).map (g l)))) =
      ((List.range 4).flatMap (fun l => (List.range 10).map (g l))).map (fun w => (j, w)) := by
    unfold wordsRead
    rw [List.flatMap_map, List.map_flatMap]
  rw [e]
  exact hg.map (fun a b h => (Prod.mk.inj h).2)

/-- C72 over F_p. In one expansion no word of the generator's output is used twice: neither for two output positions nor for two entries of
one position. -/
theorem C72_fresh_words (n threads : Nat) : (wordsRead ((lpnTasks n threads).flatten.flatMap LpnOp.lanes)).Nodup := by
  refine words_nodup _ ?_ ?_ _ (bases_nodup n threads)
  · intro op
    cases op with
    | single j =>
      simp only [LpnOp.lanes, wordsRead, List.flatMap_cons, List.flatMap_nil, List.append_nil]
      exact List.nodup_range.map (fun a b h => (Prod.mk.inj h).2)
    | quad j => exact quad_words j (fun l t => 4 * t + l) (by decide)
  · intro op l hl
    cases op with
    | single j =>
      simp only [LpnOp.lanes, List.mem_singleton] at hl
      rw [hl]; rfl
    | quad j =>
      simp only [LpnOp.lanes, List.mem_map] at hl
      obtain ⟨t, _, rfl⟩ := hl
      rfl

/-- C72 over F_{2^128}. -/
theorem C72_fresh_words_f2k (n threads : Nat) : (wordsRead ((lpnTasks n threads).flatten.flatMap LpnOp.lanesF2k)).Nodup := by
  refine words_nodup _ ?_ ?_ _ (bases_nodup n threads)
  · intro op
    cases op with
    | single j =>
      simp only [LpnOp.lanesF2k, wordsRead, List.flatMap_cons, List.flatMap_nil, List.append_nil]
      exact List.nodup_range.map (fun a b h => (Prod.mk.inj h).2)
    | quad j => exact quad_words j (fun l t => 10 * l + t) (by decide)
  · intro op l hl
    cases op with
    | single j =>
      simp only [LpnOp.lanesF2k, List.mem_singleton] at hl
      rw [hl]; rfl
    | quad j =>
      simp only [LpnOp.lanesF2k, List.mem_map] at hl
      obtain ⟨t, _, rfl⟩ := hl
      rfl

/-- C72. The words read lie inside the blocks that were encrypted: ten blocks (forty words) for four positions, three blocks for one; a step
for four positions uses each of its forty words. -/
theorem C72_words_in_range (j : Nat) :
    (∀ l ∈ (LpnOp.single j).lanes, ∀ w ∈ l.2.2, w < 3 * 4) ∧ (∀ l ∈ (LpnOp.single j).lanesF2k, ∀ w ∈ l.2.2, w < 3 * 4) ∧
    ((wordsRead (LpnOp.quad j).lanes).Perm ((List.range (10 * 4)).map (fun w => (j, w)))) ∧
    ((wordsRead (LpnOp.quad j).lanesF2k).Perm ((List.range (10 * 4)).map (fun w => (j, w)))) := by
  have h1 : ∀ w ∈ List.range 10, w < 3 * 4 := by decide
  refine ⟨?_, ?_, ?_, ?_⟩
  · intro l hl
    simp only [LpnOp.lanes, List.mem_singleton] at hl
    rw [hl]; exact h1
  · intro l hl
    simp only [LpnOp.lanesF2k, List.mem_singleton] at hl
    rw [hl]; exact h1
  · have : ((List.range 4).flatMap (fun l => (List.range 10).map (fun t => 4 * t + l))).Perm (List.range 40) := by decide
    have := this.map (fun w => (j, w))
    rw [List.map_flatMap] at this
    unfold wordsRead LpnOp.lanes
    rw [List.flatMap_map]
    exact this
  · have : ((List.range 4).flatMap (fun l => (List.range 10).map (fun t => 10 * l + t))).Perm (List.range 40) := by decide
    have := this.map (fun w => (j, w))
    rw [List.map_flatMap] at this
    unfold wordsRead LpnOp.lanesF2k
    rw [List.flatMap_map]
    exact this

/-- Eleven positions, one extra thread: two tasks of five positions, each a step for four and one for one; 100 words, all different. -/
example : (lpnTasks 11 1) = [[.quad 0, .single 4], [.quad 5, .single 9]] ∧
    (wordsRead ((lpnTasks 11 1).flatten.flatMap LpnOp.lanes)).length = 100 := by
  have : (lpnTasks 11 1) = [[.quad 0, .single 4], [.quad 5, .single 9]] := by
    have h1 : lpnOps 0 5 = [.quad 0, .single 4] := by
      rw [lpnOps, if_pos (by decide), lpnOps, if_neg (by decide)]; rfl
    have h2 : lpnOps 5 10 = [.quad 5, .single 9] := by
      rw [lpnOps, if_pos (by decide), lpnOps, if_neg (by decide)]; rfl
    rw [tasks_eq]
    show [lpnOps 0 5, lpnOps 5 10] = _
    rw [h1, h2]
  rw [this]
  exact ⟨rfl, by decide⟩

end EmpZk
