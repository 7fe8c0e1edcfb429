/-
The comparison circuits `empLib` are good.
-/
import Verif.Lemmas.RamCheckNet

namespace EmpZk

theorem empEq_run (l : List (Nat × Nat)) : ∀ {o cl W : List Bool} {acc : Nat} {x : Bool} {xs ys : List Bool}, W[acc]? = some x →
    pick W (l.map Prod.fst) = some xs → pick W (l.map Prod.snd) = some ys → acc + 1 = W.length →
    ∃ t, WRun o cl W (empEqOps W.length acc l) (W ++ t) ∧ t.length = (empEqOps W.length acc l).length ∧
      (W ++ t).getLast? = some (x && decide (xs = ys)) := by
  induction l with
  | nil =>
    intro o cl W acc x xs ys hx h1 h2 hw
    simp only [List.map_nil, pick_nil, Option.some.injEq] at h1 h2
    subst h1 h2
    refine ⟨[], by simp [WRun, empEqOps], rfl, ?_⟩
    rw [List.append_nil, List.getLast?_eq_getElem?, ← hw, Nat.add_sub_cancel, hx]
    simp
  | cons p l ih =>
    intro o cl W acc x xs ys hx h1 h2 hw
    rw [List.map_cons, pick_cons] at h1 h2
    simp only [Option.bind_eq_some_iff, Option.map_eq_some_iff] at h1 h2
    obtain ⟨a, ha, xs', hxs, rfl⟩ := h1
    obtain ⟨b, hb, ys', hys, rfl⟩ := h2
    set W3 := W ++ [a ^^ b, !(a ^^ b), x && !(a ^^ b)] with hW3
    have r1 : WRun o cl W [.xor p.1 p.2, .not W.length, .and acc (W.length + 1)] W3 := by
      unfold WRun
      simp only [List.foldlM_cons, List.foldlM_nil, plainStep, ha, hb, Option.bind_eq_bind, Option.bind_some, List.getElem?_concat_length]
      have e1 : (W ++ [a ^^ b] ++ [!(a ^^ b)])[acc]? = some x := getElem?_app (getElem?_app hx _) _
      have e2 : (W ++ [a ^^ b] ++ [!(a ^^ b)])[W.length + 1]? = some (!(a ^^ b)) := by
        have := List.getElem?_concat_length (l := W ++ [a ^^ b]) (a := !(a ^^ b))
        rwa [List.length_append] at this
      rw [e1, e2]
      simp [hW3]
    have l3 : W3.length = W.length + 3 := by simp [hW3]
    have v3 : W3[W.length + 2]? = some (x && !(a ^^ b)) := by
      rw [hW3, List.getElem?_append_right (by omega), show W.length + 2 - W.length = 2 by omega]; rfl
    obtain ⟨t, k1, k2, k3⟩ := ih (o := o) (cl := cl) (W := W3) v3 (pick_append _ hxs) (pick_append _ hys) (by omega)
    rw [l3] at k1 k2
    refine ⟨[a ^^ b, !(a ^^ b), x && !(a ^^ b)] ++ t, ?_, ?_, ?_⟩
    · have := r1.trans k1
      rw [hW3, List.append_assoc] at this
      exact this
    · simp only [List.length_append, k2, empEqOps, List.length_cons, List.length_nil]
    · rw [← List.append_assoc, ← hW3, k3]
      congr 1
      rw [Bool.and_assoc]
      congr 1
      have : (a :: xs' = b :: ys') ↔ (a = b ∧ xs' = ys') := by simp
      by_cases hab : a = b
      · subst hab
        simp
      · have hx : (a ^^ b) = true := by cases a <;> cases b <;> simp_all
        simp [hab, hx]

/-- Difference with borrow, one bit taken off. -/
theorem sub_step {w X Y : Nat} (x y β : Bool) (hX : X < 2 ^ w) (hY : Y < 2 ^ w) (hw : 1 ≤ w) :
    ((x.toNat + 2 * X + 2 ^ (w + 1) - (y.toNat + 2 * Y) - β.toNat) % 2 ^ (w + 1)).testBit w =
      ((X + 2 ^ w - Y - (β ^^ ((x ^^ y) && (β ^^ y))).toNat) % 2 ^ w).testBit (w - 1) := by
  have e : x.toNat + 2 * X + 2 ^ (w + 1) - (y.toNat + 2 * Y) - β.toNat =
      (x ^^ y ^^ β).toNat + 2 * (X + 2 ^ w - Y - (β ^^ ((x ^^ y) && (β ^^ y))).toNat) := by
    rw [pow_succ]
    cases x <;> cases y <;> cases β <;> simp <;> omega
  rw [e]
  generalize X + 2 ^ w - Y - (β ^^ ((x ^^ y) && (β ^^ y))).toNat = A
  obtain ⟨v, rfl⟩ : ∃ v, w = v + 1 := ⟨w - 1, by omega⟩
  rw [Nat.testBit_mod_two_pow, Nat.testBit_mod_two_pow, decide_eq_true (by omega), decide_eq_true (by omega), Bool.true_and, Bool.true_and,
    Nat.testBit_succ, Nat.add_sub_cancel]
  congr 1
  have := Bool.toNat_lt (x ^^ y ^^ β)
  omega

theorem empSub_run (l : List (Nat × Nat)) : ∀ {o cl W : List Bool} {br : Nat} {β : Bool} {xs ys : List Bool}, W[br]? = some β →
    pick W (l.map Prod.fst) = some xs → pick W (l.map Prod.snd) = some ys → 0 < l.length →
    ∃ t, WRun o cl W (empSubOps W.length br l) (W ++ t) ∧ t.length = (empSubOps W.length br l).length ∧
      (W ++ t).getLast? = some (((bitsNum xs + 2 ^ l.length - bitsNum ys - β.toNat) % 2 ^ l.length).testBit (l.length - 1)) := by
  induction l with
  | nil => intro o cl W br β xs ys _ _ _ h; simp at h
  | cons p l ih =>
    intro o cl W br β xs ys hβ h1 h2 _
    rw [List.map_cons, pick_cons] at h1 h2
    simp only [Option.bind_eq_some_iff, Option.map_eq_some_iff] at h1 h2
    obtain ⟨x, hx, xs', hxs, rfl⟩ := h1
    obtain ⟨y, hy, ys', hys, rfl⟩ := h2
    cases l with
    | nil =>
      simp only [List.map_nil, pick_nil, Option.some.injEq] at hxs hys
      subst hxs hys
      refine ⟨[x ^^ y, x ^^ y ^^ β, !(x ^^ y ^^ β), !!(x ^^ y ^^ β)], ?_, rfl, ?_⟩
      · unfold WRun
        simp only [empSubOps, List.foldlM_cons, List.foldlM_nil, plainStep, hx, hy, Option.bind_eq_bind, Option.bind_some, List.getElem?_concat_length]
        rw [getElem?_app hβ]
        simp only [Option.bind_some]
        have e1 : (W ++ [x ^^ y] ++ [x ^^ y ^^ β])[W.length + 1]? = some (x ^^ y ^^ β) := by
          have := List.getElem?_concat_length (l := W ++ [x ^^ y]) (a := x ^^ y ^^ β)
          rwa [List.length_append] at this
        rw [e1]
        simp only [Option.bind_some]
        have e2 : (W ++ [x ^^ y] ++ [x ^^ y ^^ β] ++ [!(x ^^ y ^^ β)])[W.length + 2]? = some (!(x ^^ y ^^ β)) := by
          have := List.getElem?_concat_length (l := W ++ [x ^^ y] ++ [x ^^ y ^^ β]) (a := !(x ^^ y ^^ β))
          rwa [List.length_append, List.length_append] at this
        rw [e2]
        simp
      · rw [List.getLast?_append]
        simp only [bitsNum, List.foldr_cons, List.foldr_nil, List.length_singleton, List.length_cons, List.length_nil]
        cases x <;> cases y <;> cases β <;> rfl
    | cons q l =>
      set T := [x ^^ y, β ^^ y, (x ^^ y) && (β ^^ y), x ^^ y ^^ β, β ^^ ((x ^^ y) && (β ^^ y))] with hT
      have r1 : WRun o cl W [.xor p.1 p.2, .xor br p.2, .and W.length (W.length + 1), .xor W.length br, .xor br (W.length + 2)] (W ++ T) := by
        unfold WRun
        simp only [List.foldlM_cons, List.foldlM_nil, plainStep, hx, hy, Option.bind_eq_bind, Option.bind_some]
        rw [getElem?_app hβ, getElem?_app hy]
        simp only [Option.bind_some]
        have g0 : ∀ t, (W ++ [x ^^ y] ++ t)[W.length]? = some (x ^^ y) := fun t => getElem?_app List.getElem?_concat_length _
        have g1 : ∀ t, (W ++ [x ^^ y] ++ [β ^^ y] ++ t)[W.length + 1]? = some (β ^^ y) := fun t => by
          refine getElem?_app ?_ _
          have := List.getElem?_concat_length (l := W ++ [x ^^ y]) (a := β ^^ y)
          rwa [List.length_append] at this
        have g2 : ∀ t, (W ++ [x ^^ y] ++ [β ^^ y] ++ [(x ^^ y) && (β ^^ y)] ++ t)[W.length + 2]? = some ((x ^^ y) && (β ^^ y)) := fun t => by
          refine getElem?_app ?_ _
          have := List.getElem?_concat_length (l := W ++ [x ^^ y] ++ [β ^^ y]) (a := (x ^^ y) && (β ^^ y))
          rwa [List.length_append, List.length_append] at this
        have gb : ∀ t, (W ++ t)[br]? = some β := fun t => getElem?_app hβ t
        have g1' : (W ++ [x ^^ y] ++ [β ^^ y])[W.length + 1]? = some (β ^^ y) := by
          have := g1 []
          rw [List.append_nil] at this
          exact this
        rw [g0 [β ^^ y], g1']
        simp only [Option.bind_some]
        have s1 : W ++ [x ^^ y] ++ [β ^^ y] ++ [(x ^^ y) && (β ^^ y)] = W ++ [x ^^ y] ++ ([β ^^ y] ++ [(x ^^ y) && (β ^^ y)]) := by simp
        rw [s1, g0, List.append_assoc W, gb]
        simp only [Option.bind_some]
        have s2 : W ++ ([x ^^ y] ++ ([β ^^ y] ++ [(x ^^ y) && (β ^^ y)])) ++ [x ^^ y ^^ β] =
          W ++ [x ^^ y] ++ [β ^^ y] ++ [(x ^^ y) && (β ^^ y)] ++ [x ^^ y ^^ β] := by simp
        rw [s2, g2]
        have s3 : W ++ [x ^^ y] ++ [β ^^ y] ++ [(x ^^ y) && (β ^^ y)] ++ [x ^^ y ^^ β] =
          W ++ ([x ^^ y] ++ [β ^^ y] ++ [(x ^^ y) && (β ^^ y)] ++ [x ^^ y ^^ β]) := by simp
        rw [s3, gb]
        simp [hT]
      have lT : (W ++ T).length = W.length + 5 := by simp [hT]
      have vT : (W ++ T)[W.length + 4]? = some (β ^^ ((x ^^ y) && (β ^^ y))) := by
        rw [List.getElem?_append_right (by omega), show W.length + 4 - W.length = 4 by omega]; rfl
      obtain ⟨t, k1, k2, k3⟩ := ih (o := o) (cl := cl) (W := W ++ T) vT (pick_append _ hxs) (pick_append _ hys) (by simp)
      rw [lT] at k1 k2
      refine ⟨T ++ t, ?_, ?_, ?_⟩
      · have := r1.trans k1
        rw [List.append_assoc] at this
        exact this
      · simp only [List.length_append, k2, empSubOps, hT, List.length_cons, List.length_nil]
      · rw [← List.append_assoc, k3]
        congr 1
        rw [bitsNum_cons, bitsNum_cons]
        have bx := bitsNum_lt xs'
        have by' := bitsNum_lt ys'
        rw [pick_length hxs, List.length_map] at bx
        rw [pick_length hys, List.length_map] at by'
        rw [List.length_cons (a := p), Nat.add_sub_cancel]
        exact (sub_step x y β bx by' (by simp)).symm

theorem empLib_good : empLib.Good where
  eq := by
    intro b us vs xs ys hl hx hy
    obtain ⟨t, k1, k2, k3⟩ := empEq_run (us.zip vs) (o := b.outs) (cl := b.claims) (W := b.wires ++ [true]) (acc := b.wires.length) (x := true)
      (xs := xs) (ys := ys) List.getElem?_concat_length
      (by rw [List.map_fst_zip (by omega)]; exact pick_append _ hx) (by rw [List.map_snd_zip (by omega)]; exact pick_append _ hy) (by simp)
    rw [List.length_append] at k1 k2
    refine ⟨true :: t, ?_, ?_, ?_⟩
    · show (BOp.pub true :: empEqOps (b.wires.length + 1) b.wires.length (us.zip vs)).foldlM plainStep b = _
      rw [List.foldlM_cons]
      simp only [plainStep, Option.bind_eq_bind, Option.bind_some]
      have := k1
      unfold WRun at this
      rw [List.length_singleton] at this
      rw [this]
      simp
    · show _ = (BOp.pub true :: empEqOps (b.wires.length + 1) b.wires.length (us.zip vs)).length
      rw [List.length_cons, List.length_cons, k2]; rfl
    · rw [List.append_assoc, List.getLast?_append, List.singleton_append] at k3
      rw [Bool.true_and] at k3
      rw [← k3]
      simp [List.getLast?_cons]
  lt := by
    intro b us vs xs ys hl h0 hx hy
    have hz : (us.zip vs).length = us.length := by rw [List.length_zip]; omega
    obtain ⟨t, k1, k2, k3⟩ := empSub_run (us.zip vs) (o := b.outs) (cl := b.claims) (W := b.wires ++ [false]) (br := b.wires.length) (β := false)
      (xs := xs) (ys := ys) List.getElem?_concat_length
      (by rw [List.map_fst_zip (by omega)]; exact pick_append _ hx) (by rw [List.map_snd_zip (by omega)]; exact pick_append _ hy) (by omega)
    rw [List.length_append] at k1 k2
    refine ⟨false :: t, ?_, ?_, ?_⟩
    · show (BOp.pub false :: empSubOps (b.wires.length + 1) b.wires.length (us.zip vs)).foldlM plainStep b = _
      rw [List.foldlM_cons]
      simp only [plainStep, Option.bind_eq_bind, Option.bind_some]
      have := k1
      unfold WRun at this
      rw [List.length_singleton] at this
      rw [this]
      simp
    · show _ = (BOp.pub false :: empSubOps (b.wires.length + 1) b.wires.length (us.zip vs)).length
      rw [List.length_cons, List.length_cons, k2]; rfl
    · rw [List.append_assoc, List.getLast?_append, List.singleton_append, hz, Bool.toNat_false, Nat.sub_zero] at k3
      rw [ltW, ← k3]
      simp [List.getLast?_cons]

end EmpZk
