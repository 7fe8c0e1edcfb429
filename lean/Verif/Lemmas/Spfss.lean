import Verif.Lemmas.Ggm
import Verif.Lemmas.Cope

namespace EmpZk
open Finset

theorem leafSum_toW (s : Fp) (l : List U128) :
    leafSum (toW s) l = toW (s + (l.map (fun x => fp (low64 x))).sum) := by
  induction l generalizing s with
  | nil => simp [leafSum]
  | cons x l ih =>
    rw [leafSum, extractFp_toW, low64_setWidth, addMod_toW, ih, List.map_cons, List.sum_cons, add_assoc]

theorem sum_range_list (f : Nat → Fp) (n : Nat) : ((List.range n).map f).sum = ∑ k ∈ range n, f k := by
  induction n with
  | zero => rfl
  | succ n ih => rw [List.range_succ, List.map_append, List.sum_append, ih, sum_range_succ]; simp

theorem leafSum_range (mem : Mem) (n : Nat) :
    leafSum 0 ((List.range n).map mem) = toW (∑ k ∈ range n, fp (low64 (mem k))) := by
  have := leafSum_toW 0 ((List.range n).map mem)
  rw [toW_zero, zero_add, List.map_map, ← Function.comp_def] at this
  rw [← sum_range_list]
  exact this

theorem sum_hole (f : Nat → Fp) (n a : Nat) (ha : a < n) :
    ∑ k ∈ range n, (if k = a then 0 else f k) = ∑ k ∈ range n, f k - f a := by
  have e : ∀ k, (if k = a then 0 else f k) = f k - if k = a then f a else 0 := by
    intro k
    by_cases h : k = a
    · simp [h]
    · simp [h]
  rw [sum_congr rfl (fun k _ => e k), sum_sub_distrib, sum_ite_eq', if_pos (mem_range.2 ha)]

theorem spfssSend_eq (G0 G1 : U128 → U128) (levels : Nat) (hl : 0 < levels) (seed : U128) (mem0 : Mem) (gamma : U128)
    (hg : Canon (low64 gamma)) :
    spfssSend G0 G1 levels seed mem0 gamma = some
      ((List.range (2 ^ levels)).map (fun k => (toW (fp (low64 (ggmNode G0 G1 seed levels k)))).setWidth 128),
        (List.range levels).map (fun i =>
          (xorStride (ggmNode G0 G1 seed (i + 1)) 0 (2 ^ i), xorStride (ggmNode G0 G1 seed (i + 1)) 1 (2 ^ i))),
        toW (fp (low64 gamma) - ∑ k ∈ range (2 ^ levels), fp (low64 (ggmNode G0 G1 seed levels k)))) := by
  obtain ⟨h, rfl⟩ : ∃ h, levels = h + 1 := ⟨levels - 1, by omega⟩
  have hm : (List.range (2 ^ (h + 1))).map (ggmGen G0 G1 seed mem0 h).1 =
      (List.range (2 ^ (h + 1))).map (ggmNode G0 G1 seed (h + 1)) :=
    List.map_congr_left (fun k hk => ggmGen_mem G0 G1 seed mem0 h k (List.mem_range.1 hk))
  rw [spfssSend, if_neg (by omega)]
  simp only [Nat.add_sub_cancel, hm, ggmGen_msgs, leafSum_range, List.map_map]
  obtain ⟨c, hc⟩ : ∃ c, low64 gamma = toW c := ⟨fp (low64 gamma), (toW_fp hg).symm⟩
  rw [hc, addMod_sub_toW, fp_toW]
  congr 2
  refine List.map_congr_left ?_
  intro k _
  simp only [Function.comp, extractFp_toW]

/-- value of leaf `k` of the sender -/
def leafVal (G0 G1 : U128 → U128) (seed : U128) (levels k : Nat) : Fp := fp (low64 (ggmNode G0 G1 seed levels k))

theorem spfssRecv_eq (G0 G1 : U128 → U128) (levels : Nat) (hl : 0 < levels) (seed : U128) (mem0 : Mem) (b : Nat → Bool)
    (m : Nat → U128)
    (hm : ∀ i, i < levels → m i = xorStride (ggmNode G0 G1 seed (i + 1)) (if b i then 1 else 0) (2 ^ i))
    (s mac : Fp) (delta2 : U128) (hd : low64 delta2 = toW mac) :
    spfssRecv G0 G1 levels b m mem0 (toW s) delta2 = some
      ((List.range (2 ^ levels)).map (fun k => (toW (if k = getIndex b levels then
        mac - (s + (∑ k ∈ range (2 ^ levels), leafVal G0 G1 seed levels k - leafVal G0 G1 seed levels (getIndex b levels)))
        else leafVal G0 G1 seed levels k)).setWidth 128)) := by
  have hr := ggmRecon_mem G0 G1 levels b m mem0 seed hm levels (le_refl _)
  rw [if_pos rfl] at hr
  have hraw : (List.range (2 ^ levels)).map ((ggmRecon G0 G1 levels b m mem0 levels).2.set (getIndex b levels) 0) =
      (List.range (2 ^ levels)).map (fun k => if k = getIndex b levels then 0 else ggmNode G0 G1 seed levels k) := by
    refine List.map_congr_left ?_
    intro k hk
    unfold Mem.set
    by_cases h : k = getIndex b levels
    · rw [if_pos h, if_pos h]
    · rw [if_neg h, if_neg h, hr k hl (List.mem_range.1 hk) h]
  have hsum : ∑ k ∈ range (2 ^ levels), fp (low64 (if k = getIndex b levels then 0 else ggmNode G0 G1 seed levels k)) =
      ∑ k ∈ range (2 ^ levels), leafVal G0 G1 seed levels k - leafVal G0 G1 seed levels (getIndex b levels) := by
    rw [← sum_hole _ _ _ (getIndex_lt b levels)]
    refine sum_congr rfl fun k _ => ?_
    by_cases h : k = getIndex b levels
    · rw [if_pos h, if_pos h]; rfl
    · rw [if_neg h, if_neg h]; rfl
  rw [spfssRecv, if_neg (by omega)]
  simp only [hraw, leafSum_range, hsum, addMod_toW, hd, addMod_sub_toW, Option.some.injEq, List.map_map]
  apply List.ext_getElem?
  intro k
  have hpos := getIndex_lt b levels
  rw [List.getElem?_set]
  simp only [List.length_map, List.length_range]
  by_cases hk : k < 2 ^ levels
  · rw [List.getElem?_map, List.getElem?_map, List.getElem?_range hk]
    simp only [Option.map_some, Function.comp]
    by_cases h : getIndex b levels = k
    · rw [if_pos h, if_pos (by omega), if_pos h.symm]
    · rw [if_neg h, if_neg (fun h' => h h'.symm), if_neg (fun h' => h h'.symm), extractFp_toW]
      rfl
  · rw [if_neg (by omega), List.getElem?_eq_none (by simp; omega), List.getElem?_eq_none (by simp; omega)]

/-- combination of the two: the point share -/
theorem spfss_pair (G0 G1 : U128 → U128) (levels : Nat) (hl : 0 < levels) (seed : U128) (memS memR : Mem) (b : Nat → Bool)
    (gamma delta2 : U128) (hg : Canon (low64 gamma)) (hd : Canon (low64 delta2)) :
    ∃ msgs sum, spfssSend G0 G1 levels seed memS gamma = some
        ((List.range (2 ^ levels)).map (fun k => (toW (leafVal G0 G1 seed levels k)).setWidth 128), msgs, sum) ∧
      msgs.length = levels ∧
      ∀ m : Nat → U128, (∀ i p, msgs[i]? = some p → m i = if b i then p.2 else p.1) →
        spfssRecv G0 G1 levels b m memR sum delta2 = some ((List.range (2 ^ levels)).map (fun k =>
          (toW (leafVal G0 G1 seed levels k +
            if k = getIndex b levels then fp (low64 delta2) - fp (low64 gamma) else 0)).setWidth 128)) := by
  refine ⟨_, _, spfssSend_eq G0 G1 levels hl seed memS gamma hg, by simp, ?_⟩
  intro m hm
  rw [spfssRecv_eq G0 G1 levels hl seed memR b m ?_ _ (fp (low64 delta2)) delta2 (toW_fp hd).symm]
  · simp only [Option.some.injEq]
    refine List.map_congr_left ?_
    intro k _
    refine congrArg (fun z => (toW z).setWidth 128) ?_
    by_cases h : k = getIndex b levels
    · rw [if_pos h, if_pos h, h]
      simp only [leafVal]
      ring
    · rw [if_neg h, if_neg h, add_zero]
  · intro i hi
    have := hm i (xorStride (ggmNode G0 G1 seed (i + 1)) 0 (2 ^ i), xorStride (ggmNode G0 G1 seed (i + 1)) 1 (2 ^ i))
      (by rw [List.getElem?_map, List.getElem?_range hi]; rfl)
    rw [this]
    cases b i <;> rfl

end EmpZk
