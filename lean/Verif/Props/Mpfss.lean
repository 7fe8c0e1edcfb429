/-
C29 - C32: GGM trees, point shares, the batched consistency check and its work splitting.
-/
import Verif.Lemmas.Mpfss
import Mathlib.Data.List.Nodup

namespace EmpZk
open Finset

/-! ### C29 -/

/-- C29. For every number of levels, seed, choice vector and initial memories: if the receiver gets, at each level, the
message chosen by its bit, then its tree agrees with the sender's on every leaf but the punctured one, and both are the leaves
of the GGM tree. -/
theorem C29_reconstruct (G0 G1 : U128 → U128) (levels : Nat) (hl : 0 < levels) (seed : U128) (memS memR : Mem)
    (b : Nat → Bool) (m : Nat → U128)
    (hm : ∀ i p, (ggmGen G0 G1 seed memS (levels - 1)).2[i]? = some p → m i = if b i then p.2 else p.1) :
    (ggmGen G0 G1 seed memS (levels - 1)).2.length = levels ∧
    ∀ k, k < 2 ^ levels →
      (ggmGen G0 G1 seed memS (levels - 1)).1 k = ggmNode G0 G1 seed levels k ∧
      (k ≠ puncturedAt b levels → (ggmRecon G0 G1 levels b m memR levels).2 k = ggmNode G0 G1 seed levels k) := by
  obtain ⟨h, rfl⟩ : ∃ h, levels = h + 1 := ⟨levels - 1, by omega⟩
  simp only [Nat.add_sub_cancel] at hm ⊢
  refine ⟨by rw [ggmGen_msgs]; simp, ?_⟩
  intro k hk
  refine ⟨ggmGen_mem G0 G1 seed memS h k hk, ?_⟩
  intro hne
  have hr := ggmRecon_mem G0 G1 (h + 1) b m memR seed ?_ (h + 1) (le_refl _)
  · rw [if_pos rfl] at hr
    exact hr k hl hk (by rw [getIndex_eq]; exact hne)
  · intro i hi
    have := hm i _ (by rw [ggmGen_msgs, List.getElem?_map, List.getElem?_range hi]; rfl)
    rw [this]
    cases b i <;> rfl

/-- C29. The punctured position computed by the receiver is the number with the complemented choice bits, a leaf index. -/
theorem C29_index (b : Nat → Bool) (levels : Nat) :
    getIndex b levels = puncturedAt b levels ∧ getIndex b levels < 2 ^ levels :=
  ⟨getIndex_eq b levels, getIndex_lt b levels⟩

/-- C29. Every leaf is the punctured one for exactly one choice vector. -/
theorem C29_index_onto (levels pos : Nat) (h : pos < 2 ^ levels) :
    getIndex (fun i => !pos.testBit (levels - 1 - i)) levels = pos := by
  have key : ∀ n, n ≤ levels → getIndex (fun i => !pos.testBit (levels - 1 - i)) n = pos / 2 ^ (levels - n) := by
    intro n
    induction n with
    | zero => intro _; rw [getIndex, Nat.sub_zero, Nat.div_eq_of_lt h]
    | succ n ih =>
      intro hn
      rw [getIndex, ih (by omega)]
      have e : levels - n = levels - (n + 1) + 1 := by omega
      have e2 : levels - 1 - n = levels - (n + 1) := by omega
      simp only [Bool.not_not]
      rw [e, e2, pow_succ, ← Nat.div_div_eq_div_mul, Nat.testBit_eq_decide_div_mod_eq]
      have := Nat.div_add_mod (pos / 2 ^ (levels - (n + 1))) 2
      have h2 := Nat.mod_lt (pos / 2 ^ (levels - (n + 1))) (show 0 < 2 by omega)
      by_cases h1 : pos / 2 ^ (levels - (n + 1)) % 2 = 1
      · simp only [h1, decide_true, if_true]; omega
      · simp only [h1, decide_false, Bool.false_eq_true, if_false]; omega
  have := key levels (le_refl _)
  rw [this, Nat.sub_self, pow_zero, Nat.div_one]

/-- C29. Neither party writes outside its `2^levels` leaves. -/
theorem C29_in_bounds (G0 G1 : U128 → U128) (levels : Nat) (hl : 0 < levels) (seed : U128) (mem0 : Mem) (b : Nat → Bool)
    (m : Nat → U128) (k : Nat) (hk : 2 ^ levels ≤ k) :
    (ggmGen G0 G1 seed mem0 (levels - 1)).1 k = mem0 k ∧ (ggmRecon G0 G1 levels b m mem0 levels).2 k = mem0 k := by
  obtain ⟨h, rfl⟩ : ∃ h, levels = h + 1 := ⟨levels - 1, by omega⟩
  exact ⟨ggmGen_frame G0 G1 seed mem0 h k hk, ggmRecon_frame G0 G1 (h + 1) b m mem0 (h + 1) (le_refl _) k hk⟩

/-- Three levels, choice bits 1,0,1: position 2. -/
example : puncturedAt (fun i => i != 1) 3 = 2 ∧ getIndex (fun i => i != 1) 3 = 2 ∧
    (ggmGen (fun x => x + 1) (fun x => x * 3) 5 (fun _ => 9) 2).2.length = 3 ∧
    ∀ k, k < 8 → k ≠ 2 →
      (ggmRecon (fun x => x + 1) (fun x => x * 3) 3 (fun i => i != 1)
        (fun i => (((ggmGen (fun x => x + 1) (fun x => x * 3) 5 (fun _ => 9) 2).2.map
          (fun p => if i != 1 then p.2 else p.1))[i]?).getD 0) (fun _ => 77) 3).2 k =
      (ggmGen (fun x => x + 1) (fun x => x * 3) 5 (fun _ => 9) 2).1 k := by
  decide +kernel

/-! ### C30 -/

/-- C30. For every tree, choice vector and correlation `mac = key + beta * Delta`: sender and receiver obtain equal leaves at all
positions but the punctured one, where they differ by `beta * Delta`; all words are canonical. -/
theorem C30_single_point (G0 G1 : U128 → U128) (levels : Nat) (hl : 0 < levels) (seed : U128) (memS memR : Mem)
    (b : Nat → Bool) (delta : W) (gamma delta2 : U128) (h : Auth delta delta2 gamma) :
    ∃ leavesS msgs sum, spfssSend G0 G1 levels seed memS gamma = some (leavesS, msgs, sum) ∧ msgs.length = levels ∧
      ∀ m : Nat → U128, (∀ i p, msgs[i]? = some p → m i = if b i then p.2 else p.1) →
      ∃ leavesR, spfssRecv G0 G1 levels b m memR sum delta2 = some leavesR ∧
        leavesS.length = 2 ^ levels ∧ leavesR.length = 2 ^ levels ∧
        ∀ (k : Nat) (v w : U128), leavesS[k]? = some v → leavesR[k]? = some w →
          high64 v = 0 ∧ high64 w = 0 ∧ Canon (low64 v) ∧ Canon (low64 w) ∧
          fp (low64 w) = fp (low64 v) + if k = puncturedAt b levels then fp (high64 delta2) * fp delta else 0 := by
  obtain ⟨msgs, sum, h1, h2, h3⟩ := spfss_pair G0 G1 levels hl seed memS memR b gamma delta2 h.key h.mac
  refine ⟨_, msgs, sum, h1, h2, ?_⟩
  intro m hm
  refine ⟨_, h3 m hm, by simp, by simp, ?_⟩
  have hz : ∀ a : Fp, high64 ((toW a).setWidth 128) = 0 := by
    intro a
    apply BitVec.eq_of_toNat_eq
    rw [high64_toNat, toW_wide_toNat]
    have := val_lt_pN a
    simp only [pN] at this ⊢
    simp
    omega
  intro k v w hv hw
  rw [List.getElem?_map] at hv hw
  by_cases hk : k < 2 ^ levels
  · rw [List.getElem?_range hk, Option.map_some, Option.some.injEq] at hv hw
    subst hv; subst hw
    refine ⟨hz _, hz _, ?_, ?_, ?_⟩
    · rw [low64_setWidth]; exact canon_toW _
    · rw [low64_setWidth]; exact canon_toW _
    · rw [low64_setWidth, low64_setWidth, fp_toW, fp_toW, getIndex_eq, h.rel]
      refine congrArg (leafVal G0 G1 seed levels k + ·) ?_
      by_cases h' : k = puncturedAt b levels
      · rw [if_pos h', if_pos h']; ring
      · rw [if_neg h', if_neg h']
  · rw [List.getElem?_eq_none (by simp; omega)] at hv
    simp at hv

/-- `beta = 4`, `Delta = 5`, `key = 6`. -/
example : Auth 5 (makeBlock 4 26) (makeBlock 0 6) := by
  constructor <;> decide +kernel

/-! ### C31 -/

/-- C31. For every number of trees, seeds, choice vectors, check coefficients (`digest`, any words) and `treeN + 1` valid
correlations: the two parties hash the same word, and the vectors they hold afterwards are `treeN * 2^levels` valid
correlations whose values are the noise values at the punctured positions and zero elsewhere. -/
theorem C31_batch_check (G0 G1 : U128 → U128) (levels : Nat) (hl : 0 < levels) (treeN : Nat) (seed : Nat → U128)
    (memS memR : Nat → Mem) (b : Nat → Nat → Bool) (delta : U128) (hd : Canon (low64 delta)) (key mac : Nat → U128)
    (h : ∀ i, i ≤ treeN → Auth (low64 delta) (mac i) (key i)) (digest : Nat → W) :
    ∃ S, mpfssSend G0 G1 levels treeN seed memS key = some S ∧
      ∀ (m : Nat → Nat → U128) (share : Nat → W),
        (∀ i t, S[i]? = some t → share i = t.2.2 ∧ ∀ j p, t.2.1[j]? = some p → m i j = if b i j then p.2 else p.1) →
        ∃ R xStar v R', mpfssRecv G0 G1 levels treeN b m memR share mac = some R ∧
          mpfssCheckRecv digest levels treeN b mac R = some (xStar, v, R') ∧
          mpfssCheckSend digest treeN delta (key treeN) (S.map (fun t => t.1)) xStar = some v ∧
          (S.map (fun t => t.1)).flatten.length = treeN * 2 ^ levels ∧ R'.flatten.length = treeN * 2 ^ levels ∧
          ∀ (q : Nat) (M K : U128), R'.flatten[q]? = some M → (S.map (fun t => t.1)).flatten[q]? = some K →
            Auth (low64 delta) M K ∧
            high64 M = if q % 2 ^ levels = puncturedAt (b (q / 2 ^ levels)) levels then high64 (mac (q / 2 ^ levels)) else 0 := by
  obtain ⟨S, h1, h2, h3⟩ := mpfss_values G0 G1 levels hl treeN seed memS memR b key mac
    (fun i hi => ⟨(h i hi.le).key, (h i hi.le).mac⟩)
  have hdw : low64 delta = toW (fp (low64 delta)) := (toW_fp hd).symm
  refine ⟨S, h1, ?_⟩
  intro m share hms
  obtain ⟨xStar, v, h4, h5, _⟩ := mpfss_check_eq G0 G1 levels treeN seed b (fp (low64 delta)) delta hdw key mac
    (by rw [← hdw]; exact h) digest
  refine ⟨_, xStar, v, _, h3 m share hms, h4, by rw [h2]; exact h5, ?_, ?_, ?_⟩
  · rw [h2, flatten_ranges]; simp
  · rw [flatten_ranges]; simp
  · intro q M K hM hK
    rw [flatten_ranges, List.getElem?_map] at hM
    rw [h2, flatten_ranges, List.getElem?_map] at hK
    have hq : q < treeN * 2 ^ levels := by
      by_contra hq
      rw [List.getElem?_eq_none (by simp; omega)] at hM
      simp at hM
    rw [List.getElem?_range hq, Option.map_some, Option.some.injEq] at hM hK
    have hqi : q / 2 ^ levels < treeN := Nat.div_lt_of_lt_mul (by rw [Nat.mul_comm]; exact hq)
    have ha := h _ hqi.le
    rw [← getIndex_eq]
    generalize q % 2 ^ levels = k at hM hK ⊢
    generalize q / 2 ^ levels = i at hM hK hqi ha ⊢
    subst hK
    by_cases hk : k = getIndex (b i) levels
    · rw [if_pos hk] at hM ⊢
      subst hM
      refine ⟨⟨?_, ?_, ?_, ?_, ?_⟩, ?_⟩
      · rw [high64_makeBlock]; exact ha.value
      · rw [low64_makeBlock]; exact canon_toW _
      · rw [low64_setWidth]; exact canon_toW _
      · exact high64_wide _
      · rw [low64_makeBlock, high64_makeBlock, low64_setWidth, fp_toW, fp_toW, leafR, if_pos hk, ha.rel]
        ring
      · rw [high64_makeBlock]
    · rw [if_neg hk] at hM ⊢
      subst hM
      refine ⟨⟨?_, ?_, ?_, ?_, ?_⟩, high64_wide _⟩
      · rw [high64_wide]; decide
      · rw [low64_setWidth]; exact canon_toW _
      · rw [low64_setWidth]; exact canon_toW _
      · exact high64_wide _
      · rw [low64_setWidth, high64_wide, low64_setWidth, fp_toW, fp_toW, leafR, if_neg hk]
        have : fp (0 : W) = 0 := by decide +kernel
        rw [this]; ring

/-- Two trees of two leaves and the mask, `Delta = 5`. -/
example : ∀ i, i ≤ 2 → Auth (low64 (makeBlock 0 5)) (makeBlock (BitVec.ofNat 64 (i + 3)) (BitVec.ofNat 64 (5 * i + 16)))
    (makeBlock 0 1) := by
  intro i hi
  have : i = 0 ∨ i = 1 ∨ i = 2 := by omega
  rcases this with rfl | rfl | rfl <;> constructor <;> decide +kernel

/-! ### C32 -/

/-- C32. Every tree is in exactly one task, and the tasks contain only trees. -/
theorem C32_partition (treeN threads : Nat) (ht : 0 < threads) (i : Nat) :
    (i < treeN → ∃! j : Nat, ∃ r, (mpfssTasks treeN threads)[j]? = some r ∧ r.1 ≤ i ∧ i < r.2) ∧
    ∀ r ∈ mpfssTasks treeN threads, r.1 ≤ r.2 ∧ r.2 ≤ treeN := by
  have hlen : (mpfssTasks treeN threads).length = threads := by
    simp [mpfssTasks]; omega
  have hle : threads * (treeN / threads) ≤ treeN := Nat.mul_div_le _ _
  have hm : ∀ j, j ≤ threads → j * (treeN / threads) ≤ treeN := fun j hj => le_trans (Nat.mul_le_mul_right _ hj) hle
  have hget : ∀ j, (mpfssTasks treeN threads)[j]? =
      if j < threads - 1 then some (j * (treeN / threads), j * (treeN / threads) + treeN / threads)
      else if j = threads - 1 then some ((threads - 1) * (treeN / threads), treeN) else none := by
    intro j
    unfold mpfssTasks
    by_cases h1 : j < threads - 1
    · rw [if_pos h1, List.getElem?_append_left (by simpa using h1), List.getElem?_map, List.getElem?_range h1]; rfl
    · rw [if_neg h1, List.getElem?_append_right (by simp; omega)]
      by_cases h2 : j = threads - 1
      · rw [if_pos h2]; subst h2; simp
      · rw [if_neg h2, List.getElem?_eq_none]
        simp; omega
  constructor
  · intro hi
    generalize treeN / threads = w at hget hm hle
    by_cases hlast : (threads - 1) * w ≤ i
    · refine ⟨threads - 1, ⟨_, by rw [hget, if_neg (by omega), if_pos rfl], hlast, hi⟩, ?_⟩
      rintro j ⟨r, hr, h1, h2⟩
      rw [hget] at hr
      by_contra hne
      by_cases hj : j < threads - 1
      · rw [if_pos hj, Option.some.injEq] at hr
        subst hr
        have : (j + 1) * w ≤ (threads - 1) * w := Nat.mul_le_mul_right _ hj
        rw [Nat.succ_mul] at this
        simp only at h2
        omega
      · rw [if_neg hj, if_neg hne] at hr
        simp at hr
    · have hlt : i < (threads - 1) * w := by omega
      have hw : 0 < w := by
        rcases Nat.eq_zero_or_pos w with h0 | h0
        · subst h0; simp at hlt
        · exact h0
      have hj : i / w < threads - 1 := Nat.div_lt_of_lt_mul (by rw [Nat.mul_comm]; exact hlt)
      refine ⟨i / w, ⟨_, by rw [hget, if_pos hj], Nat.div_mul_le_self i w, ?_⟩, ?_⟩
      · have := Nat.lt_div_mul_add hw (a := i)
        simpa using this
      · rintro j ⟨r, hr, h1, h2⟩
        rw [hget] at hr
        by_cases hj : j < threads - 1
        · rw [if_pos hj, Option.some.injEq] at hr
          subst hr
          simp only at h1 h2
          exact (Nat.div_eq_of_lt_le h1 (by rw [Nat.succ_mul]; exact h2)).symm
        · rw [if_neg hj] at hr
          by_cases hj2 : j = threads - 1
          · rw [if_pos hj2, Option.some.injEq] at hr
            subst hr
            simp only at h1
            omega
          · rw [if_neg hj2] at hr
            simp at hr
  · intro r hr
    obtain ⟨j, hj⟩ := List.mem_iff_getElem?.1 hr
    rw [hget] at hj
    by_cases h1 : j < threads - 1
    · rw [if_pos h1, Option.some.injEq] at hj
      subst hj
      have := hm (j + 1) (by omega)
      rw [Nat.succ_mul] at this
      exact ⟨by simp, this⟩
    · rw [if_neg h1] at hj
      by_cases h2 : j = threads - 1
      · rw [if_pos h2, Option.some.injEq] at hj
        subst hj
        exact ⟨hm _ (by omega), le_refl _⟩
      · rw [if_neg h2] at hj; simp at hj

/-- C32. A task that has trees to handle uses the channel with its own number (no division by zero, no sharing). -/
theorem C32_channels (treeN threads : Nat) (ht : 0 < threads) (j : Nat) (r : Nat × Nat)
    (hr : (mpfssTasks treeN threads)[j]? = some r) (hne : r.1 < r.2) : mpfssChannel treeN threads j = some j ∧ j < threads := by
  have hj : j < threads := by
    by_contra h
    rw [List.getElem?_eq_none (by simp [mpfssTasks]; omega)] at hr
    simp at hr
  refine ⟨?_, hj⟩
  unfold mpfssChannel
  by_cases h1 : j < threads - 1
  · unfold mpfssTasks at hr
    rw [List.getElem?_append_left (by simpa using h1), List.getElem?_map, List.getElem?_range h1, Option.map_some,
      Option.some.injEq] at hr
    subst hr
    simp only at hne
    have hw : 0 < treeN / threads := by omega
    simp only [if_pos h1, if_neg (Nat.ne_of_gt hw)]
    rw [Nat.mul_div_cancel _ hw]
  · simp only [if_neg h1]
    congr 1
    omega

/-- Ten trees, four threads: ranges of 2, 2, 2 and 4. -/
example : mpfssTasks 10 4 = [(0, 2), (2, 4), (4, 6), (6, 10)] ∧ mpfssChannel 10 4 2 = some 2 := by decide

/-- Three trees, four threads: the calling thread does all the work. -/
example : mpfssTasks 3 4 = [(0, 0), (0, 0), (0, 0), (0, 3)] ∧ mpfssChannel 3 4 0 = none := by decide

end EmpZk
