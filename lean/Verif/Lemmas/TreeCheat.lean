/-
Lemmas for C95.
-/
import Verif.Spec.TreeCheat
import Verif.Lemmas.F2kVole
import Verif.Lemmas.Mpfss
import Verif.Lemmas.BoolIO
import Verif.Lemmas.Chi

namespace EmpZk
open Finset

/-! ### a spoiled tree -/

/-- The reconstruction of the first levels uses the messages of these levels only. -/
theorem ggmRecon_congr (G0 G1 : U128 → U128) (levels : Nat) (b : Nat → Bool) (m m' : Nat → U128) (mem0 : Mem) (i : Nat)
    (h : ∀ j, j < i → m j = m' j) : ggmRecon G0 G1 levels b m mem0 i = ggmRecon G0 G1 levels b m' mem0 i := by
  induction i with
  | zero => rfl
  | succ i ih => rw [ggmRecon, ggmRecon, ih (fun j hj => h j (by omega)), h i (by omega)]

/-- A block added to the message of the last level is added to the leaf beside the punctured one. -/
theorem ggmRecon_last (G0 G1 : U128 → U128) (h : Nat) (b : Nat → Bool) (m m' : Nat → U128) (mem0 : Mem) (e : U128)
    (hm : ∀ j, j < h → m' j = m j) (hl : m' h = m h ^^^ e) (k : Nat) (hk : k ≠ getIndex b (h + 1)) :
    (ggmRecon G0 G1 (h + 1) b m' mem0 (h + 1)).2 k =
      (ggmRecon G0 G1 (h + 1) b m mem0 (h + 1)).2 k ^^^ (if k / 2 = getIndex b (h + 1) / 2 then e else 0) := by
  rw [ggmRecon, ggmRecon, ggmRecon_congr G0 G1 (h + 1) b m' m mem0 h hm, hl]
  simp only [ggmRecon_fill]
  rw [getIndex] at hk ⊢
  generalize getIndex b h = g at hk ⊢
  generalize (ggmRecon G0 G1 (h + 1) b m mem0 h).2 = M
  cases hb : b h
  · simp only [hb, Bool.not_false, if_true] at hk ⊢
    simp only [layerRecover, if_true, Nat.add_sub_cancel, Mem.set]
    by_cases hg : k = g * 2
    · rw [if_pos hg, if_pos hg, if_pos (by omega), BitVec.xor_assoc]
    · rw [if_neg hg, if_neg hg, if_neg hg, if_neg (by omega), if_neg (show ¬ k / 2 = (2 * g + 1) / 2 by omega)]
      exact (BitVec.xor_zero).symm
  · simp only [hb, Bool.not_true, Bool.false_eq_true, if_false] at hk ⊢
    simp only [layerRecover, if_true, Nat.add_sub_cancel, Mem.set, Bool.true_eq_false, if_false]
    by_cases hg : k = g * 2 + 1
    · rw [if_pos hg, if_pos hg, if_pos (by omega), BitVec.xor_assoc]
    · rw [if_neg hg, if_neg (by omega), if_neg hg, if_neg hg, if_neg (show ¬ k / 2 = (2 * g + 0) / 2 by omega)]
      exact (BitVec.xor_zero).symm

theorem getIndex_last (b : Nat → Bool) (h : Nat) : getIndex b (h + 1) % 2 = if b h then 0 else 1 := by
  rw [getIndex]
  cases b h <;> simp

/-- Sum of an error at the leaf beside `pos`. -/
theorem sum_beside (h pos : Nat) (hp : pos < 2 ^ (h + 1)) (e : GF128) :
    ∑ k ∈ range (2 ^ (h + 1)), (if k ≠ pos ∧ k / 2 = pos / 2 then e else 0) = e := by
  have hq : ∃ q, q < 2 ^ (h + 1) ∧ ∀ k, (k ≠ pos ∧ k / 2 = pos / 2) ↔ k = q := by
    have h2 : 2 ^ (h + 1) = 2 * 2 ^ h := by ring
    rcases Nat.mod_two_eq_zero_or_one pos with h0 | h0
    · exact ⟨pos + 1, by omega, fun k => by omega⟩
    · exact ⟨pos - 1, by omega, fun k => by omega⟩
  obtain ⟨q, hq1, hq2⟩ := hq
  simp only [hq2]
  rw [sum_ite_eq', if_pos (mem_range.2 hq1)]

theorem char2_cancel2 (mac S l g a c : GF128) : mac + (S - l + a + (S + g + (a + c))) = l + (mac + g) + c := by
  have h := addSelf S
  have h' := addSelf a
  rw [sub_eq_add']
  linear_combination h + h'

/-- The receiver's leaves when `e0`, `e1` are added to the messages of the last level and `e0 + e1` to the sum. -/
theorem spoiled_tree (G0 G1 : U128 → U128) (h : Nat) (seed : U128) (mem0 : Mem) (b : Nat → Bool) (m m' : Nat → U128)
    (hm : ∀ i, i < h + 1 → m i = xorStride (ggmNode G0 G1 seed (i + 1)) (if b i then 1 else 0) (2 ^ i)) (e0 e1 gamma mac : GF128)
    (hm' : ∀ j, j < h → m' j = m j) (hl : m' h = m h ^^^ (if b h then e1 else e0).bits) :
    spfssF2kRecv G0 G1 (h + 1) b m' mem0 (∑ k ∈ range (2 ^ (h + 1)), leafG G0 G1 seed (h + 1) k + gamma + (e0 + e1)) mac = some
      ((List.range (2 ^ (h + 1))).map (fun k => leafRG G0 G1 (h + 1) seed b (mac + gamma) k +
        pairErr e0 e1 (getIndex b (h + 1)) k)) := by
  have hr := ggmRecon_mem G0 G1 (h + 1) b m mem0 seed hm (h + 1) (le_refl _)
  rw [if_pos rfl] at hr
  obtain ⟨eb, heb⟩ : ∃ eb, eb = (if b h then e1 else e0) := ⟨_, rfl⟩
  rw [← heb] at hl
  have hlast := ggmRecon_last G0 G1 h b m m' mem0 _ hm' hl
  have hpos := getIndex_lt b (h + 1)
  have hpar := getIndex_last b h
  have hraw : (List.range (2 ^ (h + 1))).map (fun k => GF128.mk ((ggmRecon G0 G1 (h + 1) b m' mem0 (h + 1)).2.set (getIndex b (h + 1)) 0 k)) =
      (List.range (2 ^ (h + 1))).map (fun k => (if k = getIndex b (h + 1) then 0 else leafG G0 G1 seed (h + 1) k) +
        if k ≠ getIndex b (h + 1) ∧ k / 2 = getIndex b (h + 1) / 2 then eb else 0) := by
    refine List.map_congr_left ?_
    intro k hk
    unfold Mem.set
    by_cases hkp : k = getIndex b (h + 1)
    · rw [if_pos hkp, if_pos hkp, if_neg (fun h => h.1 hkp), add_zero]; rfl
    · rw [if_neg hkp, if_neg hkp, hlast k hkp, hr k (Nat.succ_pos _) (List.mem_range.1 hk) hkp]
      by_cases h2 : k / 2 = getIndex b (h + 1) / 2
      · rw [if_pos h2, if_pos ⟨hkp, h2⟩]; rfl
      · rw [if_neg h2, if_neg (fun h => h2 h.2), add_zero]
        exact congrArg GF128.mk BitVec.xor_zero
  rw [spfssF2kRecv, if_neg (Nat.succ_ne_zero _)]
  simp only [hraw]
  rw [foldl_add_eq, sum_range_listG, sum_add_distrib, sum_holeG _ _ _ hpos, sum_beside h _ hpos, zero_add]
  refine congrArg some ?_
  apply List.ext_getElem?
  intro k
  rw [List.getElem?_set]
  simp only [List.length_map, List.length_range]
  by_cases hk : k < 2 ^ (h + 1)
  · rw [List.getElem?_map, List.getElem?_map, List.getElem?_range hk]
    simp only [Option.map_some, leafRG, pairErr]
    by_cases hkp : getIndex b (h + 1) = k
    · subst hkp
      rw [if_pos rfl, if_pos hpos, if_pos rfl, if_pos rfl]
      refine congrArg some ?_
      generalize (∑ k ∈ range (2 ^ (h + 1)), leafG G0 G1 seed (h + 1) k) = S
      generalize leafG G0 G1 seed (h + 1) (getIndex b (h + 1)) = l
      cases hb : b h
      · simp only [hb, Bool.false_eq_true, if_false] at hpar heb
        rw [if_neg (by omega), heb]
        exact char2_cancel2 mac S l gamma e0 e1
      · simp only [hb, if_true] at hpar heb
        rw [if_pos hpar, heb, add_comm e0 e1]
        exact char2_cancel2 mac S l gamma e1 e0
    · have hkp' : k ≠ getIndex b (h + 1) := fun h' => hkp h'.symm
      rw [if_neg hkp, if_neg hkp', if_neg hkp', add_zero]
      refine congrArg some (congrArg (_ + ·) ?_)
      by_cases h2 : k / 2 = getIndex b (h + 1) / 2
      · rw [if_pos ⟨hkp', h2⟩, if_pos h2]
        cases hb : b h
        · simp only [hb, Bool.false_eq_true, if_false] at hpar heb
          rw [if_pos (by omega), heb]
        · simp only [hb, if_true] at hpar heb
          rw [if_neg (by omega), heb]
      · rw [if_neg (fun h => h2 h.2), if_neg h2]
  · rw [if_neg (by omega), List.getElem?_eq_none (by simp; omega), List.getElem?_eq_none (by simp; omega)]

/-- The check does not see the error when `e0 = s * e1`. -/
theorem chiSum_pairErr (h pos : Nat) (hp : pos < 2 ^ (h + 1)) (s e1 : GF128) :
    chiSum s ((List.range (2 ^ (h + 1))).map (pairErr (s * e1) e1 pos)) = 0 := by
  rw [chiSum_rangeG]
  have h2 : 2 ^ (h + 1) = 2 * 2 ^ h := by ring
  have e : ∀ k, s ^ (k + 1) * pairErr (s * e1) e1 pos k =
      (if k = 2 * (pos / 2) then s ^ (2 * (pos / 2) + 2) * e1 else 0) + (if k = 2 * (pos / 2) + 1 then s ^ (2 * (pos / 2) + 2) * e1 else 0) := by
    intro k
    unfold pairErr
    by_cases hk : k / 2 = pos / 2
    · rw [if_pos hk]
      rcases Nat.mod_two_eq_zero_or_one k with h0 | h0
      · rw [if_pos h0, if_pos (show k = 2 * (pos / 2) by omega), if_neg (by omega), add_zero, show k = 2 * (pos / 2) by omega]
        ring
      · rw [if_neg (by omega), if_neg (by omega), if_pos (show k = 2 * (pos / 2) + 1 by omega), zero_add,
          show k = 2 * (pos / 2) + 1 by omega]
    · rw [if_neg hk, if_neg (by omega), if_neg (by omega), mul_zero, add_zero]
  rw [sum_congr rfl (fun k _ => e k), sum_add_distrib, sum_ite_eq', sum_ite_eq', if_pos (mem_range.2 (by omega)),
    if_pos (mem_range.2 (by omega))]
  exact addSelf _

/-- All trees spoiled. -/
theorem spoiled_values (G0 G1 : U128 → U128) (levels : Nat) (hl : 0 < levels) (treeN : Nat) (seed : Nat → U128)
    (memS : Nat → Mem) (key mac : Nat → GF128) (digest : Nat → GF128) :
    ∃ S, mpfssF2kSend G0 G1 levels treeN seed memS key = some S ∧
      S.map (fun t => t.1) = (List.range treeN).map (fun i => (List.range (2 ^ levels)).map (leafG G0 G1 (seed i) levels)) ∧
      ∀ (b : Nat → Nat → Bool) (memR : Nat → Mem) (m : Nat → Nat → U128) (share : Nat → GF128),
        (∀ i t, S[i]? = some t → share i = t.2.2 + (digest i + 1) ∧ ∀ j p, t.2.1[j]? = some p →
          m i j = if b i j then (spoil (digest i) levels j p).2 else (spoil (digest i) levels j p).1) →
        mpfssF2kRecv G0 G1 levels treeN b m memR share mac = some ((List.range treeN).map (fun i =>
          (List.range (2 ^ levels)).map (fun k => leafRG G0 G1 levels (seed i) (b i) (mac i + key i) k +
            pairErr (digest i * 1) 1 (getIndex (b i) levels) k))) := by
  obtain ⟨h, rfl⟩ : ∃ h, levels = h + 1 := ⟨levels - 1, by omega⟩
  refine ⟨_, mapM_some _ _ _ (fun i _ => spfssF2kSend_eq G0 G1 (h + 1) hl (seed i) (memS i) (key i)), ?_, ?_⟩
  · rw [List.map_map]; rfl
  · intro b memR m share hms
    refine mapM_some _ _ _ ?_
    intro i hi
    have hi' := List.mem_range.1 hi
    obtain ⟨h1, h2⟩ := hms i _ (by rw [List.getElem?_map, List.getElem?_range hi']; rfl)
    rw [h1, mul_one]
    have hlev : ∀ j, j < h + 1 → m i j = if b i j then
        (spoil (digest i) (h + 1) j (xorStride (ggmNode G0 G1 (seed i) (j + 1)) 0 (2 ^ j), xorStride (ggmNode G0 G1 (seed i) (j + 1)) 1 (2 ^ j))).2
        else (spoil (digest i) (h + 1) j
          (xorStride (ggmNode G0 G1 (seed i) (j + 1)) 0 (2 ^ j), xorStride (ggmNode G0 G1 (seed i) (j + 1)) 1 (2 ^ j))).1 := by
      intro j hj
      refine h2 j _ ?_
      rw [List.getElem?_map, List.getElem?_range hj]
      rfl
    refine spoiled_tree G0 G1 h (seed i) (memR i) (b i)
      (fun j => xorStride (ggmNode G0 G1 (seed i) (j + 1)) (if b i j then 1 else 0) (2 ^ j)) (m i) (fun _ _ => rfl) (digest i) 1 (key i)
      (mac i) ?_ ?_
    · intro j hj
      have hn : ¬ j + 1 = h + 1 := by omega
      have e : ∀ p : U128 × U128, spoil (digest i) (h + 1) j p = p := fun p => if_neg hn
      rw [hlev j (by omega), e]
      cases b i j <;> rfl
    · rw [hlev h (by omega), spoil, if_pos rfl]
      cases b i h <;> rfl

/-- The check cannot tell spoiled trees from right ones. -/
theorem spoiled_check (levels : Nat) (hl : 0 < levels) (treeN : Nat) (b : Nat → Nat → Bool) (x : Nat → GF128) (z : GF128)
    (digest : Nat → GF128) (w : Nat → Nat → GF128) :
    f2kCheckRecv digest levels treeN b x z ((List.range treeN).map (fun i => (List.range (2 ^ levels)).map (fun k => w i k +
        pairErr (digest i * 1) 1 (getIndex (b i) levels) k))) =
      f2kCheckRecv digest levels treeN b x z ((List.range treeN).map (fun i => (List.range (2 ^ levels)).map (w i))) := by
  obtain ⟨h, rfl⟩ : ∃ h, levels = h + 1 := ⟨levels - 1, by omega⟩
  have h1 := tree_chi digest (h + 1) treeN (fun i k => w i k + pairErr (digest i * 1) 1 (getIndex (b i) (h + 1)) k)
  have h2 := tree_chi digest (h + 1) treeN w
  have e : (List.range treeN).map (fun i => chiSum (digest i) ((List.range (2 ^ (h + 1))).map
      (fun k => w i k + pairErr (digest i * 1) 1 (getIndex (b i) (h + 1)) k))) =
      (List.range treeN).map (fun i => chiSum (digest i) ((List.range (2 ^ (h + 1))).map (w i))) := by
    refine List.map_congr_left ?_
    intro i _
    rw [chiSum_add, chiSum_pairErr h _ (getIndex_lt _ _), add_zero]
  rw [e] at h1
  unfold f2kCheckRecv
  simp only [Option.bind_eq_bind] at h1 h2 ⊢
  rw [h1, h2]

/-! ### two receivers -/

/-- What a receiver with arbitrary leaves sends and compares. -/
theorem f2k_recv_eq (digest : Nat → GF128) (levels treeN : Nat) (b : Nat → Nat → Bool) (x : Nat → GF128) (z : GF128)
    (w : Nat → Nat → GF128) :
    f2kCheckRecv digest levels treeN b x z ((List.range treeN).map fun i => (List.range (2 ^ levels)).map (w i)) =
      some (∑ i ∈ range treeN, x i * chiCoeff (digest i) (getIndex (b i) levels) + x treeN,
        z + ∑ i ∈ range treeN, chiSum (digest i) ((List.range (2 ^ levels)).map (w i))) := by
  have h := tree_chi digest levels treeN w
  unfold f2kCheckRecv
  simp only [Option.bind_eq_bind] at h ⊢
  rw [h, Option.bind_some, foldl_add_eq, foldl_add_map, sum_range_listG, sum_range_listG, zero_add]

theorem chiSum_keyOfLeaf (s delta : GF128) (levels pos : Nat) (hp : pos < 2 ^ levels) (x : GF128) (w : Nat → GF128) :
    chiSum s ((List.range (2 ^ levels)).map (keyOfLeaf delta pos x w)) =
      chiSum s ((List.range (2 ^ levels)).map w) + x * chiCoeff s pos * delta := by
  rw [show keyOfLeaf delta pos x w = fun k => w k + (if k = pos then x * delta else 0) from rfl, chiSum_add,
    chiSum_rangeG s (fun k => if k = pos then x * delta else 0)]
  refine congrArg (chiSum s _ + ·) ?_
  rw [sum_eq_single pos]
  · rw [if_pos rfl, chiCoeff]; ring
  · intro k _ hk
    rw [if_neg hk, mul_zero]
  · intro h
    exact absurd (mem_range.2 hp) h

/-- The block compared is determined by what was sent and the keys. -/
theorem acceptsF_iff (levels treeN : Nat) (delta y : GF128) (digest : Nat → GF128) (b : Nat → Nat → Bool) (x : Nat → GF128)
    (w : Nat → Nat → GF128) (xs v : GF128) : AcceptsF levels treeN delta y digest b x w xs v ↔
      v = y + xs * delta + ∑ i ∈ range treeN, chiSum (digest i) ((List.range (2 ^ levels)).map
        (keyOfLeaf delta (getIndex (b i) levels) (x i) (w i))) := by
  have hx : ∀ r : GF128, ∑ i ∈ range treeN, (if i = treeN then r else x i) * chiCoeff (digest i) (getIndex (b i) levels) =
      ∑ i ∈ range treeN, x i * chiCoeff (digest i) (getIndex (b i) levels) := by
    intro r
    refine sum_congr rfl fun i hi => ?_
    rw [if_neg (Nat.ne_of_lt (mem_range.1 hi))]
  unfold AcceptsF
  simp only [f2k_recv_eq, Option.some.injEq, Prod.mk.injEq, hx, if_true]
  rw [sum_congr rfl (fun i _ => chiSum_keyOfLeaf (digest i) delta levels _ (getIndex_lt (b i) levels) (x i) (w i)), sum_add_distrib,
    ← sum_mul]
  generalize ∑ i ∈ range treeN, x i * chiCoeff (digest i) (getIndex (b i) levels) = A
  generalize ∑ i ∈ range treeN, chiSum (digest i) ((List.range (2 ^ levels)).map (w i)) = B
  have hA := addSelf (A * delta)
  constructor
  · rintro ⟨r, h1, h2⟩
    rw [← h1, ← h2]
    linear_combination -hA
  · intro h
    refine ⟨xs + A, ?_, ?_⟩
    · have := addSelf A; linear_combination this
    · rw [h]; ring

theorem chiSum_sumRange {F : Type} [Field F] {ι : Type} (s : F) (A : Finset ι) (n : Nat) (f : ι → Nat → F) :
    ∑ i ∈ A, chiSum s ((List.range n).map (f i)) = chiSum s ((List.range n).map (fun k => ∑ i ∈ A, f i k)) := by
  simp only [chiSum_rangeG]
  rw [sum_comm]
  exact sum_congr rfl fun k _ => by rw [mul_sum]

/-- Few seeds make sums over different vectors equal up to a constant. -/
theorem card_seeds_pair {F : Type} [Field F] [Fintype F] [DecidableEq F] (n : Nat) (f g : Nat → F) (k : Nat) (hk : k < n) (hne : f k ≠ g k)
    (c : F) (P : F → Prop) [DecidablePred P]
    (hP : ∀ s, P s → chiSum s ((List.range n).map f) = chiSum s ((List.range n).map g) + c) : (univ.filter P).card ≤ n := by
  have h := card_seeds_le ((List.range n).map (fun k => f k - g k))
    ⟨f k - g k, List.mem_map.2 ⟨k, List.mem_range.2 hk, rfl⟩, sub_ne_zero.2 hne⟩ c
  rw [List.length_map, List.length_range] at h
  refine (card_le_card ?_).trans h
  intro s hs
  rw [mem_filter] at hs ⊢
  refine ⟨mem_univ _, ?_⟩
  have := hP s hs.2
  rw [show (fun k => f k - g k) = fun k => f k + (-1) * g k by funext k; ring, chiSum_add]
  have h2 : chiSum s ((List.range n).map (fun k => (-1) * g k)) = (-1) * chiSum s ((List.range n).map g) := by
    rw [chiSum_rangeG, chiSum_rangeG, mul_sum]
    exact sum_congr rfl fun _ _ => by ring
  rw [h2, this]
  ring

theorem char2_pair (y xd c1 c2 d1 d2 : GF128) (h : y + xd + (d1 + c1) = y + xd + (d2 + c2)) : c1 = c2 + (d2 - d1) := by
  linear_combination h

/-- Two receivers that send the same value and compare the same block have equal sums. -/
theorem acceptsF_pair (levels treeN : Nat) (delta y : GF128) (A : Finset Nat) (hA : A ⊆ range treeN) (s : GF128) (g : Nat → GF128)
    (b b' : Nat → Nat → Bool) (x x' : Nat → GF128) (w w' : Nat → Nat → GF128) (xs v : GF128)
    (h1 : AcceptsF levels treeN delta y (fun i => if i ∈ A then s else g i) b x w xs v)
    (h2 : AcceptsF levels treeN delta y (fun i => if i ∈ A then s else g i) b' x' w' xs v) :
    chiSum s ((List.range (2 ^ levels)).map (fun k => ∑ i ∈ A, keyOfLeaf delta (getIndex (b i) levels) (x i) (w i) k)) =
      chiSum s ((List.range (2 ^ levels)).map (fun k => ∑ i ∈ A, keyOfLeaf delta (getIndex (b' i) levels) (x' i) (w' i) k)) +
        (∑ i ∈ range treeN \ A, chiSum (g i) ((List.range (2 ^ levels)).map (keyOfLeaf delta (getIndex (b' i) levels) (x' i) (w' i))) -
          ∑ i ∈ range treeN \ A, chiSum (g i) ((List.range (2 ^ levels)).map (keyOfLeaf delta (getIndex (b i) levels) (x i) (w i)))) := by
  rw [acceptsF_iff] at h1 h2
  have e : ∀ f : Nat → Nat → GF128, ∑ i ∈ range treeN, chiSum (if i ∈ A then s else g i) ((List.range (2 ^ levels)).map (f i)) =
      ∑ i ∈ range treeN \ A, chiSum (g i) ((List.range (2 ^ levels)).map (f i)) +
        chiSum s ((List.range (2 ^ levels)).map (fun k => ∑ i ∈ A, f i k)) := by
    intro f
    rw [← sum_sdiff hA, ← chiSum_sumRange]
    refine congrArg₂ (· + ·) (sum_congr rfl fun i hi => ?_) (sum_congr rfl fun i hi => ?_)
    · rw [if_neg (mem_sdiff.1 hi).2]
    · rw [if_pos hi]
  rw [e] at h1 h2
  rw [h1] at h2
  exact char2_pair _ _ _ _ _ _ h2

/-! ### over F_p -/

/-- What a receiver with arbitrary leaves sends and compares, over F_p. -/
theorem mpfss_recv_eq (digest : Nat → W) (levels treeN : Nat) (h0 : 0 < treeN) (b : Nat → Nat → Bool) (mac : Nat → U128)
    (hv : ∀ i, i ≤ treeN → Canon (high64 (mac i))) (hm : Canon (low64 (mac treeN))) (w : Nat → Nat → Fp) :
    ∃ out, mpfssCheckRecv digest levels treeN b mac ((List.range treeN).map fun i => (List.range (2 ^ levels)).map fun k =>
        (toW (w i k)).setWidth 128) =
      some (toW (fp (high64 (mac treeN)) - ∑ i ∈ range treeN, fp (high64 (mac i)) * fp (digest i) ^ (getIndex (b i) levels + 1)),
        toW (∑ i ∈ range treeN, chiSum (fp (digest i)) ((List.range (2 ^ levels)).map (w i)) - fp (low64 (mac treeN))), out) := by
  have hR := mapM_some (List.range treeN) (fun i => (do
      let l ← ((List.range treeN).map (fun i => (List.range (2 ^ levels)).map (fun k => (toW (w i k)).setWidth 128)))[i]?
      spfssCheckRecv (mod64 (digest i)) l (getIndex (b i) levels) (mac i)))
    (fun i => (toW (fp (digest i) ^ (getIndex (b i) levels + 1)), toW (chiSum (fp (digest i)) ((List.range (2 ^ levels)).map (w i))),
        (List.range (2 ^ levels)).map (fun k => if k = getIndex (b i) levels then makeBlock (high64 (mac i)) (toW (w i k))
          else (toW (w i k)).setWidth 128))) (by
      intro i hi
      have hi' := List.mem_range.1 hi
      simp only [List.getElem?_map, List.getElem?_range hi', Option.map_some, Option.bind_eq_bind, Option.bind_some, mod64_eq_toW]
      exact checkRecv_toW (fp (digest i)) (w i) (2 ^ levels) _ (getIndex_lt _ _) (mac i))
  have hx := mpfssXStar_toW ((List.range treeN).map (fun i => (fp (high64 (mac i)), fp (digest i) ^ (getIndex (b i) levels + 1))))
    ((List.range treeN).map (fun i => (mac i, toW (fp (digest i) ^ (getIndex (b i) levels + 1))))) (by
      rw [List.map_map, List.map_map]
      refine List.map_congr_left ?_
      intro i hi
      have hi' := List.mem_range.1 hi
      simp only [Function.comp, Prod.mk.injEq, and_true]
      exact (toW_fp (hv i hi'.le)).symm) (fp (high64 (mac treeN))) (mac treeN) (toW_fp (hv treeN (le_refl _))).symm
  have hzip : ∀ (g : Nat → W × W × List U128), List.zipWith (fun i (r : W × W × List U128) => (mac i, r.1)) (List.range treeN)
      ((List.range treeN).map g) = (List.range treeN).map (fun i => (mac i, (g i).1)) := by
    intro g
    rw [List.zipWith_map_right, List.zipWith_self]
  have hne : ∀ f : Nat → Fp, (List.range treeN).map f ≠ [] := by
    intro f h'
    have := congrArg List.length h'
    simp at this
    omega
  have e1 : ∀ f : Nat → Fp, (List.range treeN).map (fun i => toW (f i)) = ((List.range treeN).map f).map toW := by
    intro f; rw [List.map_map]; rfl
  unfold mpfssCheckRecv
  refine ⟨(List.range treeN).map (fun i => (List.range (2 ^ levels)).map (fun k => if k = getIndex (b i) levels then
    makeBlock (high64 (mac i)) (toW (w i k)) else (toW (w i k)).setWidth 128)), ?_⟩
  show (Option.bind (List.mapM _ _) _) = _
  rw [hR]
  simp only [Option.bind_some, hzip, List.map_map, Function.comp_def]
  have hs : ((List.range treeN).map (fun i => (fp (high64 (mac i)), fp (digest i) ^ (getIndex (b i) levels + 1)))).map (fun p => p.1 * p.2) =
      (List.range treeN).map (fun i => fp (high64 (mac i)) * fp (digest i) ^ (getIndex (b i) levels + 1)) := by
    rw [List.map_map]; rfl
  rw [hs, sum_range_listG] at hx
  rw [e1, mpfssVa_toW (fp (low64 (mac treeN))) _ (hne _) (mac treeN) (toW_fp hm).symm, hx, sum_range_listG]

theorem chiSum_keyOfLeafP (s d : Fp) (levels pos : Nat) (hp : pos < 2 ^ levels) (x : Fp) (w : Nat → Fp) :
    chiSum s ((List.range (2 ^ levels)).map w) =
      chiSum s ((List.range (2 ^ levels)).map (keyOfLeafP d pos x w)) + x * s ^ (pos + 1) * d := by
  rw [chiSum_rangeG, chiSum_rangeG, show x * s ^ (pos + 1) * d = ∑ k ∈ range (2 ^ levels), s ^ (k + 1) * (if k = pos then x * d else 0) by
    rw [sum_eq_single pos]
    · rw [if_pos rfl]; ring
    · intro k _ hk
      rw [if_neg hk, mul_zero]
    · intro h
      exact absurd (mem_range.2 hp) h, ← sum_add_distrib]
  refine sum_congr rfl fun k _ => ?_
  rw [keyOfLeafP]
  ring

/-- The word compared is determined by what was sent and the keys. -/
theorem acceptsP_of (levels treeN : Nat) (h0 : 0 < treeN) (d : Fp) (y : U128) (digest : Nat → W) (b : Nat → Nat → Bool) (mac : Nat → U128)
    (hv : ∀ i, i < treeN → Canon (high64 (mac i))) (w : Nat → Nat → Fp) (xs v : W)
    (h : AcceptsP levels treeN d y digest b mac w xs v) :
    fp v = ∑ i ∈ range treeN, chiSum (fp (digest i)) ((List.range (2 ^ levels)).map
        (keyOfLeafP d (getIndex (b i) levels) (fp (high64 (mac i))) (w i))) - fp (low64 y) - fp xs * d := by
  obtain ⟨z, out, hz, h⟩ := h
  have hc : ∀ i, i ≤ treeN → Canon (high64 (if i = treeN then z else mac i)) := by
    intro i hi
    by_cases he : i = treeN
    · rw [if_pos he]; exact hz.value
    · rw [if_neg he]; exact hv i (by omega)
  obtain ⟨out', h'⟩ := mpfss_recv_eq digest levels treeN h0 b (fun i => if i = treeN then z else mac i) hc
    (by rw [if_pos rfl]; exact hz.mac) w
  rw [h'] at h
  simp only [Option.some.injEq, Prod.mk.injEq, if_true] at h
  obtain ⟨h1, h2, _⟩ := h
  rw [← h1, ← h2, fp_toW, fp_toW, sum_congr rfl (fun i _ => chiSum_keyOfLeafP (fp (digest i)) d levels _ (getIndex_lt (b i) levels)
    (fp (high64 (mac i))) (w i)), sum_add_distrib, ← sum_mul]
  have e : ∑ i ∈ range treeN, fp (high64 (if i = treeN then z else mac i)) * fp (digest i) ^ (getIndex (b i) levels + 1) =
      ∑ i ∈ range treeN, fp (high64 (mac i)) * fp (digest i) ^ (getIndex (b i) levels + 1) := by
    refine sum_congr rfl fun i hi => ?_
    rw [if_neg (Nat.ne_of_lt (mem_range.1 hi))]
  have hr := hz.rel
  rw [fp_toW] at hr
  rw [e, hr]
  ring

theorem acceptsP_pair (levels treeN : Nat) (h0 : 0 < treeN) (d : Fp) (y : U128) (A : Finset Nat) (hA : A ⊆ range treeN) (s : Fp)
    (g : Nat → W) (b b' : Nat → Nat → Bool) (mac mac' : Nat → U128) (hv : ∀ i, i < treeN → Canon (high64 (mac i)))
    (hv' : ∀ i, i < treeN → Canon (high64 (mac' i))) (w w' : Nat → Nat → Fp) (xs v : W)
    (h1 : AcceptsP levels treeN d y (fun i => if i ∈ A then toW s else g i) b mac w xs v)
    (h2 : AcceptsP levels treeN d y (fun i => if i ∈ A then toW s else g i) b' mac' w' xs v) :
    chiSum s ((List.range (2 ^ levels)).map (fun k => ∑ i ∈ A, keyOfLeafP d (getIndex (b i) levels) (fp (high64 (mac i))) (w i) k)) =
      chiSum s ((List.range (2 ^ levels)).map (fun k => ∑ i ∈ A, keyOfLeafP d (getIndex (b' i) levels) (fp (high64 (mac' i))) (w' i) k)) +
        (∑ i ∈ range treeN \ A, chiSum (fp (g i)) ((List.range (2 ^ levels)).map
            (keyOfLeafP d (getIndex (b' i) levels) (fp (high64 (mac' i))) (w' i))) -
          ∑ i ∈ range treeN \ A, chiSum (fp (g i)) ((List.range (2 ^ levels)).map
            (keyOfLeafP d (getIndex (b i) levels) (fp (high64 (mac i))) (w i)))) := by
  have h1 := acceptsP_of levels treeN h0 d y _ b mac hv w xs v h1
  have h2 := acceptsP_of levels treeN h0 d y _ b' mac' hv' w' xs v h2
  have e : ∀ f : Nat → Nat → Fp, ∑ i ∈ range treeN, chiSum (fp (if i ∈ A then toW s else g i)) ((List.range (2 ^ levels)).map (f i)) =
      ∑ i ∈ range treeN \ A, chiSum (fp (g i)) ((List.range (2 ^ levels)).map (f i)) +
        chiSum s ((List.range (2 ^ levels)).map (fun k => ∑ i ∈ A, f i k)) := by
    intro f
    rw [← sum_sdiff hA, ← chiSum_sumRange]
    refine congrArg₂ (· + ·) (sum_congr rfl fun i hi => ?_) (sum_congr rfl fun i hi => ?_)
    · rw [if_neg (mem_sdiff.1 hi).2]
    · rw [if_pos hi, fp_toW]
  rw [e] at h1 h2
  rw [h1] at h2
  linear_combination h2

/-! ### digests -/

/-- Calls that only receive leave the hashed bytes as they are once the buffer is empty. -/
theorem sndRun_treeCalls {S : Nat} (levels : Nat) (s : SndSt) (hb : s.buf = []) :
    sndRun S s (treeCallsF levels) = { s with hashed := [], digests := s.digests ++ [s.hashed] } := by
  have hback : ∀ n : Nat, sndRun S s (List.replicate n (.back 32)) = s := by
    intro n
    induction n with
    | zero => rfl
    | succ n ih => rw [List.replicate_succ, sndRun, sndFlush_nil S s hb, ih]
  rw [treeCallsF, sndRun_append, hback]
  simp only [sndRun, sndFlush_nil S s hb]

theorem sndRun_trees {S : Nat} (levels t : Nat) (s : SndSt) (hb : s.buf = []) (hh : s.hashed = []) :
    (sndRun S s (List.replicate t (treeCallsF levels)).flatten).digests = s.digests ++ List.replicate t [] := by
  induction t generalizing s with
  | zero => simp [sndRun]
  | succ t ih =>
    rw [List.replicate_succ, List.flatten_cons, sndRun_append, sndRun_treeCalls levels s hb,
      ih { s with hashed := [], digests := s.digests ++ [s.hashed] } hb rfl, hh, List.append_assoc]
    rfl

/-- A tree of at least no level begins with a call that flushes. -/
theorem sndRun_treeCalls_flush {S : Nat} (hS : 0 < S) (levels : Nat) (s : SndSt) (h : s.buf.length < S) :
    sndRun S s (treeCallsF levels) = sndRun S (sndFlush S s).1 (treeCallsF levels) := by
  have hb : (sndFlush S s).1.buf = [] := sndFlush_buf s h
  cases levels with
  | zero =>
    simp only [treeCallsF, List.replicate_zero, List.nil_append, sndRun, sndFlush_nil S _ hb]
  | succ l =>
    rw [treeCallsF, List.replicate_succ, List.cons_append, sndRun, sndRun, sndFlush_nil S _ hb]

end EmpZk
