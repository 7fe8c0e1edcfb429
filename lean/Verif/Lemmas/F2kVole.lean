/-
Lemmas on the VOLE over F_{2^128}.
-/
import Verif.Model.F2kVole
import Verif.Lemmas.Lpn
import Verif.Lemmas.Extend
import Verif.Lemmas.BoolAlg
import Mathlib.Tactic.LinearCombination

namespace EmpZk
open Finset

/-! ### sums -/

theorem foldl_add_eq {α : Type} [AddCommMonoid α] (l : List α) (a : α) : l.foldl (· + ·) a = a + l.sum := by
  induction l generalizing a with
  | nil => simp
  | cons x l ih => rw [List.foldl_cons, ih, List.sum_cons, add_assoc]

theorem foldl_add_map {α β : Type} [AddCommMonoid α] (l : List β) (f : β → α) (a : α) :
    l.foldl (fun acc i => acc + f i) a = a + (l.map f).sum := by
  induction l generalizing a with
  | nil => simp
  | cons x l ih => rw [List.foldl_cons, ih, List.map_cons, List.sum_cons, add_assoc]

theorem sum_range_listG {α : Type} [AddCommMonoid α] (f : Nat → α) (n : Nat) : ((List.range n).map f).sum = ∑ k ∈ range n, f k := by
  induction n with
  | zero => rfl
  | succ n ih => rw [List.range_succ, List.map_append, List.sum_append, ih, sum_range_succ]; simp

theorem sum_holeG {α : Type} [AddCommGroup α] (f : Nat → α) (n a : Nat) (ha : a < n) :
    ∑ k ∈ range n, (if k = a then 0 else f k) = ∑ k ∈ range n, f k - f a := by
  have e : ∀ k, (if k = a then 0 else f k) = f k - if k = a then f a else 0 := by
    intro k
    by_cases h : k = a
    · simp [h]
    · simp [h]
  rw [sum_congr rfl (fun k _ => e k), sum_sub_distrib, sum_ite_eq', if_pos (mem_range.2 ha)]

theorem chiSumFrom_rangeG {F : Type} [Field F] (s : F) (f : Nat → F) (n : Nat) : ∀ (c : F) (o : Nat),
    chiSumFrom s c ((List.range' o n).map f) = ∑ k ∈ range n, c * s ^ k * f (o + k) := by
  induction n with
  | zero => intro c o; simp [chiSumFrom]
  | succ n ih =>
    intro c o
    rw [List.range'_succ, List.map_cons, chiSumFrom, ih, sum_range_succ', pow_zero, mul_one, add_zero, add_comm]
    refine congrArg (· + c * f o) ?_
    refine sum_congr rfl fun k _ => ?_
    rw [show o + 1 + k = o + (k + 1) by omega]
    ring

theorem chiSum_rangeG {F : Type} [Field F] (s : F) (f : Nat → F) (n : Nat) :
    chiSum s ((List.range n).map f) = ∑ k ∈ range n, s ^ (k + 1) * f k := by
  have := chiSumFrom_rangeG s f n s 0
  rw [← List.range_eq_range'] at this
  rw [chiSum, this]
  refine sum_congr rfl fun k _ => ?_
  rw [zero_add]
  ring

/-! ### one tree -/

/-- leaf of the tree as a field element -/
def leafG (G0 G1 : U128 → U128) (seed : U128) (levels k : Nat) : GF128 := ⟨ggmNode G0 G1 seed levels k⟩

/-- the receiver's leaf when the correlation differs by `e` -/
noncomputable def leafRG (G0 G1 : U128 → U128) (levels : Nat) (seed : U128) (b : Nat → Bool) (e : GF128) (k : Nat) : GF128 :=
  leafG G0 G1 seed levels k + if k = getIndex b levels then e else 0

theorem spfssF2kSend_eq (G0 G1 : U128 → U128) (levels : Nat) (hl : 0 < levels) (seed : U128) (mem0 : Mem) (gamma : GF128) :
    spfssF2kSend G0 G1 levels seed mem0 gamma = some
      ((List.range (2 ^ levels)).map (leafG G0 G1 seed levels),
        (List.range levels).map (fun i =>
          (xorStride (ggmNode G0 G1 seed (i + 1)) 0 (2 ^ i), xorStride (ggmNode G0 G1 seed (i + 1)) 1 (2 ^ i))),
        ∑ k ∈ range (2 ^ levels), leafG G0 G1 seed levels k + gamma) := by
  obtain ⟨h, rfl⟩ : ∃ h, levels = h + 1 := ⟨levels - 1, by omega⟩
  have hm : (List.range (2 ^ (h + 1))).map (fun k => GF128.mk ((ggmGen G0 G1 seed mem0 h).1 k)) =
      (List.range (2 ^ (h + 1))).map (leafG G0 G1 seed (h + 1)) :=
    List.map_congr_left (fun k hk => by rw [ggmGen_mem G0 G1 seed mem0 h k (List.mem_range.1 hk)]; rfl)
  rw [spfssF2kSend, if_neg (by omega)]
  simp only [Nat.add_sub_cancel, hm, ggmGen_msgs]
  rw [foldl_add_eq, sum_range_listG, zero_add]

theorem spfssF2kRecv_eq (G0 G1 : U128 → U128) (levels : Nat) (hl : 0 < levels) (seed : U128) (mem0 : Mem) (b : Nat → Bool)
    (m : Nat → U128)
    (hm : ∀ i, i < levels → m i = xorStride (ggmNode G0 G1 seed (i + 1)) (if b i then 1 else 0) (2 ^ i))
    (s mac : GF128) :
    spfssF2kRecv G0 G1 levels b m mem0 s mac = some
      ((List.range (2 ^ levels)).map (fun k => if k = getIndex b levels then
        mac + (∑ k ∈ range (2 ^ levels), leafG G0 G1 seed levels k - leafG G0 G1 seed levels (getIndex b levels) + s)
        else leafG G0 G1 seed levels k)) := by
  have hr := ggmRecon_mem G0 G1 levels b m mem0 seed hm levels (le_refl _)
  rw [if_pos rfl] at hr
  have hraw : (List.range (2 ^ levels)).map (fun k => GF128.mk ((ggmRecon G0 G1 levels b m mem0 levels).2.set (getIndex b levels) 0 k)) =
      (List.range (2 ^ levels)).map (fun k => if k = getIndex b levels then 0 else leafG G0 G1 seed levels k) := by
    refine List.map_congr_left ?_
    intro k hk
    unfold Mem.set
    by_cases h : k = getIndex b levels
    · rw [if_pos h, if_pos h]; rfl
    · rw [if_neg h, if_neg h, hr k hl (List.mem_range.1 hk) h]; rfl
  rw [spfssF2kRecv, if_neg (by omega)]
  simp only [hraw]
  rw [foldl_add_eq, sum_range_listG, sum_holeG _ _ _ (getIndex_lt b levels), zero_add]
  refine congrArg some ?_
  apply List.ext_getElem?
  intro k
  have hpos := getIndex_lt b levels
  rw [List.getElem?_set]
  simp only [List.length_map, List.length_range]
  by_cases hk : k < 2 ^ levels
  · rw [List.getElem?_map, List.getElem?_map, List.getElem?_range hk]
    simp only [Option.map_some]
    by_cases h : getIndex b levels = k
    · rw [if_pos h, if_pos (by omega), if_pos h.symm]
    · rw [if_neg h, if_neg (fun h' => h h'.symm), if_neg (fun h' => h h'.symm)]
  · rw [if_neg (by omega), List.getElem?_eq_none (by simp; omega), List.getElem?_eq_none (by simp; omega)]

theorem char2_cancel (mac S l g : GF128) : mac + (S - l + (S + g)) = l + (mac + g) := by
  have h := addSelf S
  rw [sub_eq_add']
  linear_combination h

theorem spfssF2k_pair (G0 G1 : U128 → U128) (levels : Nat) (hl : 0 < levels) (seed : U128) (memS memR : Mem) (b : Nat → Bool)
    (gamma mac : GF128) :
    ∃ msgs sum, spfssF2kSend G0 G1 levels seed memS gamma = some ((List.range (2 ^ levels)).map (leafG G0 G1 seed levels), msgs, sum) ∧
      msgs.length = levels ∧
      ∀ m : Nat → U128, (∀ i p, msgs[i]? = some p → m i = if b i then p.2 else p.1) →
        spfssF2kRecv G0 G1 levels b m memR sum mac = some ((List.range (2 ^ levels)).map (leafRG G0 G1 levels seed b (mac + gamma))) := by
  refine ⟨_, _, spfssF2kSend_eq G0 G1 levels hl seed memS gamma, by simp, ?_⟩
  intro m hm
  rw [spfssF2kRecv_eq G0 G1 levels hl seed memR b m ?_]
  · refine congrArg some (List.map_congr_left ?_)
    intro k _
    unfold leafRG
    by_cases h : k = getIndex b levels
    · rw [if_pos h, if_pos h, h, char2_cancel]
    · rw [if_neg h, if_neg h, add_zero]
  · intro i hi
    have := hm i (xorStride (ggmNode G0 G1 seed (i + 1)) 0 (2 ^ i), xorStride (ggmNode G0 G1 seed (i + 1)) 1 (2 ^ i))
      (by rw [List.getElem?_map, List.getElem?_range hi]; rfl)
    rw [this]
    cases b i <;> rfl

theorem mpfssF2k_values (G0 G1 : U128 → U128) (levels : Nat) (hl : 0 < levels) (treeN : Nat) (seed : Nat → U128)
    (memS memR : Nat → Mem) (b : Nat → Nat → Bool) (key mac : Nat → GF128) :
    ∃ S, mpfssF2kSend G0 G1 levels treeN seed memS key = some S ∧
      S.map (fun t => t.1) = (List.range treeN).map (fun i => (List.range (2 ^ levels)).map (leafG G0 G1 (seed i) levels)) ∧
      ∀ (m : Nat → Nat → U128) (share : Nat → GF128),
        (∀ i t, S[i]? = some t → share i = t.2.2 ∧ ∀ j p, t.2.1[j]? = some p → m i j = if b i j then p.2 else p.1) →
        mpfssF2kRecv G0 G1 levels treeN b m memR share mac = some ((List.range treeN).map (fun i =>
          (List.range (2 ^ levels)).map (leafRG G0 G1 levels (seed i) (b i) (mac i + key i)))) := by
  have hp : ∀ i, ∃ r : List (U128 × U128) × GF128,
      spfssF2kSend G0 G1 levels (seed i) (memS i) (key i) = some ((List.range (2 ^ levels)).map (leafG G0 G1 (seed i) levels), r.1, r.2) ∧
      ∀ m : Nat → U128, (∀ j p, r.1[j]? = some p → m j = if b i j then p.2 else p.1) →
        spfssF2kRecv G0 G1 levels (b i) m (memR i) r.2 (mac i) = some ((List.range (2 ^ levels)).map
          (leafRG G0 G1 levels (seed i) (b i) (mac i + key i))) := by
    intro i
    obtain ⟨msgs, sum, h1, _, h3⟩ := spfssF2k_pair G0 G1 levels hl (seed i) (memS i) (memR i) (b i) (key i) (mac i)
    exact ⟨(msgs, sum), h1, h3⟩
  choose r hr using hp
  refine ⟨_, mapM_some _ _ (fun i => ((List.range (2 ^ levels)).map (leafG G0 G1 (seed i) levels), (r i).1, (r i).2))
    (fun i _ => (hr i).1), ?_, ?_⟩
  · rw [List.map_map]; rfl
  · intro m share hms
    refine mapM_some _ _ _ ?_
    intro i hi
    have hi' := List.mem_range.1 hi
    obtain ⟨h1, h2⟩ := hms i _ (by rw [List.getElem?_map, List.getElem?_range hi']; rfl)
    rw [h1]
    exact (hr i).2 (m i) h2

/-! ### the check -/

theorem chiSum_leafRG (G0 G1 : U128 → U128) (levels : Nat) (seed : U128) (b : Nat → Bool) (e s : GF128) :
    chiSum s ((List.range (2 ^ levels)).map (leafRG G0 G1 levels seed b e)) =
      chiSum s ((List.range (2 ^ levels)).map (leafG G0 G1 seed levels)) + chiCoeff s (getIndex b levels) * e := by
  rw [show (leafRG G0 G1 levels seed b e) = fun k => leafG G0 G1 seed levels k + (if k = getIndex b levels then e else 0) from rfl,
    chiSum_add, chiSum_rangeG s (fun k => if k = getIndex b levels then e else 0)]
  refine congrArg (chiSum s _ + ·) ?_
  rw [sum_eq_single (getIndex b levels)]
  · rw [if_pos rfl]; rfl
  · intro k _ hk
    rw [if_neg hk, mul_zero]
  · intro h
    exact absurd (mem_range.2 (getIndex_lt b levels)) h

theorem tree_chi (digest : Nat → GF128) (levels treeN : Nat) (f : Nat → Nat → GF128) :
    (List.range treeN).mapM (m := Option) (fun i => do
      let l ← ((List.range treeN).map (fun i => (List.range (2 ^ levels)).map (f i)))[i]?
      some (chiSum (digest i) l)) =
    some ((List.range treeN).map (fun i => chiSum (digest i) ((List.range (2 ^ levels)).map (f i)))) := by
  refine mapM_some _ _ _ ?_
  intro i hi
  rw [List.getElem?_map, List.getElem?_range (List.mem_range.1 hi)]
  rfl

theorem f2k_check_eq (G0 G1 : U128 → U128) (levels treeN : Nat) (seed : Nat → U128) (b : Nat → Nat → Bool) (delta : GF128)
    (x key mac : Nat → GF128) (h : ∀ i, i ≤ treeN → mac i = key i + x i * delta) (digest : Nat → GF128) :
    ∃ xStar v,
      f2kCheckRecv digest levels treeN b x (mac treeN) ((List.range treeN).map (fun i =>
          (List.range (2 ^ levels)).map (leafRG G0 G1 levels (seed i) (b i) (mac i + key i)))) = some (xStar, v) ∧
      f2kCheckSend digest treeN delta (key treeN) ((List.range treeN).map (fun i => (List.range (2 ^ levels)).map
          (leafG G0 G1 (seed i) levels))) xStar = some v ∧
      xStar = ∑ i ∈ range treeN, x i * chiCoeff (digest i) (getIndex (b i) levels) + x treeN := by
  unfold f2kCheckRecv f2kCheckSend
  simp only [Option.bind_eq_bind]
  have h1 := tree_chi digest levels treeN (fun i => leafRG G0 G1 levels (seed i) (b i) (mac i + key i))
  have h2 := tree_chi digest levels treeN (fun i => leafG G0 G1 (seed i) levels)
  simp only [Option.bind_eq_bind] at h1 h2
  refine ⟨_, _, by rw [h1, Option.bind_some], ?_, ?_⟩
  · rw [h2, Option.bind_some]
    refine congrArg some ?_
    rw [foldl_add_eq, foldl_add_eq, foldl_add_map, sum_range_listG, sum_range_listG, sum_range_listG, zero_add]
    have e : ∀ i ∈ range treeN, chiSum (digest i) ((List.range (2 ^ levels)).map (leafRG G0 G1 levels (seed i) (b i) (mac i + key i))) =
        chiSum (digest i) ((List.range (2 ^ levels)).map (leafG G0 G1 (seed i) levels)) +
          delta * (x i * chiCoeff (digest i) (getIndex (b i) levels)) := by
      intro i hi
      rw [chiSum_leafRG, h i (mem_range.1 hi).le]
      have := addSelf (key i)
      linear_combination (chiCoeff (digest i) (getIndex (b i) levels)) * this
    rw [sum_congr rfl e, sum_add_distrib, ← mul_sum, h treeN (le_refl _)]
    ring
  · rw [foldl_add_map, sum_range_listG, zero_add]

/-! ### values -/

theorem setVecX_eq (levels : Nat) (b : Nat → Nat → Bool) (x : Nat → GF128) (n t : Nat) (ht : t * 2 ^ levels ≤ n) :
    setVecX levels t b x (List.replicate n 0) = some ((List.range n).map (fun q =>
      if q / 2 ^ levels < t ∧ q % 2 ^ levels = getIndex (b (q / 2 ^ levels)) levels then x (q / 2 ^ levels) else 0)) := by
  unfold setVecX
  have hw : 0 < 2 ^ levels := Nat.pos_of_ne_zero (by positivity)
  induction t with
  | zero =>
    simp only [List.range_zero, List.foldlM_nil, Option.pure_def, Option.some.injEq, Nat.not_lt_zero, false_and, if_false]
    rw [List.map_const', List.length_range]
  | succ t ih =>
    rw [List.range_succ, List.foldlM_append, ih (le_trans (Nat.mul_le_mul_right _ (Nat.le_succ t)) ht)]
    simp only [Option.bind_eq_bind, Option.bind_some, List.foldlM_cons, List.foldlM_nil, Option.pure_def]
    have hpos := getIndex_lt (b t) levels
    generalize hp : getIndex (b t) levels = pos at hpos
    generalize 2 ^ levels = w at *
    have hpt : t * w + pos < n := by
      have : (t + 1) * w ≤ n := ht
      rw [Nat.succ_mul] at this
      omega
    rw [List.getElem?_map, List.getElem?_range hpt, Option.map_some, Option.bind_some, Option.bind_some]
    refine congrArg some ?_
    have hd : (t * w + pos) / w = t := by rw [Nat.mul_comm, Nat.mul_add_div hw, Nat.div_eq_of_lt hpos, Nat.add_zero]
    have hm : (t * w + pos) % w = pos := by rw [Nat.mul_comm, Nat.mul_add_mod, Nat.mod_eq_of_lt hpos]
    apply List.ext_getElem?
    intro q
    rw [List.getElem?_set]
    by_cases hq : q < n
    · rw [List.getElem?_map, List.getElem?_map, List.getElem?_range hq]
      simp only [Option.map_some]
      by_cases e : t * w + pos = q
      · rw [if_pos e, if_pos (by simpa using hpt)]
        subst e
        rw [hd, hm, if_neg (by omega), if_pos ⟨by omega, hp.symm⟩, zero_add]
      · rw [if_neg e]
        refine congrArg some ?_
        by_cases h1 : q / w < t ∧ q % w = getIndex (b (q / w)) levels
        · rw [if_pos h1, if_pos ⟨by omega, h1.2⟩]
        · rw [if_neg h1, if_neg]
          rintro ⟨h2, h3⟩
          by_cases h4 : q / w = t
          · apply e
            rw [h4, hp] at h3
            have := Nat.div_add_mod q w
            rw [h4, h3, Nat.mul_comm] at this
            exact this
          · exact h1 ⟨by omega, h3⟩
    · rw [if_neg (by omega), List.getElem?_eq_none (by simp; omega), List.getElem?_eq_none (by simp; omega)]

/-! ### LPN -/

theorem laneF2k_run (prp : Nat → Nat → BitVec 32) (k : Nat) (hk : 0 < k) (hk2 : k < 2 ^ 31) (pf f : Nat → GF128) (n : Nat)
    (l : Nat × Nat × List Nat) (hl : l.1 < n) :
    (do
      let ps ← l.2.2.mapM (fun w => ((List.range k).map pf)[(lpnIndexU k (prp l.2.1 w)).toNat]?)
      let a ← ((List.range n).map f)[l.1]?
      some (((List.range n).map f).set l.1 (ps.foldl (· + ·) a))) =
      some ((List.range n).map (fun q => f q + contrib (fun i w => idxN k (prp i w)) pf [l] q)) := by
  rw [mapM_some l.2.2 _ (fun w => pf (idxN k (prp l.2.1 w)))]
  · simp only [Option.bind_eq_bind]
    rw [Option.bind_some, List.getElem?_map, List.getElem?_range hl, Option.map_some, Option.bind_some]
    refine congrArg some ?_
    rw [foldl_add_eq]
    apply List.ext_getElem?
    intro q
    rw [List.getElem?_set]
    by_cases hq : q < n
    · rw [List.getElem?_map, List.getElem?_map, List.getElem?_range hq]
      by_cases h : l.1 = q
      · rw [if_pos h, if_pos (by simpa using hl)]
        subst h
        simp [contrib]
      · rw [if_neg h]
        simp [contrib, h]
    · rw [List.getElem?_eq_none (by simp; omega), List.getElem?_eq_none (by simp; omega)]
      rw [if_neg (by omega)]
  · intro w _
    rw [lpnIndexU_eq k hk hk2, List.getElem?_map, List.getElem?_range (idxN_lt k hk _)]
    rfl

theorem lanesF2k_run (prp : Nat → Nat → BitVec 32) (k : Nat) (hk : 0 < k) (hk2 : k < 2 ^ 31) (pf : Nat → GF128) (n : Nat)
    (lanes : List (Nat × Nat × List Nat)) : ∀ f : Nat → GF128, (∀ l ∈ lanes, l.1 < n) →
    lanes.foldlM (fun A l => (do
      let ps ← l.2.2.mapM (fun w => ((List.range k).map pf)[(lpnIndexU k (prp l.2.1 w)).toNat]?)
      let a ← A[l.1]?
      some (A.set l.1 (ps.foldl (· + ·) a)))) ((List.range n).map f) =
      some ((List.range n).map (fun q => f q + contrib (fun i w => idxN k (prp i w)) pf lanes q)) := by
  induction lanes with
  | nil => intro f _; simp [contrib_nil]
  | cons l ls ih =>
    intro f h
    rw [List.foldlM_cons, laneF2k_run prp k hk hk2 pf f n l (h l (by simp))]
    refine Eq.trans (ih (fun q => f q + contrib (fun i w => idxN k (prp i w)) pf [l] q) ?_) ?_
    · exact fun l' hl' => h l' (by simp [hl'])
    refine congrArg some (List.map_congr_left ?_)
    intro q _
    rw [show l :: ls = [l] ++ ls from rfl, contrib_append, add_assoc]

theorem runF2k_eq (prp : Nat → Nat → BitVec 32) (k : Nat) (hk : 0 < k) (hk2 : k < 2 ^ 31) (pf : Nat → GF128) (n : Nat)
    (ops : List LpnOp) : ∀ (f : Nat → GF128), (∀ op ∈ ops, ∀ l ∈ op.lanesF2k, l.1 < n) →
    ops.foldlM (lpnF2kStep prp k ((List.range k).map pf)) ((List.range n).map f) =
      some ((List.range n).map (fun q => f q + contrib (fun i w => idxN k (prp i w)) pf (ops.flatMap LpnOp.lanesF2k) q)) := by
  induction ops with
  | nil => intro f _; simp [contrib_nil]
  | cons op ops ih =>
    intro f h
    rw [List.foldlM_cons]
    have e : lpnF2kStep prp k ((List.range k).map pf) ((List.range n).map f) op = _ :=
      lanesF2k_run prp k hk hk2 pf n op.lanesF2k f (h op (by simp))
    rw [e, Option.bind_eq_bind, Option.bind_some, ih _ (fun o ho => h o (by simp [ho]))]
    refine congrArg some (List.map_congr_left ?_)
    intro q _
    rw [List.flatMap_cons, contrib_append, add_assoc]

theorem lanesF2k_pos (op : LpnOp) : op.lanesF2k.map (fun l => l.1) = op.lanes.map (fun l => l.1) := by
  cases op <;> simp [LpnOp.lanes, LpnOp.lanesF2k]

theorem lanesF2k_len (op : LpnOp) : ∀ l ∈ op.lanesF2k, l.2.2.length = 10 := by
  cases op with
  | single j => intro l hl; simp only [LpnOp.lanesF2k, List.mem_singleton] at hl; subst hl; simp
  | quad j =>
    intro l hl
    simp only [LpnOp.lanesF2k, List.mem_map] at hl
    obtain ⟨a, _, rfl⟩ := hl
    simp

theorem opsPosF2k (ops : List LpnOp) : (ops.flatMap LpnOp.lanesF2k).map (fun l => l.1) = opsPos ops := by
  unfold opsPos
  induction ops with
  | nil => rfl
  | cons op ops ih => rw [List.flatMap_cons, List.flatMap_cons, List.map_append, List.map_append, ih, lanesF2k_pos]

theorem mem_opsPosF2k (n threads : Nat) : ∀ op ∈ (lpnTasks n threads).flatten, ∀ l ∈ op.lanesF2k, l.1 < n := by
  intro op hop l hl
  have : l.1 ∈ opsPos (lpnTasks n threads).flatten := by
    rw [← opsPosF2k]
    exact List.mem_map.2 ⟨l, List.mem_flatMap.2 ⟨op, hop, hl⟩, rfl⟩
  rw [opsPos_tasks, List.mem_range] at this
  exact lt_of_lt_of_le this (Nat.mul_div_le _ _)

theorem count_lanesG (L : List (Nat × Nat × List Nat)) (hl : ∀ l ∈ L, l.2.2.length = 10) (q : Nat) :
    ((L.filter (fun l => l.1 = q)).map (fun l => l.2.2.length)).sum = 10 * (L.map (fun l => l.1)).count q := by
  induction L with
  | nil => rfl
  | cons l L ih =>
    have ih := ih (fun l' h => hl l' (by simp [h]))
    rw [List.map_cons, List.count_cons, List.filter_cons]
    by_cases h : l.1 = q
    · rw [if_pos (by simpa using h), List.map_cons, List.sum_cons, ih, hl l (by simp), if_pos (by simpa using h)]
      ring
    · rw [if_neg (by simpa using h), ih, if_neg (by simpa using h), Nat.add_zero]

theorem count_lanesF2k (n threads q : Nat) :
    ((((lpnTasks n threads).flatten.flatMap LpnOp.lanesF2k).filter (fun l => l.1 = q)).map (fun l => l.2.2.length)).sum =
      if q < (threads + 1) * (n / (threads + 1)) then 10 else 0 := by
  rw [count_lanesG _ (by
    intro l hl
    obtain ⟨op, _, h⟩ := List.mem_flatMap.1 hl
    exact lanesF2k_len op l h), opsPosF2k, opsPos_tasks, count_range]
  split <;> rfl

end EmpZk
