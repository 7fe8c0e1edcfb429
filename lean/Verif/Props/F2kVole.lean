/-
C30, C31, C34, C39, C66 over F_{2^128}; C67: the base correlations over F_{2^128}.
-/
import Verif.Props.VoleTriple
import Verif.Lemmas.F2kVole

namespace EmpZk
open Finset

/-! ### C30, C31 -/

/-- C30 over F_{2^128}. For every tree, choice vector and correlation `mac = key + beta * Delta`: sender and receiver obtain equal leaves at
all positions but the punctured one, where they differ by `beta * Delta`. -/
theorem C30_single_point_f2k (G0 G1 : U128 → U128) (levels : Nat) (hl : 0 < levels) (seed : U128) (memS memR : Mem)
    (b : Nat → Bool) (delta beta gamma mac : GF128) (h : mac = gamma + beta * delta) :
    ∃ leavesS msgs sum, spfssF2kSend G0 G1 levels seed memS gamma = some (leavesS, msgs, sum) ∧ msgs.length = levels ∧
      ∀ m : Nat → U128, (∀ i p, msgs[i]? = some p → m i = if b i then p.2 else p.1) →
      ∃ leavesR, spfssF2kRecv G0 G1 levels b m memR sum mac = some leavesR ∧
        leavesS.length = 2 ^ levels ∧ leavesR.length = 2 ^ levels ∧
        ∀ (k : Nat) (v w : GF128), leavesS[k]? = some v → leavesR[k]? = some w →
          w = v + if k = puncturedAt b levels then beta * delta else 0 := by
  obtain ⟨msgs, sum, h1, h2, h3⟩ := spfssF2k_pair G0 G1 levels hl seed memS memR b gamma mac
  refine ⟨_, msgs, sum, h1, h2, ?_⟩
  intro m hm
  refine ⟨_, h3 m hm, by simp, by simp, ?_⟩
  intro k v w hv hw
  rw [List.getElem?_map] at hv hw
  by_cases hk : k < 2 ^ levels
  · rw [List.getElem?_range hk, Option.map_some, Option.some.injEq] at hv hw
    subst hv; subst hw
    have e : mac + gamma = beta * delta := by
      have := addSelf gamma
      rw [h]
      linear_combination this
    rw [leafRG, getIndex_eq, e]
  · rw [List.getElem?_eq_none (by simp; omega)] at hv
    simp at hv

/-- C31 over F_{2^128}. For every number of trees, seeds, choice vectors, check coefficients and `treeN + 1` valid correlations (`x`
values, `mac`, `key`): the two parties hash the same block, and afterwards hold `treeN * 2^levels` valid correlations whose values
(set by `set_vec_x`) are the noise values at the punctured positions and zero elsewhere. -/
theorem C31_batch_check_f2k (G0 G1 : U128 → U128) (levels : Nat) (hl : 0 < levels) (treeN : Nat) (seed : Nat → U128)
    (memS memR : Nat → Mem) (b : Nat → Nat → Bool) (delta : GF128) (x key mac : Nat → GF128)
    (h : ∀ i, i ≤ treeN → mac i = key i + x i * delta) (digest : Nat → GF128) :
    ∃ S, mpfssF2kSend G0 G1 levels treeN seed memS key = some S ∧
      ∀ (m : Nat → Nat → U128) (share : Nat → GF128),
        (∀ i t, S[i]? = some t → share i = t.2.2 ∧ ∀ j p, t.2.1[j]? = some p → m i j = if b i j then p.2 else p.1) →
        ∃ R xStar v vals, mpfssF2kRecv G0 G1 levels treeN b m memR share mac = some R ∧
          f2kCheckRecv digest levels treeN b x (mac treeN) R = some (xStar, v) ∧
          f2kCheckSend digest treeN delta (key treeN) (S.map (fun t => t.1)) xStar = some v ∧
          setVecX levels treeN b x (List.replicate (treeN * 2 ^ levels) 0) = some vals ∧
          (S.map (fun t => t.1)).flatten.length = treeN * 2 ^ levels ∧ R.flatten.length = treeN * 2 ^ levels ∧
          vals.length = treeN * 2 ^ levels ∧
          ∀ (q : Nat) (X M K : GF128), vals[q]? = some X → R.flatten[q]? = some M → (S.map (fun t => t.1)).flatten[q]? = some K →
            M = K + X * delta ∧
            X = if q % 2 ^ levels = puncturedAt (b (q / 2 ^ levels)) levels then x (q / 2 ^ levels) else 0 := by
  obtain ⟨S, h1, h2, h3⟩ := mpfssF2k_values G0 G1 levels hl treeN seed memS memR b key mac
  refine ⟨S, h1, ?_⟩
  intro m share hms
  obtain ⟨xStar, v, h4, h5, _⟩ := f2k_check_eq G0 G1 levels treeN seed b delta x key mac h digest
  refine ⟨_, xStar, v, _, h3 m share hms, h4, by rw [h2]; exact h5, setVecX_eq levels b x _ treeN (le_refl _), ?_, ?_, by simp, ?_⟩
  · rw [h2, flatten_ranges]; simp
  · rw [flatten_ranges]; simp
  · intro q X M K hX hM hK
    rw [flatten_ranges, List.getElem?_map] at hM
    rw [h2, flatten_ranges, List.getElem?_map] at hK
    rw [List.getElem?_map] at hX
    have hq : q < treeN * 2 ^ levels := by
      by_contra hq
      rw [List.getElem?_eq_none (by simp; omega)] at hM
      simp at hM
    rw [List.getElem?_range hq, Option.map_some, Option.some.injEq] at hM hK hX
    have hqi : q / 2 ^ levels < treeN := Nat.div_lt_of_lt_mul (by rw [Nat.mul_comm]; exact hq)
    have ha := h _ hqi.le
    rw [← getIndex_eq]
    generalize q % 2 ^ levels = k at hM hK hX ⊢
    generalize q / 2 ^ levels = i at hM hK hqi ha hX ⊢
    subst hK; subst hX; subst hM
    unfold leafRG
    by_cases hk : k = getIndex (b i) levels
    · rw [if_pos hk, if_pos ⟨hqi, hk⟩, if_pos hk]
      refine ⟨?_, rfl⟩
      have := addSelf (key i)
      rw [ha]
      linear_combination this
    · rw [if_neg hk, if_neg (fun h => hk h.2), if_neg hk]
      exact ⟨by ring, rfl⟩

/-- Non-trivial correlations for every `Delta` and tree number. -/
example (delta : GF128) : ∀ i : Nat, i ≤ 2 → (1 + gX ^ i * delta : GF128) = 1 + gX ^ i * delta := fun _ _ => rfl

/-- C30: a tree with two levels, punctured at position 2, for every `Delta`. -/
example (delta : GF128) : ∃ leavesS msgs sum, spfssF2kSend id id 2 5 (fun _ => 0) 1 = some (leavesS, msgs, sum) ∧
    msgs.length = 2 ∧ puncturedAt (fun i => i = 1) 2 = 2 ∧ leavesS.length = 4 := by
  obtain ⟨a, m, s, h1, h2, h3⟩ := C30_single_point_f2k id id 2 (by decide) 5 (fun _ => 0) (fun _ => 0) (fun i => i = 1) delta gX 1
    (1 + gX * delta) rfl
  obtain ⟨r, _, h5, _⟩ := h3 (fun i => match m[i]? with | some p => if i = 1 then p.2 else p.1 | none => 0) (by
    intro i p hp; simp [hp])
  exact ⟨a, m, s, h1, h2, by decide, h5⟩

/-! ### C34 -/

/-- C34 over F_{2^128}. For every `n`, `k`, thread count, random words and valid correlations, the three arrays are computed without an
access out of bounds, and each output is again a valid correlation, obtained by adding the same base entries `js` (ten of them, or none
where the work split misses the position) to value, MAC and key. -/
theorem C34_correlation_f2k (prp : Nat → Nat → BitVec 32) (n k threads : Nat) (hk : 0 < k) (hk2 : k < 2 ^ 31) (delta : GF128)
    (X M K preX preM preK : Nat → GF128) (hA : ∀ i, i < n → M i = K i + X i * delta)
    (hP : ∀ j, j < k → preM j = preK j + preX j * delta) :
    ∃ X' M' K' : List GF128,
      lpnF2kCompute prp n k threads ((List.range n).map X) ((List.range k).map preX) = some X' ∧
      lpnF2kCompute prp n k threads ((List.range n).map M) ((List.range k).map preM) = some M' ∧
      lpnF2kCompute prp n k threads ((List.range n).map K) ((List.range k).map preK) = some K' ∧
      X'.length = n ∧ M'.length = n ∧ K'.length = n ∧
      ∀ (q : Nat) (x m key : GF128), X'[q]? = some x → M'[q]? = some m → K'[q]? = some key → m = key + x * delta ∧
        ∃ js : List Nat, (∀ j ∈ js, j < k) ∧ js.length = (if q < (threads + 1) * (n / (threads + 1)) then 10 else 0) ∧
          x = X q + (js.map preX).sum ∧ m = M q + (js.map preM).sum ∧ key = K q + (js.map preK).sum := by
  refine ⟨_, _, _, runF2k_eq prp k hk hk2 preX n _ X (mem_opsPosF2k n threads), runF2k_eq prp k hk hk2 preM n _ M (mem_opsPosF2k n threads),
    runF2k_eq prp k hk hk2 preK n _ K (mem_opsPosF2k n threads), by simp, by simp, by simp, ?_⟩
  intro q x m key hx hm hkey
  by_cases hq : q < n
  · rw [List.getElem?_map, List.getElem?_range hq, Option.map_some, Option.some.injEq] at hx hm hkey
    obtain ⟨js, hj1, hj2, hj3⟩ := contrib_list (fun i w => idxN k (prp i w)) ((lpnTasks n threads).flatten.flatMap LpnOp.lanesF2k) q
    rw [hj3] at hx hm hkey
    have hjk : ∀ j ∈ js, j < k := by
      intro j hj
      obtain ⟨i, w, rfl⟩ := hj1 j hj
      exact idxN_lt k hk _
    have hrel : (js.map preM).sum = (js.map preK).sum + (js.map preX).sum * delta := by
      clear hx hm hkey hj1 hj2 hj3
      induction js with
      | nil => simp
      | cons j js ih =>
        simp only [List.map_cons, List.sum_cons]
        rw [ih (fun j' h => hjk j' (by simp [h])), hP j (hjk j (by simp))]
        ring
    subst hx; subst hm; subst hkey
    refine ⟨?_, js, hjk, ?_, rfl, rfl, rfl⟩
    · rw [hrel, hA q hq]; ring
    · rw [hj2, count_lanesF2k]
  · rw [List.getElem?_eq_none (by simp; omega)] at hx
    simp at hx

/-! ### C67 -/

/-- C67. One base correlation over F_{2^128}: if the 128 OT blocks of the two parties satisfy `M_i = K_i + lsb(M_i) * Delta`, then the
packed blocks are a valid correlation, whose value consists of the 128 low bits. -/
theorem C67_base (delta : GF128) (M K : Nat → GF128) (h : ∀ i, i < 128 → M i = K i + bit (lsb (M i)) * delta) :
    (f2kBaseVal M).2 = f2kBaseKey K + (f2kBaseVal M).1 * delta ∧
    ∀ i, i < 128 → (f2kBaseVal M).1.bits.getLsbD i = lsb (M i) := by
  have hb : ∀ i, i < 128 → (f2kBaseVal M).1.bits.getLsbD i = lsb (M i) := by
    intro i hi
    show ((BitVec.ofBoolListLE ((List.range 128).map (fun i => lsb (M i)))).setWidth 128).getLsbD i = _
    rw [BitVec.getLsbD_setWidth, BitVec.getLsbD_ofBoolListLE, decide_eq_true hi, Bool.true_and]
    simp [List.getD, hi]
  refine ⟨?_, hb⟩
  have hv : (f2kBaseVal M).1 = ∑ i : Fin 128, bit (lsb (M i)) * gX ^ (i : Nat) := by
    rw [← GF128.pack_bits (f2kBaseVal M).1]
    refine sum_congr rfl fun i _ => ?_
    rw [hb i i.isLt]
  rw [hv]
  show packBlocks M = packBlocks K + _
  unfold packBlocks
  rw [sum_mul, ← sum_add_distrib]
  refine sum_congr rfl fun i _ => ?_
  rw [h i i.isLt]
  have : lsb (K i + bit (lsb (M i)) * delta) = lsb (M i) := by rw [← h i i.isLt]
  rw [this]
  ring

/-- Every block is the value of some base correlation (so the correlation is not forced to be trivial). -/
theorem C67_value_onto (a delta : GF128) (hd : lsb delta = true) : ∃ M K : Nat → GF128,
    (∀ i, i < 128 → M i = K i + bit (lsb (M i)) * delta ∧ lsb (K i) = false) ∧ (f2kBaseVal M).1 = a := by
  refine ⟨fun i => bit (a.bits.getLsbD i) * delta, fun _ => 0, ?_, ?_⟩
  · intro i _
    rw [lsb_bit_mul, hd, Bool.and_true, zero_add]
    exact ⟨rfl, lsb_zero⟩
  · have := (C67_base delta (fun i => bit (a.bits.getLsbD i) * delta) (fun _ => 0) (by
      intro i _
      rw [lsb_bit_mul, hd, Bool.and_true, zero_add])).2
    have e : (f2kBaseVal (fun i => bit (a.bits.getLsbD i) * delta)).1.bits = a.bits := by
      refine BitVec.eq_of_getLsbD_eq ?_
      intro i hi
      rw [this i hi, lsb_bit_mul, hd, Bool.and_true]
    rcases a with ⟨a⟩
    rcases hf : (f2kBaseVal (fun i => bit ((GF128.mk a).bits.getLsbD i) * delta)).1 with ⟨c⟩
    rw [hf] at e
    exact congrArg GF128.mk e

example : lsb (1 : GF128) = true := lsb_one

/-- C67: OT blocks with `Delta = 1`: all keys 0, the MACs alternating. -/
example : (∀ i, i < 128 → (if i % 2 = 0 then (1 : GF128) else 0) =
      0 + bit (lsb (if i % 2 = 0 then (1 : GF128) else 0)) * 1) ∧
    (f2kBaseVal (fun i => if i % 2 = 0 then (1 : GF128) else 0)).1.bits.getLsbD 4 = true ∧
    (f2kBaseVal (fun i => if i % 2 = 0 then (1 : GF128) else 0)).1.bits.getLsbD 5 = false := by
  have h : ∀ i, i < 128 → (if i % 2 = 0 then (1 : GF128) else 0) =
      0 + bit (lsb (if i % 2 = 0 then (1 : GF128) else 0)) * 1 := by
    intro i _
    split
    · simp [lsb_one, bit]
    · simp [bit, lsb_zero]
  have h2 := (C67_base 1 _ (fun _ => 0) h).2
  refine ⟨h, ?_, ?_⟩
  · rw [h2 4 (by decide)]; simp [lsb_one]
  · rw [h2 5 (by decide)]; simp [lsb_zero]

/-! ### C39 -/

/-- Witness for C39 over F_{2^128}: two leaves, one tree, two LPN entries; only the first random word selects entry 0. -/
def overlapCfg : ExtCfg := ⟨1, 1, 2, 0, id, id, fun _ w => if w = 0 then 0 else 1⟩

/-- C39 is false over F_{2^128}: the correlation used as check mask (index `t`) is also read by the LPN expansion, so that changing the mask
alone changes the output. -/
theorem C39_f2k_false : ¬ ∀ (c : ExtCfg) (digest : Nat → GF128) (delta : GF128) (key key' : Nat → GF128) (trees : List (List GF128))
    (xStar : GF128), (∀ i, i ≠ c.t → key i = key' i) →
      (extF2kKey c digest delta key trees xStar).map (fun r => r.2) = (extF2kKey c digest delta key' trees xStar).map (fun r => r.2) := by
  intro h
  have := h overlapCfg (fun _ => 0) 0 (fun _ => 0) (fun i => if i = 1 then 1 else 0) [[0, 0]] 0 (by
    intro i hi
    rw [if_neg (show ¬ i = 1 from hi)])
  unfold extF2kKey f2kCheckSend at this
  have e : (List.range overlapCfg.t).mapM (m := Option) (fun i => do
      let l ← ([[0, 0]] : List (List GF128))[i]?
      some (chiSum 0 l)) = some [chiSum 0 [0, 0]] := rfl
  simp only [Option.bind_eq_bind] at e
  simp only [e, Option.bind_eq_bind, Option.bind_some] at this
  have l0 : lpnF2kCompute overlapCfg.prp overlapCfg.n overlapCfg.k overlapCfg.threads ([[0, 0]] : List (List GF128)).flatten
      ((List.range overlapCfg.k).map (fun _ => 0)) = some [0, 0] := by decide +kernel
  have l1 : lpnF2kCompute overlapCfg.prp overlapCfg.n overlapCfg.k overlapCfg.threads ([[0, 0]] : List (List GF128)).flatten
      ((List.range overlapCfg.k).map (fun j => if overlapCfg.t + j = 1 then 1 else 0)) = some [1, 1] := by decide +kernel
  simp only [l0, l1, Option.bind_some, Option.map_some, Option.some.injEq, List.cons.injEq] at this
  exact zero_ne_one this.1

/-- C39 over F_{2^128}, what holds: trees use `[0, t)`, the check mask is `t`, the LPN secret is `[t, t + k)`; all of them are among the `M`
reserved ones, of which the last one is never used. -/
theorem C39_f2k_partial (c : ExtCfg) (seed : Nat → U128) (mem : Nat → Mem) (digest : Nat → GF128) (delta : GF128) (key key' : Nat → GF128)
    (trees : List (List GF128)) (xStar : GF128) :
    ((∀ i, i < c.t → key i = key' i) → extF2kTrees c seed mem key = extF2kTrees c seed mem key') ∧
    (key c.t = key' c.t → f2kCheckSend digest c.t delta (key c.t) trees xStar = f2kCheckSend digest c.t delta (key' c.t) trees xStar) ∧
    ((∀ i, c.t ≤ i → i + 1 < c.M → key i = key' i) → 0 < c.k →
      extF2kKey c digest delta key trees xStar = extF2kKey c digest delta key' trees xStar) := by
  refine ⟨?_, ?_, ?_⟩
  · intro h
    unfold extF2kTrees mpfssF2kSend
    refine mapM_congr' _ _ _ ?_
    intro i hi
    rw [h i (List.mem_range.1 hi)]
  · intro h; rw [h]
  · intro h hk
    unfold extF2kKey
    rw [h c.t (le_refl _) (by unfold ExtCfg.M; omega), List.map_congr_left (l := List.range c.k) (f := fun j => key (c.t + j))
      (g := fun j => key' (c.t + j)) (fun j hj => h _ (by omega) (by have := List.mem_range.1 hj; unfold ExtCfg.M; omega))]

/-- The default parameters: mask 1280, LPN secret `[1280, 426280)`, reserved 426281. -/
example : (⟨13, 1280, 425000, 4, id, id, fun _ _ => 0⟩ : ExtCfg).M = 426281 := rfl

/-! ### C66 -/

theorem range_map_ofListF (l : List GF128) (n : Nat) (h : l.length = n) : (List.range n).map (ofListF l) = l := by
  subst h
  apply List.ext_getElem?
  intro i
  by_cases hi : i < l.length
  · rw [List.getElem?_map, List.getElem?_range hi, List.getElem?_eq_getElem hi, Option.map_some]
    simp [ofListF, hi]
  · rw [List.getElem?_eq_none (by simp; omega), List.getElem?_eq_none (by omega)]

theorem ofListF_get (l : List GF128) (i : Nat) (h : i < l.length) : l[i]? = some (ofListF l i) := by
  rw [List.getElem?_eq_getElem h]
  simp [ofListF, h]

/-- C66 over F_{2^128}. One extension: for all sizes, seeds, noise positions, check coefficients, thread counts, LPN words and `M` valid
correlations, if the receiver of the trees gets the chosen OT messages and the sums, then the check of the two parties agrees and they hold
`n` valid correlations. -/
theorem C66_extension_f2k (c : ExtCfg) (hl : 0 < c.levels) (hk : 0 < c.k) (hk2 : c.k < 2 ^ 31) (delta : GF128)
    (x mac key : Nat → GF128) (h : ∀ i, i < c.M → mac i = key i + x i * delta) (seed : Nat → U128) (memS memR : Nat → Mem)
    (b : Nat → Nat → Bool) (digest : Nat → GF128) :
    ∃ S, extF2kTrees c seed memS key = some S ∧
      ∀ (m : Nat → Nat → U128) (share : Nat → GF128),
        (∀ i t, S[i]? = some t → share i = t.2.2 ∧ ∀ j p, t.2.1[j]? = some p → m i j = if b i j then p.2 else p.1) →
        ∃ xStar v X M K, extF2kVal c digest b m memR share x mac = some (xStar, v, X, M) ∧
          extF2kKey c digest delta key (S.map (fun t => t.1)) xStar = some (v, K) ∧
          extF2kKeyOut c seed memS key = some K ∧
          X.length = c.n ∧ M.length = c.n ∧ K.length = c.n ∧
          ∀ i, i < c.n → ofListF M i = ofListF K i + ofListF X i * delta := by
  obtain ⟨S, h1, h2⟩ := C31_batch_check_f2k c.G0 c.G1 c.levels hl c.t seed memS memR b delta x key mac
    (fun i hi => h i (by unfold ExtCfg.M; omega)) digest
  refine ⟨S, h1, ?_⟩
  intro m share hms
  obtain ⟨R, xStar, v, vals, r1, r2, r3, r4, r5, r6, r7, r8⟩ := h2 m share hms
  obtain ⟨X, M, K, l1, l2, l3, l4, l5, l6, l7⟩ := C34_correlation_f2k c.prp c.n c.k c.threads hk hk2 delta
    (ofListF vals) (ofListF R.flatten) (ofListF (S.map (fun t => t.1)).flatten) (fun j => x (c.t + j)) (fun j => mac (c.t + j))
    (fun j => key (c.t + j))
    (fun i hi => (r8 i _ _ _ (ofListF_get _ _ (by rw [r7]; exact hi)) (ofListF_get _ _ (by rw [r6]; exact hi))
      (ofListF_get _ _ (by rw [r5]; exact hi))).1)
    (fun j hj => h _ (by unfold ExtCfg.M; omega))
  rw [range_map_ofListF _ c.n r7] at l1
  rw [range_map_ofListF _ c.n r6] at l2
  rw [range_map_ofListF _ c.n r5] at l3
  refine ⟨xStar, v, X, M, K, ?_, ?_, ?_, l4, l5, l6, ?_⟩
  · unfold extF2kVal
    simp only [Option.bind_eq_bind]
    rw [r1, Option.bind_some, r2, Option.bind_some, ExtCfg.n, r4, Option.bind_some]
    rw [ExtCfg.n] at l1 l2
    rw [l1, Option.bind_some, l2, Option.bind_some]
  · unfold extF2kKey
    simp only [Option.bind_eq_bind]
    rw [r3, Option.bind_some, l3, Option.bind_some]
  · unfold extF2kKeyOut extF2kTrees
    simp only [Option.bind_eq_bind]
    rw [h1, Option.bind_some]
    exact l3
  · intro i hi
    exact (l7 i _ _ _ (ofListF_get _ _ (by omega)) (ofListF_get _ _ (by omega)) (ofListF_get _ _ (by omega))).1

/-- The relation between the element of BOB (a key) and that of ALICE (a value and a MAC). -/
def CorrF (delta : GF128) (k : GF128) (xm : GF128 × GF128) : Prop := xm.2 = k + xm.1 * delta

/-- C38, both parties: if at every round the extensions turn related seeds into related batches, then the two parties' in-place requests for
`t` correlations are accepted with the same size and deliver related elements, and leave related seeds for the next call. -/
theorem C38_aligned {α β : Type} (R : α → β → Prop) {cs : VCfg α} {cr : VCfg β} {L : Nat} (hs : cs.Ok L) (hr : cr.Ok L) (hM : cs.M = cr.M)
    (ps : List α) (pr : List β)
    (hR : ∀ r q, List.Forall₂ R (seedOf cs.gen L ps r) q → List.Forall₂ R (cs.gen r (seedOf cs.gen L ps r)) (cr.gen r q))
    (h0 : List.Forall₂ R ps pr) (hl : ps.length = cs.M) (t : Nat) (ht : 0 < t) (hfit : (t - 1) / L * L + cs.n < 2 ^ 31) (ht64 : t < 2 ^ 64)
    (ss : VState α) (sr : VState β) (hss : ss.pre = seedOf cs.gen L ps ss.round) (hsr : sr.pre = seedOf cr.gen L pr sr.round)
    (hround : ss.round = sr.round) :
    ∃ sz : Nat, memoryNeed cs (BitVec.ofNat 64 t) = some (sz : Int) ∧ memoryNeed cr (BitVec.ofNat 64 t) = some (sz : Int) ∧
      ∀ (ds : List α) (dr : List β), ds.length = sz → dr.length = sz →
        ∃ ss' sr' es er out, extendInplace cs ss ds sz = some (some (ss', es, out)) ∧ extendInplace cr sr dr sz = some (some (sr', er, out)) ∧
          t ≤ out ∧ es.length = sz ∧ er.length = sz ∧ out + cs.M = sz ∧ List.Forall₂ R (es.take out) (er.take out) ∧
          ss'.pre = seedOf cs.gen L ps ss'.round ∧ sr'.pre = seedOf cr.gen L pr sr'.round ∧ ss'.round = sr'.round := by
  have hseed : ∀ r, List.Forall₂ R (seedOf cs.gen L ps r) (seedOf cr.gen L pr r) := by
    intro r
    induction r with
    | zero => exact h0
    | succ r ih => exact List.forall₂_drop L (hR r _ ih)
  have hnn : cs.n = cr.n := by rw [hs.size, hr.size, hM]
  have hL : 0 < L := lt_of_lt_of_le hs.pos hs.le
  obtain ⟨sz, m1, _, m3⟩ := C38_inplace hs ps hl t ht hfit ht64 ss hss
  obtain ⟨sz', n1, _, n3⟩ := C38_inplace hr pr (by rw [← h0.length_eq, hl, hM]) t ht (by rw [← hnn]; exact hfit) ht64 sr hsr
  have hmn : memoryNeed cs (BitVec.ofNat 64 t) = memoryNeed cr (BitVec.ofNat 64 t) := by
    unfold memoryNeed; rw [hs.limit, hr.limit, hnn]
  have : sz = sz' := by
    rw [m1, n1, Option.some.injEq] at hmn
    omega
  subst this
  refine ⟨sz, m1, n1, ?_⟩
  intro ds dr hds hdr
  obtain ⟨ss', es, out, a1, a2, a3, a4, _, a6, a7, a8, _⟩ := m3 ds hds
  obtain ⟨sr', er, out', b1, b2, b3, _, _, b6, b7, b8, _⟩ := n3 dr hdr
  have : out = out' := by omega
  subst this
  refine ⟨ss', sr', es, er, out, a1, b1, a4, a2, b2, a3, ?_, a6, b6, ?_⟩
  · rw [List.forall₂_iff_get]
    refine ⟨by rw [List.length_take, List.length_take]; omega, ?_⟩
    intro i hi hi'
    have hi1 : i < out := by rw [List.length_take] at hi; omega
    have g1 := a8 i hi1
    have g2 := b8 i hi1
    rw [List.getElem?_eq_getElem (by omega)] at g1
    rw [List.getElem?_eq_getElem (by omega)] at g2
    rw [hround] at g1
    unfold streamAt at g1 g2
    obtain ⟨j1, k1⟩ := List.getElem?_eq_some_iff.1 g1.symm
    obtain ⟨j2, k2⟩ := List.getElem?_eq_some_iff.1 g2.symm
    have := (List.forall₂_iff_get.1 (hR _ _ (hseed ((sr.round * L + i) / L)))).2 _ j1 j2
    simp only [List.get_eq_getElem, List.getElem_take] at this ⊢
    rw [← k1, ← k2]
    exact this
  · rw [hround] at a7
    have : ss'.round * L = sr'.round * L := by rw [a7, b7]
    exact Nat.eq_of_mul_eq_mul_right hL this

/-- C66 over F_{2^128}. For all randomness of all rounds, if the setup leaves `M` valid correlations, then in every round both parties'
extensions succeed and their check blocks agree, and after any number of rounds an in-place request is filled with valid correlations only,
leaving valid correlations reserved for the next one. -/
theorem C66_inplace_f2k (c : ExtCfg) (hl : 0 < c.levels) (hk : 0 < c.k) (hk2 : c.k < 2 ^ 31) (L : Nat) (hL : c.n = L + c.M) (hML : c.M ≤ L)
    (delta : GF128) (rnd : Nat → ExtRoundF) (pk : List GF128) (px : List (GF128 × GF128)) (h0 : List.Forall₂ (CorrF delta) pk px)
    (hpk : pk.length = c.M) :
    ∃ (cs : VCfg GF128) (cr : VCfg (GF128 × GF128)), cs.n = c.n ∧ cs.M = c.M ∧ cr.n = c.n ∧ cr.M = c.M ∧
      (∀ r, ∃ S xStar v, extF2kTrees c (rnd r).seed (rnd r).memS (ofListF (seedOf cs.gen L pk r)) = some S ∧
        extF2kVal c (rnd r).digest (rnd r).b (otMsgF S (rnd r).b) (rnd r).memR (otSumF S)
            (ofListF ((seedOf cr.gen L px r).map Prod.fst)) (ofListF ((seedOf cr.gen L px r).map Prod.snd)) =
          some (xStar, v, (batchOf cr.gen L px r).map Prod.fst, (batchOf cr.gen L px r).map Prod.snd) ∧
        extF2kKey c (rnd r).digest delta (ofListF (seedOf cs.gen L pk r)) (S.map (fun t => t.1)) xStar = some (v, batchOf cs.gen L pk r)) ∧
      ∀ (t : Nat), 0 < t → (t - 1) / L * L + c.n < 2 ^ 31 → t < 2 ^ 64 → ∀ (ss : VState GF128) (sr : VState (GF128 × GF128)),
        ss.pre = seedOf cs.gen L pk ss.round → sr.pre = seedOf cr.gen L px sr.round → ss.round = sr.round →
        ∃ sz : Nat, memoryNeed cs (BitVec.ofNat 64 t) = some (sz : Int) ∧ memoryNeed cr (BitVec.ofNat 64 t) = some (sz : Int) ∧
          ∀ (ds : List GF128) (dr : List (GF128 × GF128)), ds.length = sz → dr.length = sz →
            ∃ ss' sr' es er out, extendInplace cs ss ds sz = some (some (ss', es, out)) ∧
              extendInplace cr sr dr sz = some (some (sr', er, out)) ∧ t ≤ out ∧ es.length = sz ∧ er.length = sz ∧ out + cs.M = sz ∧
              List.Forall₂ (CorrF delta) (es.take out) (er.take out) ∧
              ss'.pre = seedOf cs.gen L pk ss'.round ∧ sr'.pre = seedOf cr.gen L px sr'.round ∧ ss'.round = sr'.round := by
  let fixS : List GF128 → List GF128 := fun o => if o.length = c.n then o else List.replicate c.n 0
  let fixR : List (GF128 × GF128) → List (GF128 × GF128) := fun o => if o.length = c.n then o else List.replicate c.n (0, 0)
  have fixS_len : ∀ o, (fixS o).length = c.n := by intro o; show (if _ then _ else _ : List GF128).length = _; split <;> simp_all
  have fixR_len : ∀ o, (fixR o).length = c.n := by intro o; show (if _ then _ else _ : List _).length = _; split <;> simp_all
  let gs : Nat → List GF128 → List GF128 := fun r p => fixS ((extF2kKeyOut c (rnd r).seed (rnd r).memS (ofListF p)).getD [])
  let cs : VCfg GF128 := ⟨c.n, c.M, gs⟩
  let tree : Nat → List (List GF128 × List (U128 × U128) × GF128) := fun r =>
    (extF2kTrees c (rnd r).seed (rnd r).memS (ofListF (seedOf gs L pk r))).getD []
  let gr : Nat → List (GF128 × GF128) → List (GF128 × GF128) := fun r q =>
    fixR (((extF2kVal c (rnd r).digest (rnd r).b (otMsgF (tree r) (rnd r).b) (rnd r).memR (otSumF (tree r)) (ofListF (q.map Prod.fst))
      (ofListF (q.map Prod.snd))).map (fun x => x.2.2.1.zip x.2.2.2)).getD [])
  let cr : VCfg (GF128 × GF128) := ⟨c.n, c.M, gr⟩
  have hMpos : 0 < c.M := by unfold ExtCfg.M; omega
  have oks : cs.Ok L := ⟨hL, hMpos, hML, fun r p _ => fixS_len _⟩
  have okr : cr.Ok L := ⟨hL, hMpos, hML, fun r q _ => fixR_len _⟩
  have round : ∀ r q, List.Forall₂ (CorrF delta) (seedOf gs L pk r) q →
      ∃ xStar v, extF2kTrees c (rnd r).seed (rnd r).memS (ofListF (seedOf gs L pk r)) = some (tree r) ∧
        extF2kVal c (rnd r).digest (rnd r).b (otMsgF (tree r) (rnd r).b) (rnd r).memR (otSumF (tree r)) (ofListF (q.map Prod.fst))
          (ofListF (q.map Prod.snd)) = some (xStar, v, (gr r q).map Prod.fst, (gr r q).map Prod.snd) ∧
        extF2kKey c (rnd r).digest delta (ofListF (seedOf gs L pk r)) ((tree r).map (fun t => t.1)) xStar =
          some (v, gs r (seedOf gs L pk r)) ∧
        List.Forall₂ (CorrF delta) (gs r (seedOf gs L pk r)) (gr r q) := by
    intro r q hq
    have hlq := hq.length_eq
    have hls : (seedOf gs L pk r).length = c.M := seed_len oks pk hpk r
    obtain ⟨S, a1, a2⟩ := C66_extension_f2k c hl hk hk2 delta (ofListF (q.map Prod.fst)) (ofListF (q.map Prod.snd))
      (ofListF (seedOf gs L pk r)) (by
      intro i hi
      have := (List.forall₂_iff_get.1 hq).2 i (by omega) (by omega)
      simpa [CorrF, ofListF, List.getD, hls, ← hlq, hi] using this) (rnd r).seed (rnd r).memS (rnd r).memR (rnd r).b (rnd r).digest
    have ht : tree r = S := by show Option.getD _ _ = S; rw [a1]; rfl
    obtain ⟨xStar, v, X, M, K, b1, b2, b3, b4, b5, b6, b7⟩ := a2 (otMsgF S (rnd r).b) (otSumF S) (by
      intro i t hi
      refine ⟨by simp [otSumF, hi], ?_⟩
      intro j p hj
      simp [otMsgF, hi, hj])
    have hgs : gs r (seedOf gs L pk r) = K := by
      show fixS _ = K
      rw [b3]
      exact if_pos b6
    have hgr : gr r q = X.zip M := by
      show fixR _ = _
      rw [ht, b1]
      exact if_pos (by simp [b4, b5])
    refine ⟨xStar, v, by rw [ht]; exact a1, ?_, by rw [ht, hgs]; exact b2, ?_⟩
    · rw [ht, hgr, List.map_fst_zip (by omega), List.map_snd_zip (by omega)]; exact b1
    · rw [hgs, hgr, List.forall₂_iff_get]
      refine ⟨by simp [b4, b5, b6], ?_⟩
      intro i hi hi'
      have := b7 i (by omega)
      have i1 : i < X.length := by omega
      have i2 : i < M.length := by omega
      simpa [CorrF, ofListF, List.getD, hi, i1, i2] using this
  have hseed : ∀ r, List.Forall₂ (CorrF delta) (seedOf gs L pk r) (seedOf gr L px r) := by
    intro r
    induction r with
    | zero => exact h0
    | succ r ih =>
      obtain ⟨_, _, _, _, _, h⟩ := round r _ ih
      exact List.forall₂_drop L h
  refine ⟨cs, cr, rfl, rfl, rfl, rfl, ?_, ?_⟩
  · intro r
    obtain ⟨xStar, v, h1, h2, h3, _⟩ := round r _ (hseed r)
    exact ⟨tree r, xStar, v, h1, h2, h3⟩
  · intro t ht hfit ht64 ss sr hss hsr hround
    exact C38_aligned (CorrF delta) oks okr rfl pk px (fun r q hq => (round r q hq).choose_spec.choose_spec.2.2.2) h0 hpk t ht hfit ht64
      ss sr hss hsr hround

/-- The default parameters `f2k_b13` meet the size conditions (`n = 10485760`, `n_pre = 470016`). -/
example : let c : ExtCfg := ⟨13, 1280, 425000, 4, id, id, fun _ _ => 0⟩
    let c1 : ExtCfg := ⟨9, 918, 32768, 4, id, id, fun _ _ => 0⟩
    c.n = 10485760 ∧ c1.n = 470016 ∧ c.M ≤ c1.n ∧ c.n = 10059479 + c.M ∧ c.M ≤ 10059479 ∧ c.k < 2 ^ 31 ∧
      (20000000 - 1) / 10059479 * 10059479 + c.n < 2 ^ 31 := by decide +kernel

/-- C66 over F_{2^128}, setup: from `k_pre + t_pre + 1` base correlations (C67), the preparatory extension leaves `M` valid ones for the main
extension, provided the sizes fit (as checked by the constructor of the parameters, svole.h:20-21). -/
theorem C66_setup_f2k (c1 c : ExtCfg) (hl1 : 0 < c1.levels) (hk1 : 0 < c1.k) (hk1' : c1.k < 2 ^ 31) (h1 : c.M ≤ c1.n)
    (delta : GF128) (ka kb : Nat → Nat → GF128) (h : ∀ i, i < c1.M → ∀ j, j < 128 → ka i j = kb i j + bit (lsb (ka i j)) * delta)
    (r1 : ExtRoundF) :
    ∃ S x1 v1 X M K, extF2kTrees c1 r1.seed r1.memS (fun i => f2kBaseKey (kb i)) = some S ∧
      extF2kVal c1 r1.digest r1.b (otMsgF S r1.b) r1.memR (otSumF S) (fun i => (f2kBaseVal (ka i)).1) (fun i => (f2kBaseVal (ka i)).2) =
        some (x1, v1, X, M) ∧
      extF2kKey c1 r1.digest delta (fun i => f2kBaseKey (kb i)) (S.map (fun t => t.1)) x1 = some (v1, K) ∧
      (K.take c.M).length = c.M ∧ List.Forall₂ (CorrF delta) (K.take c.M) ((X.zip M).take c.M) := by
  obtain ⟨S, a1, a2⟩ := C66_extension_f2k c1 hl1 hk1 hk1' delta (fun i => (f2kBaseVal (ka i)).1) (fun i => (f2kBaseVal (ka i)).2)
    (fun i => f2kBaseKey (kb i)) (fun i hi => (C67_base delta (ka i) (kb i) (h i hi)).1) r1.seed r1.memS r1.memR r1.b r1.digest
  obtain ⟨x1, v1, X, M, K, b1, b2, _, b4, b5, b6, b7⟩ := a2 (otMsgF S r1.b) (otSumF S) (by
    intro i t hi
    refine ⟨by simp [otSumF, hi], ?_⟩
    intro j p hj
    simp [otMsgF, hi, hj])
  refine ⟨S, x1, v1, X, M, K, a1, b1, b2, by rw [List.length_take]; omega, ?_⟩
  refine List.forall₂_take _ ?_
  rw [List.forall₂_iff_get]
  refine ⟨by simp [b4, b5, b6], ?_⟩
  intro i hi hi'
  have := b7 i (by omega)
  have i1 : i < X.length := by omega
  have i2 : i < M.length := by omega
  simpa [CorrF, ofListF, List.getD, hi, i1, i2] using this

end EmpZk
