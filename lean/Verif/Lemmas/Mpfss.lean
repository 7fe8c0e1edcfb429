import Verif.Model.Mpfss
import Verif.Lemmas.Spfss
import Verif.Lemmas.ArithAuth

namespace EmpZk
open Finset

theorem mapM_some {α β : Type} (l : List α) (f : α → Option β) (g : α → β) (h : ∀ x ∈ l, f x = some (g x)) :
    l.mapM f = some (l.map g) := by
  induction l with
  | nil => rfl
  | cons x l ih =>
    rw [List.mapM_cons, h x (by simp), ih (fun y hy => h y (by simp [hy]))]
    rfl

/-! ### check values of one tree -/

theorem powersFrom_length (c s : Fp) (n : Nat) : (powersFrom c s n).length = n := by
  induction n generalizing c with
  | zero => rfl
  | succ n ih => simp [powersFrom, ih]

theorem powersFrom_get (c s : Fp) (n k : Nat) (hk : k < n) : (powersFrom c s n)[k]? = some (c * s ^ (k + 1)) := by
  induction n generalizing c k with
  | zero => omega
  | succ n ih =>
    cases k with
    | zero => simp [powersFrom]
    | succ k =>
      rw [powersFrom, List.getElem?_cons_succ, ih _ _ (by omega)]
      congr 1; ring

theorem chiAlpha_toW (s : Fp) (n k : Nat) (hk : k < n) :
    ∃ chi, uniHashCoeffGen (toW s) n = some chi ∧ chi[k]? = some (toW (s ^ (k + 1))) := by
  obtain ⟨m, rfl⟩ : ∃ m, n = m + 1 := ⟨n - 1, by omega⟩
  refine ⟨_, uniHashCoeffGen_toW s m, ?_⟩
  rw [List.getElem?_map]
  cases k with
  | zero => simp
  | succ k =>
    rw [List.getElem?_cons_succ, powersFrom_get _ _ _ _ (by omega), Option.map_some]
    refine congrArg (fun z => some (toW z)) ?_
    ring

theorem chiSumFrom_range (s c : Fp) (f : Nat → Fp) (n j : Nat) :
    chiSumFrom s c ((List.range' j n).map f) = ∑ k ∈ range n, c * s ^ k * f (j + k) := by
  induction n generalizing c j with
  | zero => rfl
  | succ n ih =>
    rw [List.range'_succ, List.map_cons, chiSumFrom, ih, sum_range_succ']
    rw [add_comm]
    simp only [pow_zero, mul_one, add_zero]
    refine congrArg (· + c * f j) ?_
    refine sum_congr rfl fun k _ => ?_
    rw [show j + 1 + k = j + (k + 1) by omega]
    ring

theorem chiSum_range (s : Fp) (f : Nat → Fp) (n : Nat) :
    chiSum s ((List.range n).map f) = ∑ k ∈ range n, s ^ (k + 1) * f k := by
  have := chiSumFrom_range s s f n 0
  rw [← List.range_eq_range'] at this
  rw [show chiSum s ((List.range n).map f) = chiSumFrom s s ((List.range n).map f) from rfl, this]
  refine sum_congr rfl fun k _ => ?_
  rw [zero_add]
  ring

theorem checkSum_toW (s : Fp) (f : Nat → Fp) (n : Nat) (hn : 0 < n) :
    spfssCheckSend (toW s) ((List.range n).map (fun k => (toW (f k)).setWidth 128)) =
      some (toW (chiSum s ((List.range n).map f))) := by
  obtain ⟨m, rfl⟩ : ∃ m, n = m + 1 := ⟨n - 1, by omega⟩
  have e : ((List.range (m + 1)).map (fun k => (toW (f k)).setWidth 128)).map low64 = ((List.range (m + 1)).map f).map toW := by
    simp [Function.comp_def, low64_setWidth]
  simp only [spfssCheckSend, List.length_map, List.length_range, uniHashCoeffGen_toW, Option.bind_eq_bind, Option.bind_some, e]
  rw [innPrdtSumRed_toW s _ m (by simp)]

theorem checkRecv_toW (s : Fp) (f : Nat → Fp) (n pos : Nat) (hp : pos < n) (beta : U128) :
    spfssCheckRecv (toW s) ((List.range n).map (fun k => (toW (f k)).setWidth 128)) pos beta =
      some (toW (s ^ (pos + 1)), toW (chiSum s ((List.range n).map f)),
        (List.range n).map (fun k => if k = pos then makeBlock (high64 beta) (toW (f k)) else (toW (f k)).setWidth 128)) := by
  obtain ⟨m, rfl⟩ : ∃ m, n = m + 1 := ⟨n - 1, by omega⟩
  have e : ((List.range (m + 1)).map (fun k => (toW (f k)).setWidth 128)).map low64 = ((List.range (m + 1)).map f).map toW := by
    simp [Function.comp_def, low64_setWidth]
  obtain ⟨chi, h1, h2⟩ := chiAlpha_toW s (m + 1) pos hp
  have h1' := h1
  rw [uniHashCoeffGen_toW, Option.some.injEq] at h1'
  have hx : ((List.range (m + 1)).map (fun k => (toW (f k)).setWidth 128))[pos]? = some ((toW (f pos)).setWidth 128) := by
    rw [List.getElem?_map, List.getElem?_range hp]; rfl
  simp only [spfssCheckRecv, List.length_map, List.length_range, h1, Option.bind_eq_bind, Option.bind_some, h2, hx, e]
  rw [← h1', innPrdtSumRed_toW s _ m (by simp), Option.some.injEq, Prod.mk.injEq, Prod.mk.injEq]
  refine ⟨rfl, rfl, ?_⟩
  apply List.ext_getElem?
  intro k
  rw [List.getElem?_set]
  simp only [List.length_map, List.length_range]
  by_cases hk : k < m + 1
  · rw [List.getElem?_map, List.getElem?_map, List.getElem?_range hk]
    simp only [Option.map_some]
    by_cases h : pos = k
    · subst h
      rw [if_pos rfl, if_pos hk, if_pos rfl]
      refine congrArg some ?_
      have hz : high64 ((toW (f pos)).setWidth 128) = 0 := by
        apply BitVec.eq_of_toNat_eq
        rw [high64_toNat, toW_wide_toNat]
        have := val_lt_pN (f pos)
        simp only [pN] at this ⊢
        simp
        omega
      unfold makeBlock
      ext i hi
      simp only [BitVec.getElem_xor, BitVec.getElem_or, BitVec.getElem_shiftLeft, BitVec.getElem_setWidth]
      by_cases h64 : i < 64
      · simp [h64]
      · simp only [h64, decide_false, Bool.not_false, Bool.true_and]
        rw [BitVec.getLsbD_of_ge (toW (f pos)) i (by omega)]
        simp
    · rw [if_neg h, if_neg (fun h' => h h'.symm)]
  · rw [if_neg (by omega), List.getElem?_eq_none (by simp; omega), List.getElem?_eq_none (by simp; omega)]

/-! ### the batch check -/

theorem foldl_addMod_toW (a : Fp) (l : List Fp) : (l.map toW).foldl addMod (toW a) = toW (a + l.sum) := by
  induction l generalizing a with
  | nil => simp
  | cons x l ih => rw [List.map_cons, List.foldl_cons, addMod_toW, ih, List.sum_cons, add_assoc]

theorem foldl_mod128_toW (a : Fp) (l : List Fp) :
    (l.map toW).foldl (fun va w => low64 (mod128 (va.setWidth 128 + w.setWidth 128) PR128)) (toW a) = toW (a + l.sum) := by
  induction l generalizing a with
  | nil => simp
  | cons x l ih => rw [List.map_cons, List.foldl_cons, mod128_add_toW, low64_setWidth, ih, List.sum_cons, add_assoc]

/-- `PR - w` is `toW (-a)`, except that it is `PR` for `a = 0` -/
theorem PR_sub_cases (a : Fp) : PR - toW a = toW (-a) ∨ (a = 0 ∧ PR - toW a = PR) := by
  by_cases h : a = 0
  · right
    subst h
    rw [toW_zero]
    exact ⟨rfl, by decide⟩
  · left
    have hlt : (PR - toW a).toNat < pN := by
      have h1 : (toW a).toNat = a.val := toW_toNat a
      have h2 := val_lt_pN a
      have h3 : a.val ≠ 0 := fun h0 => h ((ZMod.val_eq_zero a).1 h0)
      rw [BitVec.toNat_sub, h1]
      have hP : PR.toNat = pN := rfl
      rw [hP]
      simp only [pN] at h2 ⊢
      omega
    exact eq_toW hlt (by rw [fp_PR_sub (by rw [toW_toNat]; exact (val_lt_pN a).le), fp_toW])

theorem mpfssVb_toW (d y x : Fp) (V : List Fp) (hV : V ≠ []) (delta yb : U128) (hd : low64 delta = toW d)
    (hy : low64 yb = toW y) : mpfssVb delta yb (toW x) (V.map toW) = toW (V.sum - (y + d * x)) := by
  unfold mpfssVb
  simp only [hd, hy, multMod_toW, addMod_toW]
  cases V with
  | nil => exact absurd rfl hV
  | cons v V =>
    rw [List.map_cons, List.foldl_cons, addMod_sub_toW', foldl_addMod_toW, List.sum_cons]
    refine congrArg toW ?_
    ring

theorem mpfssVb_nil (d y x : Fp) (delta yb : U128) (hd : low64 delta = toW d)
    (hy : low64 yb = toW y) : mpfssVb delta yb (toW x) [] = PR - toW (y + d * x) := by
  unfold mpfssVb
  simp only [hd, hy, multMod_toW, addMod_toW, List.foldl_nil]

theorem mod128_PR_sub (a v : Fp) :
    low64 (mod128 ((PR - toW a).setWidth 128 + (toW v).setWidth 128) PR128) = toW (v - a) := by
  rcases PR_sub_cases a with h | ⟨h0, h⟩
  · rw [h, mod128_add_toW, low64_setWidth]
    refine congrArg toW ?_
    ring
  · rw [h, h0, sub_zero]
    have := val_lt_pN v
    apply BitVec.eq_of_toNat_eq
    rw [low64_toNat, mod128_toNat]
    · rw [BitVec.toNat_add, toW_wide_toNat, toW_toNat]
      have hP : (BitVec.setWidth 128 PR).toNat = pN := rfl
      rw [hP]
      simp only [pN] at this ⊢
      omega
    · rw [BitVec.toNat_add, toW_wide_toNat]
      have hP : (BitVec.setWidth 128 PR).toNat = pN := rfl
      rw [hP]
      simp only [pN] at this ⊢
      omega

theorem mpfssVa_toW (z : Fp) (Ws : List Fp) (hV : Ws ≠ []) (zb : U128) (hz : low64 zb = toW z) :
    mpfssVa zb (Ws.map toW) = toW (Ws.sum - z) := by
  unfold mpfssVa
  cases Ws with
  | nil => exact absurd rfl hV
  | cons v V =>
    rw [hz, List.map_cons, List.foldl_cons, mod128_PR_sub, foldl_mod128_toW, List.sum_cons]
    refine congrArg toW ?_
    ring

theorem mpfssXStar_toW (l : List (Fp × Fp)) (bc : List (U128 × W))
    (h : bc.map (fun p => (high64 p.1, p.2)) = l.map (fun p => (toW p.1, toW p.2))) (x : Fp) (z : U128) (hz : high64 z = toW x) :
    mpfssXStar bc z = toW (x - (l.map (fun p => p.1 * p.2)).sum) := by
  have key : ∀ (a : Fp) (l : List (Fp × Fp)) (bc : List (U128 × W)),
      bc.map (fun p => (high64 p.1, p.2)) = l.map (fun p => (toW p.1, toW p.2)) →
      bc.foldl (fun acc p => addMod acc (multMod (high64 p.1) p.2)) (toW a) = toW (a + (l.map (fun p => p.1 * p.2)).sum) := by
    intro a l
    induction l generalizing a with
    | nil =>
      intro bc h
      have : bc = [] := by simpa using h
      subst this
      simp
    | cons q l ih =>
      intro bc h
      cases bc with
      | nil => simp at h
      | cons p bc =>
        simp only [List.map_cons, List.cons.injEq, Prod.mk.injEq] at h
        rw [List.foldl_cons, h.1.1, h.1.2, multMod_toW, addMod_toW, ih _ _ h.2, List.map_cons, List.sum_cons, add_assoc]
  have h0 := key 0 l bc h
  rw [toW_zero, zero_add] at h0
  unfold mpfssXStar
  simp only [h0, hz, addMod_sub_toW]

/-! ### a whole run -/

/-- leaf `k` of the receiver's tree `i`, before the noise value is written -/
def leafR (G0 G1 : U128 → U128) (levels : Nat) (seed : U128) (b : Nat → Bool) (e : Fp) (k : Nat) : Fp :=
  leafVal G0 G1 seed levels k + if k = getIndex b levels then e else 0

theorem mpfss_values (G0 G1 : U128 → U128) (levels : Nat) (hl : 0 < levels) (treeN : Nat) (seed : Nat → U128)
    (memS memR : Nat → Mem) (b : Nat → Nat → Bool) (key mac : Nat → U128)
    (hk : ∀ i, i < treeN → Canon (low64 (key i)) ∧ Canon (low64 (mac i))) :
    ∃ S, mpfssSend G0 G1 levels treeN seed memS key = some S ∧
      S.map (fun t => t.1) = (List.range treeN).map (fun i =>
        (List.range (2 ^ levels)).map (fun k => (toW (leafVal G0 G1 (seed i) levels k)).setWidth 128)) ∧
      ∀ (m : Nat → Nat → U128) (share : Nat → W),
        (∀ i t, S[i]? = some t → share i = t.2.2 ∧ ∀ j p, t.2.1[j]? = some p → m i j = if b i j then p.2 else p.1) →
        mpfssRecv G0 G1 levels treeN b m memR share mac = some ((List.range treeN).map (fun i =>
          (List.range (2 ^ levels)).map (fun k =>
            (toW (leafR G0 G1 levels (seed i) (b i) (fp (low64 (mac i)) - fp (low64 (key i))) k)).setWidth 128))) := by
  have hp : ∀ i, ∃ r : List (U128 × U128) × W, i < treeN →
      spfssSend G0 G1 levels (seed i) (memS i) (key i) = some
        ((List.range (2 ^ levels)).map (fun k => (toW (leafVal G0 G1 (seed i) levels k)).setWidth 128), r.1, r.2) ∧
      ∀ m : Nat → U128, (∀ j p, r.1[j]? = some p → m j = if b i j then p.2 else p.1) →
        spfssRecv G0 G1 levels (b i) m (memR i) r.2 (mac i) = some ((List.range (2 ^ levels)).map (fun k =>
          (toW (leafR G0 G1 levels (seed i) (b i) (fp (low64 (mac i)) - fp (low64 (key i))) k)).setWidth 128)) := by
    intro i
    by_cases hi : i < treeN
    · obtain ⟨msgs, sum, h1, _, h3⟩ := spfss_pair G0 G1 levels hl (seed i) (memS i) (memR i) (b i) (key i) (mac i)
        (hk i hi).1 (hk i hi).2
      exact ⟨(msgs, sum), fun _ => ⟨h1, h3⟩⟩
    · exact ⟨([], 0), fun h => absurd h hi⟩
  choose r hr using hp
  refine ⟨_, mapM_some _ _ (fun i => ((List.range (2 ^ levels)).map (fun k =>
      (toW (leafVal G0 G1 (seed i) levels k)).setWidth 128), (r i).1, (r i).2))
    (fun i hi => (hr i (List.mem_range.1 hi)).1), ?_, ?_⟩
  · rw [List.map_map]; rfl
  · intro m share hms
    refine mapM_some _ _ _ ?_
    intro i hi
    have hi' := List.mem_range.1 hi
    obtain ⟨h1, h2⟩ := hms i _ (by rw [List.getElem?_map, List.getElem?_range hi']; rfl)
    rw [h1]
    exact (hr i hi').2 (m i) h2

theorem sum_map_add (l : List Nat) (f g : Nat → Fp) : (l.map (fun i => f i + g i)).sum = (l.map f).sum + (l.map g).sum := by
  induction l with
  | nil => simp
  | cons x l ih => simp only [List.map_cons, List.sum_cons, ih]; ring

theorem sum_map_mul (l : List Nat) (f : Nat → Fp) (d : Fp) : (l.map (fun i => f i * d)).sum = (l.map f).sum * d := by
  induction l with
  | nil => simp
  | cons x l ih => simp only [List.map_cons, List.sum_cons, ih]; ring

theorem chiSum_leafR (G0 G1 : U128 → U128) (levels : Nat) (seed : U128) (b : Nat → Bool) (e s : Fp) :
    chiSum s ((List.range (2 ^ levels)).map (leafR G0 G1 levels seed b e)) =
      chiSum s ((List.range (2 ^ levels)).map (leafVal G0 G1 seed levels)) + s ^ (getIndex b levels + 1) * e := by
  rw [show (leafR G0 G1 levels seed b e) = fun k => leafVal G0 G1 seed levels k + (if k = getIndex b levels then e else 0) from rfl,
    chiSum_add, chiSum_range s (fun k => if k = getIndex b levels then e else 0)]
  refine congrArg (chiSum s _ + ·) ?_
  rw [sum_eq_single (getIndex b levels)]
  · rw [if_pos rfl]
  · intro k _ hk
    rw [if_neg hk, mul_zero]
  · intro h
    exact absurd (mem_range.2 (getIndex_lt b levels)) h

/-- the word both parties hash -/
theorem mpfss_check_eq (G0 G1 : U128 → U128) (levels treeN : Nat) (seed : Nat → U128)
    (b : Nat → Nat → Bool) (d : Fp) (delta : U128) (hd : low64 delta = toW d) (key mac : Nat → U128)
    (h : ∀ i, i ≤ treeN → Auth (toW d) (mac i) (key i)) (digest : Nat → W) :
    ∃ xStar v,
      mpfssCheckRecv digest levels treeN b mac ((List.range treeN).map (fun i =>
          (List.range (2 ^ levels)).map (fun k =>
            (toW (leafR G0 G1 levels (seed i) (b i) (fp (low64 (mac i)) - fp (low64 (key i))) k)).setWidth 128))) =
        some (xStar, v, (List.range treeN).map (fun i => (List.range (2 ^ levels)).map (fun k =>
          if k = getIndex (b i) levels then
            makeBlock (high64 (mac i)) (toW (leafR G0 G1 levels (seed i) (b i) (fp (low64 (mac i)) - fp (low64 (key i))) k))
          else (toW (leafR G0 G1 levels (seed i) (b i) (fp (low64 (mac i)) - fp (low64 (key i))) k)).setWidth 128))) ∧
      mpfssCheckSend digest treeN delta (key treeN) ((List.range treeN).map (fun i =>
        (List.range (2 ^ levels)).map (fun k => (toW (leafVal G0 G1 (seed i) levels k)).setWidth 128))) xStar = some v ∧ Canon xStar := by
  let F : Nat → Nat → Fp := fun i => leafVal G0 G1 (seed i) levels
  let R : Nat → Nat → Fp := fun i => leafR G0 G1 levels (seed i) (b i) (fp (low64 (mac i)) - fp (low64 (key i)))
  have h2 : 0 < 2 ^ levels := by positivity
  have hR := mapM_some (List.range treeN) (fun i => (do
      let l ← ((List.range treeN).map (fun i => (List.range (2 ^ levels)).map (fun k => (toW (R i k)).setWidth 128)))[i]?
      spfssCheckRecv (mod64 (digest i)) l (getIndex (b i) levels) (mac i)))
    (fun i => (toW (fp (digest i) ^ (getIndex (b i) levels + 1)), toW (chiSum (fp (digest i)) ((List.range (2 ^ levels)).map (R i))),
        (List.range (2 ^ levels)).map (fun k => if k = getIndex (b i) levels then makeBlock (high64 (mac i)) (toW (R i k))
          else (toW (R i k)).setWidth 128))) (by
      intro i hi
      have hi' := List.mem_range.1 hi
      simp only [List.getElem?_map, List.getElem?_range hi', Option.map_some, Option.bind_eq_bind, Option.bind_some, mod64_eq_toW]
      exact checkRecv_toW (fp (digest i)) (R i) (2 ^ levels) _ (getIndex_lt _ _) (mac i))
  have hS := mapM_some (List.range treeN) (fun i => (do
      let l ← ((List.range treeN).map (fun i => (List.range (2 ^ levels)).map (fun k => (toW (F i k)).setWidth 128)))[i]?
      spfssCheckSend (mod64 (digest i)) l))
    (fun i => toW (chiSum (fp (digest i)) ((List.range (2 ^ levels)).map (F i)))) (by
      intro i hi
      have hi' := List.mem_range.1 hi
      simp only [List.getElem?_map, List.getElem?_range hi', Option.map_some, Option.bind_eq_bind, Option.bind_some, mod64_eq_toW]
      exact checkSum_toW (fp (digest i)) (F i) (2 ^ levels) h2)
  have hz : high64 (mac treeN) = toW (fp (high64 (mac treeN))) := (toW_fp (h treeN (le_refl _)).value).symm
  have hzm : low64 (mac treeN) = toW (fp (low64 (mac treeN))) := (toW_fp (h treeN (le_refl _)).mac).symm
  have hy : low64 (key treeN) = toW (fp (low64 (key treeN))) := (toW_fp (h treeN (le_refl _)).key).symm
  have hrel := (h treeN (le_refl _)).rel
  rw [fp_toW] at hrel
  have hx := mpfssXStar_toW ((List.range treeN).map (fun i => (fp (high64 (mac i)), fp (digest i) ^ (getIndex (b i) levels + 1))))
    ((List.range treeN).map (fun i => (mac i, toW (fp (digest i) ^ (getIndex (b i) levels + 1))))) (by
      rw [List.map_map, List.map_map]
      refine List.map_congr_left ?_
      intro i hi
      have hi' := List.mem_range.1 hi
      simp only [Function.comp, Prod.mk.injEq, and_true]
      exact (toW_fp (h i hi'.le).value).symm) _ _ hz
  have hzip : ∀ (g : Nat → W × W × List U128), List.zipWith (fun i (r : W × W × List U128) => (mac i, r.1)) (List.range treeN)
      ((List.range treeN).map g) = (List.range treeN).map (fun i => (mac i, (g i).1)) := by
    intro g
    rw [List.zipWith_map_right, List.zipWith_self]
  refine ⟨mpfssXStar ((List.range treeN).map (fun i => (mac i, toW (fp (digest i) ^ (getIndex (b i) levels + 1))))) (mac treeN),
    mpfssVa (mac treeN) ((List.range treeN).map (fun i => toW (chiSum (fp (digest i)) ((List.range (2 ^ levels)).map (R i))))),
    ?_, ?_, by rw [hx]; exact canon_toW _⟩
  · unfold mpfssCheckRecv
    show (Option.bind (List.mapM _ _) _) = _
    rw [hR]
    simp only [Option.bind_some, hzip, List.map_map, Function.comp_def]
    rfl
  · unfold mpfssCheckSend
    show (Option.bind (List.mapM _ _) _) = _
    rw [hS]
    simp only [Option.bind_some, Option.some.injEq]
    rw [hx, List.map_map]
    simp only [Function.comp_def]
    by_cases h0 : treeN = 0
    · subst h0
      simp only [List.range_zero, List.map_nil, List.sum_nil, sub_zero]
      rw [mpfssVb_nil d (fp (low64 (key 0))) _ delta (key 0) hd hy]
      unfold mpfssVa
      rw [List.foldl_nil, hzm, hrel]
      refine congrArg (fun a => PR - toW a) ?_
      ring
    · have hne : ∀ f : Nat → Fp, (List.range treeN).map f ≠ [] := by
        intro f h'
        have := congrArg List.length h'
        simp at this
        exact h0 this
      have e1 : ∀ f : Nat → Fp, (List.range treeN).map (fun i => toW (f i)) = ((List.range treeN).map f).map toW := by
        intro f; rw [List.map_map]; rfl
      rw [e1, e1, mpfssVb_toW d (fp (low64 (key treeN))) _ _ (hne _) delta (key treeN) hd hy,
        mpfssVa_toW (fp (low64 (mac treeN))) _ (hne _) (mac treeN) hzm]
      refine congrArg toW ?_
      have e2 : (List.range treeN).map (fun i => chiSum (fp (digest i)) ((List.range (2 ^ levels)).map (R i))) =
          (List.range treeN).map (fun i => chiSum (fp (digest i)) ((List.range (2 ^ levels)).map (F i)) +
            (fp (high64 (mac i)) * fp (digest i) ^ (getIndex (b i) levels + 1)) * d) := by
        refine List.map_congr_left ?_
        intro i hi
        have hi' := List.mem_range.1 hi
        have hri := (h i hi'.le).rel
        rw [fp_toW] at hri
        have := chiSum_leafR G0 G1 levels (seed i) (b i) (fp (low64 (mac i)) - fp (low64 (key i))) (fp (digest i))
        rw [show R i = leafR G0 G1 levels (seed i) (b i) (fp (low64 (mac i)) - fp (low64 (key i))) from rfl, this, hri]
        refine congrArg (chiSum (fp (digest i)) _ + ·) ?_
        ring
      rw [e2, sum_map_add, sum_map_mul, hrel]
      ring

theorem flatten_ranges {α : Type} (n : Nat) (f : Nat → Nat → α) (t : Nat) :
    ((List.range t).map (fun i => (List.range n).map (f i))).flatten = (List.range (t * n)).map (fun q => f (q / n) (q % n)) := by
  induction t with
  | zero => simp
  | succ t ih =>
    rw [List.range_succ, List.map_append, List.flatten_append, ih, Nat.succ_mul, List.range_add, List.map_append]
    refine congrArg (_ ++ ·) ?_
    rw [List.map_cons, List.map_nil, List.flatten_cons, List.flatten_nil, List.append_nil, List.map_map]
    refine List.map_congr_left ?_
    intro k hk
    have hk' := List.mem_range.1 hk
    simp only [Function.comp]
    have hn : 0 < n := by omega
    rw [show t * n + k = k + t * n from by ring, Nat.add_mul_div_right _ _ hn, Nat.add_mul_mod_self_right,
      Nat.div_eq_of_lt hk', Nat.mod_eq_of_lt hk', Nat.zero_add]

theorem high64_wide (a : Fp) : high64 ((toW a).setWidth 128) = 0 := by
  apply BitVec.eq_of_toNat_eq
  rw [high64_toNat, toW_wide_toNat]
  have := val_lt_pN a
  simp only [pN] at this ⊢
  simp
  omega

end EmpZk
