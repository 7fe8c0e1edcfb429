/-
Lemmas on the LPN expansion.
-/
import Verif.Model.Lpn
import Verif.Lemmas.Mpfss

namespace EmpZk

/-! ### index derivation -/

theorem kMaskFrom_ge (k m : Nat) : k ≤ kMaskFrom k m := by
  induction m using kMaskFrom.induct k with
  | case1 m h ih => rw [kMaskFrom, if_pos h]; exact ih
  | case2 m h => rw [kMaskFrom, if_neg h]; omega

theorem kMaskFrom_lt (k m : Nat) (hm : m < 2 * k) : kMaskFrom k m < 2 * k := by
  induction m using kMaskFrom.induct k with
  | case1 m h ih => rw [kMaskFrom, if_pos h]; exact ih (by omega)
  | case2 m h => rw [kMaskFrom, if_neg h]; exact hm

theorem kMaskFrom_form (k m : Nat) (hm : ∃ j, m = 2 ^ j - 1) : ∃ j, kMaskFrom k m = 2 ^ j - 1 := by
  induction m using kMaskFrom.induct k with
  | case1 m h ih =>
    rw [kMaskFrom, if_pos h]
    refine ih ?_
    obtain ⟨j, rfl⟩ := hm
    refine ⟨j + 1, ?_⟩
    have := Nat.one_le_two_pow (n := j)
    rw [pow_succ]; omega
  | case2 m h => rw [kMaskFrom, if_neg h]; exact hm

theorem kMask_ge (k : Nat) : k ≤ kMask k := kMaskFrom_ge k 1
theorem kMask_lt (k : Nat) (hk : 0 < k) : kMask k < 2 * k := kMaskFrom_lt k 1 (by omega)
theorem kMask_form (k : Nat) : ∃ j, kMask k = 2 ^ j - 1 := kMaskFrom_form k 1 ⟨1, rfl⟩

theorem kMask_lt31 (k : Nat) (hk : 0 < k) (hk2 : k < 2 ^ 31) : kMask k < 2 ^ 31 := by
  obtain ⟨j, hj⟩ := kMask_form k
  have h := kMask_lt k hk
  by_contra hn
  have h1 : 2 ^ 31 ≤ kMask k := by omega
  rw [hj] at h1 h
  have : 2 ^ 31 < 2 ^ j := by omega
  have h32 : 2 ^ 32 ≤ 2 ^ j := Nat.pow_le_pow_right (by omega) ((Nat.pow_lt_pow_iff_right (by omega)).1 this)
  omega

/-- the index as a number -/
def idxN (k : Nat) (r : BitVec 32) : Nat :=
  if k ≤ r.toNat &&& kMask k then (r.toNat &&& kMask k) - k else r.toNat &&& kMask k

theorem idxN_lt (k : Nat) (hk : 0 < k) (r : BitVec 32) : idxN k r < k := by
  have h1 : r.toNat &&& kMask k ≤ kMask k := Nat.and_le_right
  have h2 := kMask_lt k hk
  unfold idxN
  split <;> omega

theorem lpnIndex_eq (k : Nat) (hk : 0 < k) (hk2 : k < 2 ^ 31) (r : BitVec 32) : lpnIndex k r = (idxN k r : Int) := by
  have h1 : r.toNat &&& kMask k ≤ kMask k := Nat.and_le_right
  have h2 := kMask_lt31 k hk hk2
  have h3 : (r &&& BitVec.ofNat 32 (kMask k)).toNat = r.toNat &&& kMask k := by
    rw [BitVec.toNat_and, BitVec.toNat_ofNat, Nat.mod_eq_of_lt (by omega)]
  have h4 : (r &&& BitVec.ofNat 32 (kMask k)).toInt = ((r.toNat &&& kMask k : Nat) : Int) := by
    rw [BitVec.toInt_eq_toNat_of_lt (by omega), h3]
  unfold lpnIndex idxN
  rw [h4]
  by_cases h : k ≤ r.toNat &&& kMask k
  · rw [if_pos (by exact_mod_cast h), if_pos h]; omega
  · rw [if_neg (by omega), if_neg h]

theorem lpnIndexU_eq (k : Nat) (hk : 0 < k) (hk2 : k < 2 ^ 31) (r : BitVec 32) : (lpnIndexU k r).toNat = idxN k r := by
  have h1 : r.toNat &&& kMask k ≤ kMask k := Nat.and_le_right
  have h2 := kMask_lt31 k hk hk2
  have h3 : (r &&& BitVec.ofNat 32 (kMask k)).toNat = r.toNat &&& kMask k := by
    rw [BitVec.toNat_and, BitVec.toNat_ofNat, Nat.mod_eq_of_lt (by omega)]
  have h5 : (BitVec.ofNat 32 k).toNat = k := by rw [BitVec.toNat_ofNat, Nat.mod_eq_of_lt (by omega)]
  unfold lpnIndexU idxN
  by_cases h : k ≤ r.toNat &&& kMask k
  · have hc : (r &&& BitVec.ofNat 32 (kMask k)) ≥ BitVec.ofNat 32 k := by
      rw [ge_iff_le, BitVec.le_def, h3, h5]; exact h
    simp only [if_pos h, if_pos hc]
    rw [BitVec.toNat_sub_of_le hc, h3, h5]
  · have hc : ¬ (r &&& BitVec.ofNat 32 (kMask k)) ≥ BitVec.ofNat 32 k := by
      rw [ge_iff_le, BitVec.le_def, h3, h5]; exact h
    simp only [if_neg h, if_neg hc]
    exact h3

/-! ### lanes -/

theorem accK_toNat (a : W) (p : U128) (h : a.toNat + (low64 p).toNat < 2 ^ 64) :
    (accK a p).toNat = a.toNat + (low64 p).toNat := by
  unfold accK
  rw [low64_toNat] at h ⊢
  rw [low64_toNat, BitVec.toNat_add, BitVec.toNat_setWidth]
  have := a.isLt
  have := p.isLt
  omega

theorem foldl_accK (ps : List U128) : ∀ a : W, a.toNat + (ps.map (fun p => (low64 p).toNat)).sum < 2 ^ 64 →
    (ps.foldl accK a).toNat = a.toNat + (ps.map (fun p => (low64 p).toNat)).sum := by
  induction ps with
  | nil => intro a _; simp
  | cons p ps ih =>
    intro a h
    rw [List.map_cons, List.sum_cons] at h
    rw [List.foldl_cons, ih, accK_toNat, List.map_cons, List.sum_cons]
    · omega
    · omega
    · rw [accK_toNat]
      · omega
      · omega

theorem sum_toNat_lt (qs : List Fp) : (qs.map (fun a => (toW a).toNat)).sum ≤ qs.length * (pN - 1) := by
  induction qs with
  | nil => simp
  | cons q qs ih =>
    rw [List.map_cons, List.sum_cons, List.length_cons, Nat.succ_mul]
    have := canon_toW q
    unfold Canon at this
    omega

theorem sum_cast (qs : List Fp) : (((qs.map (fun a => (toW a).toNat)).sum : Nat) : Fp) = qs.sum := by
  induction qs with
  | nil => simp
  | cons q qs ih =>
    rw [List.map_cons, List.sum_cons, List.sum_cons, Nat.cast_add, ih]
    have : (((toW q).toNat : Nat) : Fp) = q := by
      have := fp_toW q; unfold fp at this; exact this
    rw [this]

/-- sum of a word and at most five canonical ones -/
theorem foldl_accK_toW (a : W) (qs : List Fp) (ha : a.toNat + qs.length * (pN - 1) < 2 ^ 64) :
    ((qs.map (fun q => (toW q).setWidth 128)).foldl accK a).toNat ≤ a.toNat + qs.length * (pN - 1) ∧
    fp ((qs.map (fun q => (toW q).setWidth 128)).foldl accK a) = fp a + qs.sum := by
  have e : ((qs.map (fun q => (toW q).setWidth 128)).map (fun p : U128 => (low64 p).toNat)) = qs.map (fun a => (toW a).toNat) := by
    rw [List.map_map]
    refine List.map_congr_left ?_
    intro q _
    simp only [Function.comp, low64_setWidth]
  have hs := sum_toNat_lt qs
  have h := foldl_accK (qs.map (fun q => (toW q).setWidth 128)) a (by rw [e]; omega)
  rw [e] at h
  refine ⟨by omega, ?_⟩
  unfold fp
  rw [h, Nat.cast_add, sum_cast]

theorem mod64_fp (x : W) : mod64 x = toW (fp x) := eq_toW (canon_mod64 x) (fp_mod64 x)

theorem five_lt (x : Nat) (h : x < pN) : x + min 5 10 * (pN - 1) < 2 ^ 64 := by
  rw [show min 5 10 = 5 from rfl]; simp only [pN] at *; omega

theorem lpnAdd1Single_toW (f : Fp) (qs : List Fp) (hq : qs.length = 10) :
    lpnAdd1Single ((toW f).setWidth 128) (qs.map (fun q => (toW q).setWidth 128)) = (toW (f + qs.sum)).setWidth 128 := by
  unfold lpnAdd1Single
  simp only
  rw [low64_setWidth, ← List.map_take, ← List.map_drop]
  have hf := canon_toW f
  unfold Canon at hf
  have h1 := foldl_accK_toW (toW f) (qs.take 5) (by rw [List.length_take, hq]; exact five_lt _ hf)
  generalize List.foldl accK (toW f) ((qs.take 5).map _) = a at h1
  have h2 := foldl_accK_toW (mod64 a) (qs.drop 5) (by
    have := canon_mod64 a
    unfold Canon at this
    rw [List.length_drop, hq]; simp only [pN] at *; omega)
  rw [mod64_fp (List.foldl accK (mod64 a) _), h2.2, fp_mod64, h1.2, fp_toW, add_assoc, ← List.sum_append, List.take_append_drop]

theorem lpnAdd1_toW (f : Fp) (qs : List Fp) (hq : qs.length = 10) :
    lpnAdd1 ((toW f).setWidth 128) (qs.map (fun q => (toW q).setWidth 128)) = (toW (f + qs.sum)).setWidth 128 := by
  unfold lpnAdd1
  simp only
  rw [← List.map_take, ← List.map_drop]
  have hf := canon_toW f
  unfold Canon at hf
  have h1 := foldl_accK_toW 0 (qs.take 5) (by rw [List.length_take, hq]; simp)
  generalize List.foldl accK 0 ((qs.take 5).map _) = a at h1
  have hc := canon_mod64 a
  unfold Canon at hc
  have h2 := foldl_accK_toW (mod64 a) (qs.drop 5) (by
    rw [List.length_drop, hq]; simp only [pN] at *; omega)
  rw [List.length_drop, hq] at h2
  generalize List.foldl accK (mod64 a) _ = b at h2
  have h3 : (low64 ((toW f).setWidth 128 + b.setWidth 128)).toNat = (toW f).toNat + b.toNat := by
    rw [low64_toNat, BitVec.toNat_add, BitVec.toNat_setWidth, BitVec.toNat_setWidth]
    have := b.isLt
    simp only [pN] at *
    omega
  have h4 : fp (low64 ((toW f).setWidth 128 + b.setWidth 128)) = f + qs.sum := by
    have e1 := fp_toW f
    have e2 := h2.2
    rw [fp_mod64, h1.2, fp_zero, zero_add, ← List.sum_append, List.take_append_drop] at e2
    unfold fp at e1 e2 ⊢
    rw [h3, Nat.cast_add, e1, e2]
  rw [mod64_fp, h4]

theorem low64_foldl_vAdd (ps : List U128) : ∀ a, low64 (ps.foldl vAdd a) = (ps.map (fun p => (low64 p).setWidth 128)).foldl accK (low64 a) := by
  induction ps with
  | nil => intro a; rfl
  | cons p ps ih =>
    intro a
    rw [List.foldl_cons, ih, low64_vAdd, List.map_cons, List.foldl_cons]
    congr 1
    unfold accK
    apply BitVec.eq_of_toNat_eq
    simp only [low64_toNat, BitVec.toNat_add, BitVec.toNat_setWidth]
    omega

theorem high64_foldl_vAdd (ps : List U128) : ∀ a, high64 (ps.foldl vAdd a) = (ps.map (fun p => (high64 p).setWidth 128)).foldl accK (high64 a) := by
  induction ps with
  | nil => intro a; rfl
  | cons p ps ih =>
    intro a
    rw [List.foldl_cons, ih, high64_vAdd, List.map_cons, List.foldl_cons]
    congr 1
    unfold accK
    apply BitVec.eq_of_toNat_eq
    simp only [low64_toNat, high64_toNat, BitVec.toNat_add, BitVec.toNat_setWidth]
    have := a.isLt
    have := p.isLt
    omega

theorem low64_lpnAdd2 (M : U128) (ps : List U128) :
    low64 (lpnAdd2 M ps) = low64 (lpnAdd1Single ((low64 M).setWidth 128) (ps.map (fun p => (low64 p).setWidth 128))) := by
  unfold lpnAdd2 lpnAdd1Single
  simp only
  rw [low64_vecMod, low64_foldl_vAdd, low64_vecMod, low64_foldl_vAdd, low64_setWidth, low64_setWidth, List.map_take, List.map_drop]

theorem high64_lpnAdd2 (M : U128) (ps : List U128) :
    high64 (lpnAdd2 M ps) = low64 (lpnAdd1Single ((high64 M).setWidth 128) (ps.map (fun p => (high64 p).setWidth 128))) := by
  unfold lpnAdd2 lpnAdd1Single
  simp only
  rw [high64_vecMod, high64_foldl_vAdd, high64_vecMod, high64_foldl_vAdd, low64_setWidth, low64_setWidth, List.map_take, List.map_drop]

theorem lpnAdd2_lab (c : Fp × Fp) (qs : List (Fp × Fp)) (hq : qs.length = 10) :
    lpnAdd2 (lab c) (qs.map lab) = lab (c + qs.sum) := by
  have e1 : (qs.map lab).map (fun p => (low64 p).setWidth 128) = (qs.map (fun q => q.2)).map (fun q => ((toW q).setWidth 128 : U128)) := by
    rw [List.map_map, List.map_map]
    refine List.map_congr_left ?_
    intro q _
    simp only [Function.comp, lab, low64_makeBlock]
  have e2 : (qs.map lab).map (fun p => (high64 p).setWidth 128) = (qs.map (fun q => q.1)).map (fun q => ((toW q).setWidth 128 : U128)) := by
    rw [List.map_map, List.map_map]
    refine List.map_congr_left ?_
    intro q _
    simp only [Function.comp, lab, high64_makeBlock]
  have s2 : ∀ qs : List (Fp × Fp), (qs.map (fun q => q.2)).sum = qs.sum.2 := by
    intro qs; induction qs with
    | nil => rfl
    | cons q qs ih => rw [List.map_cons, List.sum_cons, List.sum_cons, ih]; rfl
  have s1 : ∀ qs : List (Fp × Fp), (qs.map (fun q => q.1)).sum = qs.sum.1 := by
    intro qs; induction qs with
    | nil => rfl
    | cons q qs ih => rw [List.map_cons, List.sum_cons, List.sum_cons, ih]; rfl
  apply block_ext
  · rw [high64_lpnAdd2, e2]
    simp only [lab, high64_makeBlock]
    rw [lpnAdd1Single_toW _ _ (by simpa using hq), low64_setWidth, s1]; rfl
  · rw [low64_lpnAdd2, e1]
    simp only [lab, low64_makeBlock]
    rw [lpnAdd1Single_toW _ _ (by simpa using hq), low64_setWidth, s2]; rfl

/-! ### runs -/

section Run
variable {α : Type} [AddCommMonoid α]

/-- what the lanes add to position `q` -/
def contrib (idx : Nat → Nat → Nat) (pf : Nat → α) (lanes : List (Nat × Nat × List Nat)) (q : Nat) : α :=
  ((lanes.filter (fun l => l.1 = q)).map (fun l => (l.2.2.map (fun w => pf (idx l.2.1 w))).sum)).sum

theorem contrib_nil (idx : Nat → Nat → Nat) (pf : Nat → α) (q : Nat) : contrib idx pf [] q = 0 := rfl

theorem contrib_append (idx : Nat → Nat → Nat) (pf : Nat → α) (l1 l2 : List (Nat × Nat × List Nat)) (q : Nat) :
    contrib idx pf (l1 ++ l2) q = contrib idx pf l1 q + contrib idx pf l2 q := by
  unfold contrib; rw [List.filter_append, List.map_append, List.sum_append]

theorem contrib_perm (idx : Nat → Nat → Nat) (pf : Nat → α) (l1 l2 : List (Nat × Nat × List Nat)) (h : l1.Perm l2) (q : Nat) :
    contrib idx pf l1 q = contrib idx pf l2 q := ((h.filter _).map _).sum_eq

omit [AddCommMonoid α] in
theorem entries_eq (enc : α → U128) (prp : Nat → Nat → BitVec 32) (k : Nat) (hk : 0 < k) (hk2 : k < 2 ^ 31) (pf : Nat → α)
    (i : Nat) (ws : List Nat) : lpnEntries prp k ((List.range k).map (fun j => enc (pf j))) i ws =
      some ((ws.map (fun w => pf (idxN k (prp i w)))).map enc) := by
  unfold lpnEntries
  rw [mapM_some ws _ (fun w => enc (pf (idxN k (prp i w))))]
  · rw [List.map_map]; rfl
  · intro w _
    rw [lpnIndex_eq k hk hk2, atInt, if_pos (by omega), Int.toNat_natCast, List.getElem?_map,
      List.getElem?_range (idxN_lt k hk _)]
    rfl

theorem lane_run (enc : α → U128) (F : U128 → List U128 → U128)
    (hF : ∀ a (qs : List α), qs.length = 10 → F (enc a) (qs.map enc) = enc (a + qs.sum))
    (prp : Nat → Nat → BitVec 32) (k : Nat) (hk : 0 < k) (hk2 : k < 2 ^ 31) (pf f : Nat → α) (n : Nat)
    (l : Nat × Nat × List Nat) (hl : l.1 < n) (hw : l.2.2.length = 10) :
    (do
      let ps ← lpnEntries prp k ((List.range k).map (fun j => enc (pf j))) l.2.1 l.2.2
      lpnUpdate F ((List.range n).map (fun q => enc (f q))) l.1 ps) =
      some ((List.range n).map (fun q => enc (f q + contrib (fun i w => idxN k (prp i w)) pf [l] q))) := by
  rw [entries_eq enc prp k hk hk2]
  show lpnUpdate F _ _ _ = _
  unfold lpnUpdate
  rw [List.getElem?_map, List.getElem?_range hl]
  show some _ = _
  refine congrArg some ?_
  rw [hF _ _ (by simpa using hw)]
  apply List.ext_getElem?
  intro q
  rw [List.getElem?_set]
  by_cases hq : q < n
  · rw [List.getElem?_map, List.getElem?_map, List.getElem?_range hq]
    by_cases h : l.1 = q
    · rw [if_pos h, if_pos (by simpa using hl)]
      subst h
      simp [contrib]
    · rw [if_neg h]
      simp [contrib, h]
  · rw [List.getElem?_eq_none (by simp; omega), List.getElem?_eq_none (by simp; omega)]
    rw [if_neg (by omega)]

theorem lanes_run (enc : α → U128) (F : U128 → List U128 → U128)
    (hF : ∀ a (qs : List α), qs.length = 10 → F (enc a) (qs.map enc) = enc (a + qs.sum))
    (prp : Nat → Nat → BitVec 32) (k : Nat) (hk : 0 < k) (hk2 : k < 2 ^ 31) (pf : Nat → α) (n : Nat)
    (lanes : List (Nat × Nat × List Nat)) : ∀ f : Nat → α, (∀ l ∈ lanes, l.1 < n ∧ l.2.2.length = 10) →
    lanes.foldlM (fun A l => (do
      let ps ← lpnEntries prp k ((List.range k).map (fun j => enc (pf j))) l.2.1 l.2.2
      lpnUpdate F A l.1 ps)) ((List.range n).map (fun q => enc (f q))) =
      some ((List.range n).map (fun q => enc (f q + contrib (fun i w => idxN k (prp i w)) pf lanes q))) := by
  induction lanes with
  | nil => intro f _; simp [contrib_nil]
  | cons l ls ih =>
    intro f h
    rw [List.foldlM_cons, lane_run enc F hF prp k hk hk2 pf f n l (h l (by simp)).1 (h l (by simp)).2]
    show List.foldlM _ _ ls = _
    rw [ih _ (fun l' hl' => h l' (by simp [hl']))]
    refine congrArg some (List.map_congr_left ?_)
    intro q _
    rw [show l :: ls = [l] ++ ls from rfl, contrib_append, add_assoc]

end Run

theorem lanes_len (op : LpnOp) : ∀ l ∈ op.lanes, l.2.2.length = 10 := by
  cases op with
  | single j => intro l hl; simp only [LpnOp.lanes, List.mem_singleton] at hl; subst hl; simp
  | quad j =>
    intro l hl
    simp only [LpnOp.lanes, List.mem_map] at hl
    obtain ⟨a, _, rfl⟩ := hl
    simp

theorem stepSend_eq (prp : Nat → Nat → BitVec 32) (k : Nat) (hk : 0 < k) (hk2 : k < 2 ^ 31) (pf : Nat → Fp) (n : Nat)
    (op : LpnOp) (h : ∀ l ∈ op.lanes, l.1 < n) (f : Nat → Fp) :
    lpnStepSend prp k ((List.range k).map (fun j => (toW (pf j)).setWidth 128)) ((List.range n).map (fun j => (toW (f j)).setWidth 128)) op =
      some ((List.range n).map (fun q => (toW (f q + contrib (fun i w => idxN k (prp i w)) pf op.lanes q)).setWidth 128)) := by
  cases op with
  | single j =>
    exact lanes_run (fun a => (toW a).setWidth 128) lpnAdd1Single lpnAdd1Single_toW prp k hk hk2 pf n _ f
      (fun l hl => ⟨h l hl, lanes_len _ l hl⟩)
  | quad j =>
    exact lanes_run (fun a => (toW a).setWidth 128) lpnAdd1 lpnAdd1_toW prp k hk hk2 pf n _ f
      (fun l hl => ⟨h l hl, lanes_len _ l hl⟩)

theorem stepRecv_eq (prp : Nat → Nat → BitVec 32) (k : Nat) (hk : 0 < k) (hk2 : k < 2 ^ 31) (pf : Nat → Fp × Fp) (n : Nat)
    (op : LpnOp) (h : ∀ l ∈ op.lanes, l.1 < n) (f : Nat → Fp × Fp) :
    lpnStepRecv prp k ((List.range k).map (fun j => lab (pf j))) ((List.range n).map (fun j => lab (f j))) op =
      some ((List.range n).map (fun q => lab (f q + contrib (fun i w => idxN k (prp i w)) pf op.lanes q))) :=
  lanes_run lab lpnAdd2 lpnAdd2_lab prp k hk hk2 pf n _ f (fun l hl => ⟨h l hl, lanes_len _ l hl⟩)

theorem runSend_eq (prp : Nat → Nat → BitVec 32) (k : Nat) (hk : 0 < k) (hk2 : k < 2 ^ 31) (pf : Nat → Fp) (n : Nat)
    (ops : List LpnOp) : ∀ (f : Nat → Fp), (∀ op ∈ ops, ∀ l ∈ op.lanes, l.1 < n) →
    lpnRunSend prp k ((List.range k).map (fun j => (toW (pf j)).setWidth 128)) ops ((List.range n).map (fun j => (toW (f j)).setWidth 128)) =
      some ((List.range n).map (fun q => (toW (f q + contrib (fun i w => idxN k (prp i w)) pf (ops.flatMap LpnOp.lanes) q)).setWidth 128)) := by
  induction ops with
  | nil => intro f _; simp [lpnRunSend, contrib_nil]
  | cons op ops ih =>
    intro f h
    unfold lpnRunSend
    rw [List.foldlM_cons, stepSend_eq prp k hk hk2 pf n op (h op (by simp)) f]
    show List.foldlM _ _ ops = _
    have := ih (fun q => f q + contrib (fun i w => idxN k (prp i w)) pf op.lanes q) (fun o ho => h o (by simp [ho]))
    unfold lpnRunSend at this
    rw [this]
    refine congrArg some (List.map_congr_left ?_)
    intro q _
    rw [List.flatMap_cons, contrib_append, add_assoc]

theorem runRecv_eq (prp : Nat → Nat → BitVec 32) (k : Nat) (hk : 0 < k) (hk2 : k < 2 ^ 31) (pf : Nat → Fp × Fp) (n : Nat)
    (ops : List LpnOp) : ∀ (f : Nat → Fp × Fp), (∀ op ∈ ops, ∀ l ∈ op.lanes, l.1 < n) →
    lpnRunRecv prp k ((List.range k).map (fun j => lab (pf j))) ops ((List.range n).map (fun j => lab (f j))) =
      some ((List.range n).map (fun q => lab (f q + contrib (fun i w => idxN k (prp i w)) pf (ops.flatMap LpnOp.lanes) q))) := by
  induction ops with
  | nil => intro f _; simp [lpnRunRecv, contrib_nil]
  | cons op ops ih =>
    intro f h
    unfold lpnRunRecv
    rw [List.foldlM_cons, stepRecv_eq prp k hk hk2 pf n op (h op (by simp)) f]
    show List.foldlM _ _ ops = _
    have := ih (fun q => f q + contrib (fun i w => idxN k (prp i w)) pf op.lanes q) (fun o ho => h o (by simp [ho]))
    unfold lpnRunRecv at this
    rw [this]
    refine congrArg some (List.map_congr_left ?_)
    intro q _
    rw [List.flatMap_cons, contrib_append, add_assoc]

/-! ### coverage -/

/-- positions written by a list of steps -/
def opsPos (ops : List LpnOp) : List Nat := (ops.flatMap LpnOp.lanes).map (fun l => l.1)

theorem opsPos_lpnOps (start stop : Nat) : opsPos (lpnOps start stop) = List.range' start (stop - start) := by
  induction start using lpnOps.induct (stop := stop) with
  | case1 s h ih =>
    rw [lpnOps, if_pos h]
    unfold opsPos at ih ⊢
    rw [List.flatMap_cons, List.map_append, ih]
    have e : stop - s = 4 + (stop - (s + 4)) := by omega
    rw [e, ← List.range'_append_1]
    rfl
  | case2 s h =>
    rw [lpnOps, if_neg h]
    unfold opsPos
    rw [List.flatMap_map, List.range'_eq_map_range]
    generalize stop - s = m
    clear h
    induction m with
    | zero => rfl
    | succ m ih => rw [List.range_succ, List.flatMap_append, List.map_append, List.map_append, ih]; rfl

theorem opsPos_append (a b : List LpnOp) : opsPos (a ++ b) = opsPos a ++ opsPos b := by
  unfold opsPos; rw [List.flatMap_append, List.map_append]

theorem tasks_eq (n threads : Nat) : lpnTasks n threads =
    (List.range (threads + 1)).map (fun i => lpnOps (i * (n / (threads + 1))) ((i + 1) * (n / (threads + 1)))) := by
  have hle : (threads + 1) * (n / (threads + 1)) ≤ n := Nat.mul_div_le _ _
  unfold lpnTasks
  simp only
  rw [List.range_succ, List.map_append, List.map_cons, List.map_nil]
  generalize n / (threads + 1) = w at hle
  have e1 : (List.range threads).map (fun i => lpnOps (i * w) (min ((i + 1) * w) n)) =
      (List.range threads).map (fun i => lpnOps (i * w) ((i + 1) * w)) := by
    refine List.map_congr_left ?_
    intro i hi
    have hi' := List.mem_range.1 hi
    rw [Nat.min_eq_left]
    exact le_trans (Nat.mul_le_mul_right _ (by omega)) hle
  rw [e1, Nat.min_eq_left hle]

theorem opsPos_tasks (n threads : Nat) : opsPos (lpnTasks n threads).flatten = List.range ((threads + 1) * (n / (threads + 1))) := by
  rw [tasks_eq]
  generalize n / (threads + 1) = w
  generalize threads + 1 = m
  induction m with
  | zero => simp [opsPos]
  | succ m ih =>
    rw [List.range_succ, List.map_append, List.flatten_append, opsPos_append, ih, List.map_cons, List.map_nil,
      List.flatten_cons, List.flatten_nil, List.append_nil, opsPos_lpnOps, Nat.succ_mul, List.range_add,
      Nat.add_sub_cancel_left, List.range'_eq_map_range]

/-- the outputs of a run on valid correlations -/
theorem lpn_run_auth (prp : Nat → Nat → BitVec 32) (n k : Nat) (hk : 0 < k) (hk2 : k < 2 ^ 31) (delta : W)
    (K M preK preM : Nat → U128) (hA : ∀ i, i < n → Auth delta (M i) (K i)) (hP : ∀ j, j < k → Auth delta (preM j) (preK j))
    (ops : List LpnOp) (hops : ∀ op ∈ ops, ∀ l ∈ op.lanes, l.1 < n) :
    lpnRunSend prp k ((List.range k).map preK) ops ((List.range n).map K) = some ((List.range n).map (fun q =>
      (toW (fp (low64 (K q)) + contrib (fun i w => idxN k (prp i w)) (fun j => fp (low64 (preK j))) (ops.flatMap LpnOp.lanes) q)).setWidth 128)) ∧
    lpnRunRecv prp k ((List.range k).map preM) ops ((List.range n).map M) = some ((List.range n).map (fun q =>
      lab ((fp (high64 (M q)), fp (low64 (M q))) +
        contrib (fun i w => idxN k (prp i w)) (fun j => (fp (high64 (preM j)), fp (low64 (preM j)))) (ops.flatMap LpnOp.lanes) q))) := by
  have eK : ∀ (m : Nat) (A B : Nat → U128), (∀ i, i < m → Auth delta (B i) (A i)) →
      (List.range m).map A = (List.range m).map (fun j => (toW (fp (low64 (A j)))).setWidth 128) := by
    intro m A B h
    refine List.map_congr_left ?_
    intro i hi
    have ha := h i (List.mem_range.1 hi)
    apply block_ext
    · rw [ha.top, high64_wide]
    · rw [low64_setWidth, toW_fp ha.key]
  have eM : ∀ (m : Nat) (A B : Nat → U128), (∀ i, i < m → Auth delta (B i) (A i)) →
      (List.range m).map B = (List.range m).map (fun j => lab (fp (high64 (B j)), fp (low64 (B j)))) := by
    intro m A B h
    refine List.map_congr_left ?_
    intro i hi
    have ha := h i (List.mem_range.1 hi)
    apply block_ext
    · rw [lab, high64_makeBlock, toW_fp ha.value]
    · rw [lab, low64_makeBlock, toW_fp ha.mac]
  constructor
  · rw [eK k preK preM hP, eK n K M hA]
    exact runSend_eq prp k hk hk2 _ n ops _ hops
  · rw [eM k preK preM hP, eM n K M hA]
    exact runRecv_eq prp k hk hk2 _ n ops _ hops

theorem contrib_list (idx : Nat → Nat → Nat) (lanes : List (Nat × Nat × List Nat)) (q : Nat) :
    ∃ js : List Nat, (∀ j ∈ js, ∃ i w, j = idx i w) ∧ js.length = ((lanes.filter (fun l => l.1 = q)).map (fun l => l.2.2.length)).sum ∧
      ∀ (α : Type) [AddCommMonoid α] (pf : Nat → α), contrib idx pf lanes q = (js.map pf).sum := by
  refine ⟨(lanes.filter (fun l => l.1 = q)).flatMap (fun l => l.2.2.map (fun w => idx l.2.1 w)), ?_, ?_, ?_⟩
  · intro j hj
    obtain ⟨l, _, hl⟩ := List.mem_flatMap.1 hj
    obtain ⟨w, _, rfl⟩ := List.mem_map.1 hl
    exact ⟨_, _, rfl⟩
  · rw [List.length_flatMap]
    simp
  · intro α _ pf
    unfold contrib
    generalize lanes.filter (fun l => l.1 = q) = L
    induction L with
    | nil => rfl
    | cons l L ih =>
      rw [List.map_cons, List.sum_cons, ih, List.flatMap_cons, List.map_append, List.sum_append, List.map_map]
      rfl

theorem count_lanes (n threads q : Nat) :
    ((((lpnTasks n threads).flatten.flatMap LpnOp.lanes).filter (fun l => l.1 = q)).map (fun l => l.2.2.length)).sum =
      10 * (opsPos (lpnTasks n threads).flatten).count q := by
  unfold opsPos
  have hl : ∀ l ∈ (lpnTasks n threads).flatten.flatMap LpnOp.lanes, l.2.2.length = 10 := by
    intro l hl
    obtain ⟨op, _, h⟩ := List.mem_flatMap.1 hl
    exact lanes_len op l h
  generalize (lpnTasks n threads).flatten.flatMap LpnOp.lanes = L at hl
  induction L with
  | nil => rfl
  | cons l L ih =>
    have ih := ih (fun l' h => hl l' (by simp [h]))
    rw [List.map_cons, List.count_cons, List.filter_cons]
    by_cases h : l.1 = q
    · rw [if_pos (by simpa using h), List.map_cons, List.sum_cons, ih, hl l (by simp), if_pos (by simpa using h)]
      ring
    · rw [if_neg (by simpa using h), ih, if_neg (by simpa using h), Nat.add_zero]

theorem count_range (m q : Nat) : (List.range m).count q = if q < m then 1 else 0 := by
  rw [List.nodup_range.count]
  simp

theorem mem_opsPos (n threads : Nat) : ∀ op ∈ (lpnTasks n threads).flatten, ∀ l ∈ op.lanes, l.1 < n := by
  intro op hop l hl
  have : l.1 ∈ opsPos (lpnTasks n threads).flatten := by
    unfold opsPos
    exact List.mem_map.2 ⟨l, List.mem_flatMap.2 ⟨op, hop, hl⟩, rfl⟩
  rw [opsPos_tasks, List.mem_range] at this
  exact lt_of_lt_of_le this (Nat.mul_div_le _ _)

end EmpZk
