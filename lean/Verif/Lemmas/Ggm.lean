import Verif.Model.Spfss
import Verif.Spec.Ggm
import Mathlib.Tactic.Ring
import Mathlib.Tactic.Linarith

namespace EmpZk

variable (G0 G1 : U128 → U128)

theorem xor0 (x : U128) : x ^^^ (0 : U128) = x := BitVec.xor_zero
theorem zero_xor' (x : U128) : (0 : U128) ^^^ x = x := BitVec.zero_xor

theorem Mem.set_eq (mem : Mem) (i : Nat) (x : U128) : mem.set i x i = x := if_pos rfl
theorem Mem.set_ne (mem : Mem) {i k : Nat} (x : U128) (h : k ≠ i) : mem.set i x k = mem k := if_neg h

/-- child of a node -/
def child (k : Nat) (x : U128) : U128 := if k % 2 = 0 then G0 x else G1 x

theorem ggmNode_succ (seed : U128) (h k : Nat) : ggmNode G0 G1 seed (h + 1) k = child G0 G1 k (ggmNode G0 G1 seed h (k / 2)) := rfl

theorem expand2to4_in (mem : Mem) (j k : Nat) (h1 : 4 * j ≤ k) (h2 : k < 4 * j + 4) :
    expand2to4 G0 G1 mem (2 * j) k = child G0 G1 k (mem (k / 2)) := by
  obtain h | h | h | h : k = 4 * j ∨ k = 4 * j + 1 ∨ k = 4 * j + 2 ∨ k = 4 * j + 3 := by omega
  all_goals
    subst h
    simp only [expand2to4, Mem.set, child]
  · rw [if_neg (by omega), if_neg (by omega), if_neg (by omega), if_pos (by omega), if_pos (by omega)]
    congr 2
    omega
  · rw [if_neg (by omega), if_neg (by omega), if_pos (by omega), if_neg (by omega)]
    congr 2
    omega
  · rw [if_neg (by omega), if_pos (by omega), if_pos (by omega)]
    congr 2
    omega
  · rw [if_pos (by omega), if_neg (by omega)]
    congr 2
    omega

theorem expand2to4_out (mem : Mem) (j k : Nat) (h : k < 4 * j ∨ 4 * j + 4 ≤ k) : expand2to4 G0 G1 mem (2 * j) k = mem k := by
  simp only [expand2to4, Mem.set]
  rw [if_neg (by omega), if_neg (by omega), if_neg (by omega), if_neg (by omega)]

theorem expandLoop_in (n : Nat) (mem : Mem) (k : Nat) (h : k < 4 * n) :
    expandLoop G0 G1 n mem k = child G0 G1 k (mem (k / 2)) := by
  induction n generalizing mem with
  | zero => omega
  | succ n ih =>
    rw [expandLoop]
    by_cases hk : k < 4 * n
    · rw [ih _ hk, expand2to4_out _ _ _ _ _ (Or.inl (by omega))]
    · have hout : ∀ m (mem : Mem), m ≤ n → expandLoop G0 G1 m mem k = mem k := by
        intro m
        induction m with
        | zero => intro _ _; rfl
        | succ m ihm =>
          intro mem hm
          rw [expandLoop, ihm _ (by omega), expand2to4_out _ _ _ _ _ (Or.inr (by omega))]
      rw [hout n _ (le_refl _), expand2to4_in _ _ _ _ _ (by omega) (by omega)]

theorem expandLoop_out (n : Nat) (mem : Mem) (k : Nat) (h : 4 * n ≤ k) : expandLoop G0 G1 n mem k = mem k := by
  induction n generalizing mem with
  | zero => rfl
  | succ n ih => rw [expandLoop, ih _ (by omega), expand2to4_out _ _ _ _ _ (Or.inr (by omega))]

theorem xorStride_congr (f g : Mem) (lr n : Nat) (h : ∀ j, j < n → f (lr + 2 * j) = g (lr + 2 * j)) :
    xorStride f lr n = xorStride g lr n := by
  induction n with
  | zero => rfl
  | succ n ih => rw [xorStride, xorStride, ih (fun j hj => h j (by omega)), h n (by omega)]

theorem expandAcc_eq (n : Nat) (mem : Mem) (a b : U128) :
    expandAcc G0 G1 n mem a b = (expandLoop G0 G1 n mem, a ^^^ xorStride (expandLoop G0 G1 n mem) 0 (2 * n),
      b ^^^ xorStride (expandLoop G0 G1 n mem) 1 (2 * n)) := by
  induction n generalizing mem a b with
  | zero => simp [expandAcc, expandLoop, xorStride]
  | succ n ih =>
    rw [expandAcc, ih, expandLoop]
    have e : 2 * (n + 1) = 2 * n + 1 + 1 := by omega
    have h : ∀ k, 4 * n ≤ k → expandLoop G0 G1 n (expand2to4 G0 G1 mem (2 * n)) k = expand2to4 G0 G1 mem (2 * n) k :=
      fun k hk => expandLoop_out G0 G1 n _ k hk
    simp only [e, xorStride]
    rw [h (0 + 2 * (2 * n)) (by omega), h (0 + 2 * (2 * n + 1)) (by omega), h (1 + 2 * (2 * n)) (by omega),
      h (1 + 2 * (2 * n + 1)) (by omega)]
    have e1 : 0 + 2 * (2 * n) = 4 * n := by omega
    have e2 : 0 + 2 * (2 * n + 1) = 4 * n + 2 := by omega
    have e3 : 1 + 2 * (2 * n) = 4 * n + 1 := by omega
    have e4 : 1 + 2 * (2 * n + 1) = 4 * n + 3 := by omega
    rw [e1, e2, e3, e4]
    have ac : ∀ a p q r : U128, a ^^^ p ^^^ q ^^^ r = a ^^^ (r ^^^ p ^^^ q) := by
      intro a p q r
      rw [BitVec.xor_assoc a p q, BitVec.xor_assoc a (p ^^^ q) r, BitVec.xor_comm (p ^^^ q) r, BitVec.xor_assoc r p q]
    rw [ac, ac]

/-! ### the sender -/

theorem ggmGen_mem (seed : U128) (mem0 : Mem) (h k : Nat) (hk : k < 2 ^ (h + 1)) :
    (ggmGen G0 G1 seed mem0 h).1 k = ggmNode G0 G1 seed (h + 1) k := by
  induction h generalizing k with
  | zero =>
    obtain h | h : k = 0 ∨ k = 1 := by omega
    · subst h; rfl
    · subst h; rfl
  | succ h ih =>
    simp only [ggmGen, expandAcc_eq]
    have e : 2 ^ (h + 1 + 1) = 4 * 2 ^ h := by ring
    rw [expandLoop_in _ _ _ _ _ (by omega), ih _ (by omega), ggmNode_succ _ _ _ (h + 1)]

theorem ggmGen_frame (seed : U128) (mem0 : Mem) (h k : Nat) (hk : 2 ^ (h + 1) ≤ k) : (ggmGen G0 G1 seed mem0 h).1 k = mem0 k := by
  induction h generalizing k with
  | zero =>
    have : 2 ≤ k := by simpa using hk
    simp only [ggmGen, Mem.set]
    rw [if_neg (by omega), if_neg (by omega)]
  | succ h ih =>
    simp only [ggmGen, expandAcc_eq]
    have e : 2 ^ (h + 1 + 1) = 4 * 2 ^ h := by ring
    rw [expandLoop_out _ _ _ _ _ (by omega), ih _ (by omega)]

theorem ggmGen_msgs (seed : U128) (mem0 : Mem) (h : Nat) :
    (ggmGen G0 G1 seed mem0 h).2 = (List.range (h + 1)).map (fun i =>
      (xorStride (ggmNode G0 G1 seed (i + 1)) 0 (2 ^ i), xorStride (ggmNode G0 G1 seed (i + 1)) 1 (2 ^ i))) := by
  induction h with
  | zero =>
    simp [ggmGen, xorStride, Mem.set, ggmNode]
  | succ h ih =>
    have hm : ∀ lr, lr < 2 → xorStride (ggmGen G0 G1 seed mem0 (h + 1)).1 lr (2 ^ (h + 1)) =
        xorStride (ggmNode G0 G1 seed (h + 1 + 1)) lr (2 ^ (h + 1)) := by
      intro lr hlr
      refine xorStride_congr _ _ _ _ ?_
      intro j hj
      refine ggmGen_mem G0 G1 seed mem0 (h + 1) _ ?_
      have e : 2 ^ (h + 1 + 1) = 2 * 2 ^ (h + 1) := by ring
      omega
    rw [List.range_succ, List.map_append, ← ih, List.map_cons, List.map_nil, ← hm 0 (by omega), ← hm 1 (by omega)]
    have e : 2 ^ (h + 1) = 2 * 2 ^ h := by ring
    simp only [ggmGen, expandAcc_eq, e, zero_xor']

/-! ### the receiver -/

theorem getIndex_lt (b : Nat → Bool) (n : Nat) : getIndex b n < 2 ^ n := by
  induction n with
  | zero => simp [getIndex]
  | succ n ih =>
    rw [getIndex, pow_succ]
    split <;> omega

theorem getIndex_eq (b : Nat → Bool) (n : Nat) : getIndex b n = puncturedAt b n := by
  induction n with
  | zero => rfl
  | succ n ih =>
    rw [getIndex, ih, puncturedAt, puncturedAt, List.range_succ, List.map_append, List.reverse_append]
    simp only [List.map_cons, List.map_nil, List.reverse_cons, List.reverse_nil, List.nil_append, List.singleton_append,
      Nat.ofDigits_cons]
    cases b n <;> simp <;> ring

theorem xorStride_hole (f g : Mem) (lr n j0 : Nat) (hj : j0 < n) (h0 : f (lr + 2 * j0) = 0)
    (h : ∀ j, j < n → j ≠ j0 → f (lr + 2 * j) = g (lr + 2 * j)) :
    xorStride f lr n ^^^ xorStride g lr n = g (lr + 2 * j0) := by
  induction n with
  | zero => omega
  | succ n ih =>
    rw [xorStride, xorStride]
    by_cases e : j0 = n
    · subst e
      rw [xorStride_congr f g lr j0 (fun j hj' => h j (by omega) (by omega)), h0, xor0, ← BitVec.xor_assoc,
        BitVec.xor_self, BitVec.zero_xor]
    · have := ih (by omega) (fun j hj' hne => h j (by omega) hne)
      rw [h n (by omega) (by omega), ← this]
      generalize xorStride f lr n = x
      generalize xorStride g lr n = y
      generalize g (lr + 2 * n) = z
      rw [BitVec.xor_comm y z, ← BitVec.xor_assoc, BitVec.xor_assoc x z z, BitVec.xor_self, BitVec.xor_zero]

theorem ggmRecon_fill (levels : Nat) (b : Nat → Bool) (m : Nat → U128) (mem0 : Mem) (i : Nat) :
    (ggmRecon G0 G1 levels b m mem0 i).1 = getIndex b i := by
  induction i with
  | zero => rfl
  | succ i ih =>
    rw [ggmRecon, getIndex]
    simp only [ih]
    cases b i <;> simp <;> ring

/-- one layer: the missing sibling is recovered -/
theorem layer_fill (T : Mem) (mem : Mem) (i f lr : Nat) (hf : f < 2 ^ i) (hlr : lr < 2)
    (h : ∀ k, k < 2 ^ (i + 1) → k / 2 ≠ f → mem k = T k) (k : Nat) (hk : k < 2 ^ (i + 1)) (hne : k ≠ 2 * f + (1 - lr)) :
    (((mem.set (f * 2 + 1) 0).set (f * 2) 0).set (f * 2 + lr)
      (xorStride ((mem.set (f * 2 + 1) 0).set (f * 2) 0) lr (2 ^ i) ^^^ xorStride T lr (2 ^ i))) k = T k := by
  have e : 2 ^ (i + 1) = 2 * 2 ^ i := by ring
  by_cases hk0 : k = f * 2 + lr
  · subst hk0
    rw [Mem.set_eq]
    have := xorStride_hole ((mem.set (f * 2 + 1) 0).set (f * 2) 0) T lr (2 ^ i) f hf ?_ ?_
    · rw [this]; congr 1; omega
    · simp only [Mem.set]
      by_cases h0 : lr = 0
      · rw [if_pos (by omega)]
      · rw [if_neg (by omega), if_pos (by omega)]
    · intro j hj hjf
      simp only [Mem.set]
      rw [if_neg (by omega), if_neg (by omega), h _ (by omega) (by omega)]
  · rw [Mem.set_ne _ _ hk0]
    simp only [Mem.set]
    rw [if_neg (by omega), if_neg (by omega), h _ (by omega) (by omega)]

theorem ggmRecon_mem (levels : Nat) (b : Nat → Bool) (m : Nat → U128) (mem0 : Mem) (seed : U128)
    (hm : ∀ i, i < levels → m i = xorStride (ggmNode G0 G1 seed (i + 1)) (if b i then 1 else 0) (2 ^ i)) (i : Nat)
    (hi : i ≤ levels) :
    if i = levels then ∀ k, 0 < levels → k < 2 ^ i → k ≠ getIndex b i →
        (ggmRecon G0 G1 levels b m mem0 i).2 k = ggmNode G0 G1 seed i k
    else ∀ k, k < 2 ^ (i + 1) → k / 2 ≠ getIndex b i →
        (ggmRecon G0 G1 levels b m mem0 i).2 k = ggmNode G0 G1 seed (i + 1) k := by
  induction i with
  | zero =>
    by_cases h0 : 0 = levels
    · rw [if_pos h0]; omega
    · rw [if_neg h0]
      intro k hk hne
      simp only [getIndex, pow_one, zero_add] at hne hk
      omega
  | succ i ih =>
    have ih' := ih (by omega)
    rw [if_neg (by omega)] at ih'
    -- memory before the expansion of the layer
    have step : ∃ mem' : Mem, (∀ k, k < 2 ^ (i + 1) → k ≠ getIndex b (i + 1) → mem' k = ggmNode G0 G1 seed (i + 1) k) ∧
        (ggmRecon G0 G1 levels b m mem0 (i + 1)).2 =
          if i + 1 = levels then mem' else expandLoop G0 G1 (2 ^ i) mem' := by
      rw [ggmRecon]
      simp only [ggmRecon_fill, getIndex]
      have hmi := hm i (by omega)
      cases hb : b i
      · rw [hb] at hmi
        simp only [Bool.false_eq_true, if_false] at hmi
        refine ⟨(((ggmRecon G0 G1 levels b m mem0 i).2.set (getIndex b i * 2 + 1) 0).set (getIndex b i * 2) 0).set
          (getIndex b i * 2) (xorStride (((ggmRecon G0 G1 levels b m mem0 i).2.set (getIndex b i * 2 + 1) 0).set
            (getIndex b i * 2) 0) 0 (2 ^ i) ^^^ xorStride (ggmNode G0 G1 seed (i + 1)) 0 (2 ^ i)), ?_, ?_⟩
        rotate_left
        · simp only [if_true, layerRecover, Nat.add_sub_cancel, hmi]
        · intro k hk hne
          have := layer_fill (ggmNode G0 G1 seed (i + 1)) (ggmRecon G0 G1 levels b m mem0 i).2 i (getIndex b i) 0
            (getIndex_lt b i) (by omega) ih' k hk (by simpa using hne)
          simpa using this
      · rw [hb] at hmi
        simp only [if_true] at hmi
        refine ⟨(((ggmRecon G0 G1 levels b m mem0 i).2.set (getIndex b i * 2 + 1) 0).set (getIndex b i * 2) 0).set
          (getIndex b i * 2 + 1) (xorStride (((ggmRecon G0 G1 levels b m mem0 i).2.set (getIndex b i * 2 + 1) 0).set
            (getIndex b i * 2) 0) 1 (2 ^ i) ^^^ xorStride (ggmNode G0 G1 seed (i + 1)) 1 (2 ^ i)), ?_, ?_⟩
        rotate_left
        · simp only [Bool.true_eq_false, if_false, layerRecover, Nat.add_sub_cancel, hmi]
        · intro k hk hne
          exact layer_fill (ggmNode G0 G1 seed (i + 1)) (ggmRecon G0 G1 levels b m mem0 i).2 i (getIndex b i) 1
            (getIndex_lt b i) (by omega) ih' k hk (by simpa using hne)
    obtain ⟨mem', h1, h2⟩ := step
    rw [h2]
    by_cases hl : i + 1 = levels
    · simp only [if_pos hl]
      intro k _ hk hne
      exact h1 k hk hne
    · simp only [if_neg hl]
      intro k hk hne
      have e : 2 ^ (i + 1 + 1) = 4 * 2 ^ i := by ring
      have e' : 2 ^ (i + 1) = 2 * 2 ^ i := by ring
      rw [expandLoop_in _ _ _ _ _ (by omega), h1 _ (by omega) hne, ggmNode_succ _ _ _ (i + 1)]

theorem ggmRecon_frame (levels : Nat) (b : Nat → Bool) (m : Nat → U128) (mem0 : Mem) (i : Nat) (hi : i ≤ levels) (k : Nat)
    (hk : 2 ^ levels ≤ k) : (ggmRecon G0 G1 levels b m mem0 i).2 k = mem0 k := by
  induction i with
  | zero => rfl
  | succ i ih =>
    rw [ggmRecon]
    simp only [ggmRecon_fill]
    have hf := getIndex_lt b i
    have hp : 2 ^ (i + 1) ≤ 2 ^ levels := Nat.pow_le_pow_right (by omega) hi
    have e' : 2 ^ (i + 1) = 2 * 2 ^ i := by ring
    have gen : ∀ lr fill sum, fill < 2 ^ (i + 1) →
        layerRecover G0 G1 levels (i + 1) lr fill sum
          (((ggmRecon G0 G1 levels b m mem0 i).2.set (getIndex b i * 2 + 1) 0).set (getIndex b i * 2) 0) k = mem0 k := by
      intro lr fill sum hfill
      have base : ∀ x, ((((ggmRecon G0 G1 levels b m mem0 i).2.set (getIndex b i * 2 + 1) 0).set (getIndex b i * 2) 0).set fill x) k
          = mem0 k := by
        intro x
        simp only [Mem.set]
        rw [if_neg (by omega), if_neg (by omega), if_neg (by omega), ih (by omega)]
      simp only [layerRecover, Nat.add_sub_cancel]
      by_cases hl : i + 1 = levels
      · rw [if_pos hl]; exact base _
      · rw [if_neg hl, expandLoop_out, base]
        have hp2 : 2 ^ (i + 2) ≤ 2 ^ levels := Nat.pow_le_pow_right (by omega) (by omega)
        have e2 : 2 ^ (i + 2) = 4 * 2 ^ i := by ring
        omega
    cases b i
    · simp only [if_true]; exact gen _ _ _ (by omega)
    · simp only [Bool.true_eq_false, if_false]; exact gen _ _ _ (by omega)

end EmpZk
