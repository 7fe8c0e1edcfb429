/-
Algebra of the arithmetic checks: the word-level sums as sums over the field.
-/
import Verif.Lemmas.ArithWord
import Verif.Lemmas.BoolSound

namespace EmpZk

/-! ### gates -/

/-- `A0` of a gate. -/
def CGate.a0 (g : CGate) : Fp := g.left.2 * g.right.2
/-- `A1` of a gate. -/
def CGate.a1 (g : CGate) : Fp := g.left.1 * g.right.2 + g.right.1 * g.left.2 - g.out.2
/-- Error of a gate. -/
def CGate.err (g : CGate) : Fp := g.left.1 * g.right.1 - g.out.1

theorem CGate.err_eq_zero {g : CGate} : g.err = 0 ↔ g.Correct := by
  unfold CGate.err CGate.Correct
  rw [sub_eq_zero]
  exact eq_comm

theorem agateA_lab (g : CGate) : agateA g.lab = (toW g.a0, toW g.a1) := by
  simp only [agateA, CGate.lab, low64_lab, high64_lab, multMod_toW, addMod_toW, addMod_sub_toW]
  rfl

theorem agateB_keyAt (d : Fp) (g : CGate) : agateB (toW d) (g.keyAt d) = toW (g.a0 - g.a1 * d + g.err * (d * d)) := by
  simp only [agateB, CGate.keyAt, low64_keyAt, multMod_toW, addMod_toW]
  congr 1
  simp only [CGate.a0, CGate.a1, CGate.err]
  ring

/-! ### tasks -/

theorem taskLoopA_lab (s c : Fp) (n : Nat) (gs : List CGate) (h : gs.length = n + 1) (r : Fp × Fp) :
    taskLoopA (toW r.1, toW r.2) (gs.map CGate.lab) ((c :: powersFrom c s n).map toW) =
      (toW (r.1 + chiSumFrom s c (gs.map CGate.a0)), toW (r.2 + chiSumFrom s c (gs.map CGate.a1))) := by
  induction n generalizing c r gs with
  | zero =>
    cases gs with
    | nil => simp at h
    | cons g gs =>
      have : gs = [] := by simpa using h
      subst this
      simp [taskLoopA, powersFrom, chiSumFrom, agateA_lab, mul_comm]
  | succ n ih =>
    cases gs with
    | nil => simp at h
    | cons g gs =>
      have hl : gs.length = n + 1 := by simpa using h
      have := ih (c * s) gs hl (r.1 + g.a0 * c, r.2 + g.a1 * c)
      simp only [powersFrom, List.map_cons, taskLoopA, agateA_lab, multMod_toW, addMod_toW, chiSumFrom] at this ⊢
      rw [this]
      congr 2 <;> ring

theorem taskLoopB_keyAt (d s c : Fp) (n : Nat) (gs : List CGate) (h : gs.length = n + 1) (r : Fp) :
    taskLoopB (toW d) (toW r) (gs.map (CGate.keyAt d)) ((c :: powersFrom c s n).map toW) =
      toW (r + chiSumFrom s c (gs.map (fun g => g.a0 - g.a1 * d + g.err * (d * d)))) := by
  induction n generalizing c r gs with
  | zero =>
    cases gs with
    | nil => simp at h
    | cons g gs =>
      have : gs = [] := by simpa using h
      subst this
      simp [taskLoopB, powersFrom, chiSumFrom, agateB_keyAt, mul_comm]
  | succ n ih =>
    cases gs with
    | nil => simp at h
    | cons g gs =>
      have hl : gs.length = n + 1 := by simpa using h
      have := ih (c * s) gs hl (r + (g.a0 - g.a1 * d + g.err * (d * d)) * c)
      simp only [powersFrom, List.map_cons, taskLoopB, agateB_keyAt, multMod_toW, addMod_toW, chiSumFrom] at this ⊢
      rw [this]
      congr 1; ring

/-- The seed of a task as a field element. -/
def seedFp (x : U128) : Fp := fp (low64 x)

theorem taskA_lab (gs : List CGate) (hg : gs ≠ []) (sb : U128) :
    taskA (gs.map CGate.lab) sb =
      some (toW (chiSum (seedFp sb) (gs.map CGate.a0)), toW (chiSum (seedFp sb) (gs.map CGate.a1))) := by
  obtain ⟨n, hn⟩ : ∃ n, gs.length = n + 1 := ⟨gs.length - 1, by
    have := List.length_pos_iff.2 hg; omega⟩
  simp only [taskA, List.length_map, hn, mod64_eq_toW, uniHashCoeffGen_toW, Option.bind_eq_bind, Option.bind_some]
  have := taskLoopA_lab (fp (low64 sb)) (fp (low64 sb)) n gs hn (0, 0)
  simp only [toW_zero, zero_add] at this
  rw [this]
  rfl

theorem taskB_keyAt (d : Fp) (gs : List CGate) (hg : gs ≠ []) (sb : U128) :
    taskB (toW d) (gs.map (CGate.keyAt d)) sb =
      some (toW (chiSum (seedFp sb) (gs.map (fun g => g.a0 - g.a1 * d + g.err * (d * d))))) := by
  obtain ⟨n, hn⟩ : ∃ n, gs.length = n + 1 := ⟨gs.length - 1, by
    have := List.length_pos_iff.2 hg; omega⟩
  simp only [taskB, List.length_map, hn, mod64_eq_toW, uniHashCoeffGen_toW, Option.bind_eq_bind, Option.bind_some]
  have := taskLoopB_keyAt d (fp (low64 sb)) (fp (low64 sb)) n gs hn 0
  simp only [toW_zero, zero_add] at this
  rw [this]
  rfl

theorem taskA_nil (sb : U128) : taskA [] sb = none := rfl
theorem taskB_nil (d : W) (sb : U128) : taskB d [] sb = none := rfl

/-- Sum of a quantity over the tasks with one seed per task. -/
def taskSum {α : Type} (f : α → Fp) (buf : List α) (seeds : Nat → Fp) : List (Nat × Nat) → Nat → Fp
  | [], _ => 0
  | t :: ts, i => chiSum (seeds i) ((taskSlice buf t).map f) + taskSum f buf seeds ts (i + 1)

theorem taskSum_add {α : Type} (f g : α → Fp) (buf : List α) (seeds : Nat → Fp) (ts : List (Nat × Nat)) (i : Nat) :
    taskSum (fun x => f x + g x) buf seeds ts i = taskSum f buf seeds ts i + taskSum g buf seeds ts i := by
  induction ts generalizing i with
  | nil => simp [taskSum]
  | cons t ts ih => simp only [taskSum, ih, chiSum_add]; ring

theorem taskSum_mul {α : Type} (f : α → Fp) (d : Fp) (buf : List α) (seeds : Nat → Fp) (ts : List (Nat × Nat)) (i : Nat) :
    taskSum (fun x => f x * d) buf seeds ts i = taskSum f buf seeds ts i * d := by
  induction ts generalizing i with
  | nil => simp [taskSum]
  | cons t ts ih => simp only [taskSum, ih, chiSum_mul]; ring

theorem taskSum_zero {α : Type} (f : α → Fp) (buf : List α) (seeds : Nat → Fp) (ts : List (Nat × Nat)) (i : Nat)
    (h : ∀ t ∈ ts, ∀ x ∈ taskSlice buf t, f x = 0) : taskSum f buf seeds ts i = 0 := by
  induction ts generalizing i with
  | nil => rfl
  | cons t ts ih =>
    rw [taskSum, ih (i + 1) (fun u hu => h u (by simp [hu])), add_zero]
    exact chiSum_zero _ _ _ (h t (by simp))

theorem taskSum_B (d : Fp) (buf : List CGate) (seeds : Nat → Fp) (ts : List (Nat × Nat)) (i : Nat) :
    taskSum (fun g => g.a0 - g.a1 * d + g.err * (d * d)) buf seeds ts i =
      taskSum CGate.a0 buf seeds ts i - taskSum CGate.a1 buf seeds ts i * d +
        taskSum CGate.err buf seeds ts i * (d * d) := by
  have e : (fun g : CGate => g.a0 - g.a1 * d + g.err * (d * d)) =
      fun g => (g.a0 + g.a1 * (-d)) + g.err * (d * d) := by funext g; ring
  rw [e, taskSum_add, taskSum_add, taskSum_mul, taskSum_mul]
  ring

theorem taskSlice_map {α β : Type} (f : α → β) (buf : List α) (t : Nat × Nat) :
    taskSlice (buf.map f) t = (taskSlice buf t).map f := by
  simp [taskSlice, List.map_drop, List.map_take]

theorem tasksA_lab (buf : List CGate) (seeds : Nat → U128) (ts : List (Nat × Nat))
    (hne : ∀ t ∈ ts, taskSlice buf t ≠ []) (i : Nat) (r : Fp × Fp) :
    tasksA (buf.map CGate.lab) seeds ts i (toW r.1, toW r.2) =
      some (toW (r.1 + taskSum CGate.a0 buf (fun i => seedFp (seeds i)) ts i),
        toW (r.2 + taskSum CGate.a1 buf (fun i => seedFp (seeds i)) ts i)) := by
  induction ts generalizing i r with
  | nil => simp [tasksA, taskSum]
  | cons t ts ih =>
    have := ih (fun u hu => hne u (by simp [hu])) (i + 1)
      (r.1 + chiSum (seedFp (seeds i)) ((taskSlice buf t).map CGate.a0),
        r.2 + chiSum (seedFp (seeds i)) ((taskSlice buf t).map CGate.a1))
    simp only [tasksA, taskSlice_map, taskA_lab _ (hne t (by simp)), Option.bind_eq_bind, Option.bind_some,
      addMod_toW, taskSum] at this ⊢
    rw [this]
    simp only [add_assoc]

theorem tasksB_keyAt (d : Fp) (buf : List CGate) (seeds : Nat → U128) (ts : List (Nat × Nat))
    (hne : ∀ t ∈ ts, taskSlice buf t ≠ []) (i : Nat) (r : Fp) :
    tasksB (toW d) (buf.map (CGate.keyAt d)) seeds ts i (toW r) =
      some (toW (r + taskSum (fun g => g.a0 - g.a1 * d + g.err * (d * d)) buf (fun i => seedFp (seeds i)) ts i)) := by
  induction ts generalizing i r with
  | nil => simp [tasksB, taskSum]
  | cons t ts ih =>
    have := ih (fun u hu => hne u (by simp [hu])) (i + 1)
      (r + chiSum (seedFp (seeds i)) ((taskSlice buf t).map (fun g => g.a0 - g.a1 * d + g.err * (d * d))))
    simp only [tasksB, taskSlice_map, taskB_keyAt d _ (hne t (by simp)), Option.bind_eq_bind, Option.bind_some,
      addMod_toW, taskSum] at this ⊢
    rw [this]
    simp only [add_assoc]

theorem mulTasks_nonempty {α : Type} {buf : List α} {threads : Nat} {ts : List (Nat × Nat)}
    (h : mulTasks buf.length threads = some ts) : ∀ t ∈ ts, taskSlice buf t ≠ [] := by
  unfold mulTasks at h
  split at h
  · split at h
    · simp at h
    · rename_i h1 h2
      simp only [Option.some.injEq] at h
      subst h
      intro t ht
      simp only [List.mem_singleton] at ht
      subst ht
      simp only [taskSlice, List.drop_zero, List.take_length]
      intro h0; rw [h0] at h2; simp at h2
  · intro t ht
    have hs := (splitTasks_isSome buf.length threads).1 (by rw [h]; rfl)
    have hcov := fun g => splitTasks_covers h g
    have hq : 0 < buf.length / threads := Nat.div_pos hs.2 hs.1
    rw [splitTasks_eq hs.1 hs.2] at h
    simp only [Option.some.injEq] at h
    have ht2 : 0 < t.2 := by
      subst h
      simp only [List.mem_append, List.mem_map, List.mem_range, List.mem_singleton] at ht
      rcases ht with ⟨i, _, rfl⟩ | rfl
      · exact hq
      · exact Nat.add_pos_left hq _
    have hlt : t.1 < buf.length :=
      lt_of_lt_of_le ((hcov t.1).1 ⟨t, ht, le_refl _, by omega⟩) (covered_le hs.1)
    intro h0
    have := taskSlice_mem (buf := buf) (t := t) (i := t.1) (le_refl _) (by omega) (List.getElem?_eq_getElem hlt)
    rw [h0] at this
    simp at this

theorem taskSlice_all {α : Type} (buf : List α) : taskSlice buf (0, buf.length) = buf := by simp [taskSlice]

theorem mulSumsA_lab (buf : List CGate) (threads : Nat) (seeds : Nat → U128) :
    mulSumsA (buf.map CGate.lab) threads seeds =
      (mulTasks buf.length threads).map (fun ts => (toW (taskSum CGate.a0 buf (fun i => seedFp (seeds i)) ts 0),
        toW (taskSum CGate.a1 buf (fun i => seedFp (seeds i)) ts 0))) := by
  unfold mulSumsA
  have hne := fun ts (h : mulTasks buf.length threads = some ts) => mulTasks_nonempty h
  rw [List.length_map]
  unfold mulTasks at hne ⊢
  by_cases h1 : buf.length < 32
  · simp only [h1, if_true]
    by_cases h2 : buf.length = 0
    · rw [if_pos h2, List.length_eq_zero_iff.1 h2]; rfl
    · rw [if_neg h2, taskA_lab buf (by intro h0; rw [h0] at h2; simp at h2)]
      simp [taskSum, taskSlice_all]
  · simp only [h1, if_false] at hne ⊢
    cases hs : splitTasks buf.length threads with
    | none => rfl
    | some ts =>
      have := tasksA_lab buf seeds ts (hne ts hs) 0 (0, 0)
      simp only [toW_zero, zero_add] at this
      simp only [Option.bind_eq_bind, Option.bind_some, Option.map_some]
      exact this

theorem mulSumsB_keyAt (d : Fp) (buf : List CGate) (threads : Nat) (seeds : Nat → U128) :
    mulSumsB (toW d) (buf.map (CGate.keyAt d)) threads seeds =
      (mulTasks buf.length threads).map (fun ts =>
        toW (taskSum (fun g => g.a0 - g.a1 * d + g.err * (d * d)) buf (fun i => seedFp (seeds i)) ts 0)) := by
  unfold mulSumsB
  have hne := fun ts (h : mulTasks buf.length threads = some ts) => mulTasks_nonempty h
  rw [List.length_map]
  unfold mulTasks at hne ⊢
  by_cases h1 : buf.length < 32
  · simp only [h1, if_true]
    by_cases h2 : buf.length = 0
    · rw [if_pos h2, List.length_eq_zero_iff.1 h2]; rfl
    · rw [if_neg h2, taskB_keyAt d buf (by intro h0; rw [h0] at h2; simp at h2)]
      simp [taskSum, taskSlice_all]
  · simp only [h1, if_false] at hne ⊢
    cases hs : splitTasks buf.length threads with
    | none => rfl
    | some ts =>
      have := tasksB_keyAt d buf seeds ts (hne ts hs) 0 0
      simp only [toW_zero, zero_add] at this
      simp only [Option.bind_eq_bind, Option.bind_some, Option.map_some]
      exact this

/-! ### the multiplication check -/

/-- The honest answer. -/
def mulAns (buf : List CGate) (seeds : Nat → U128) (ts : List (Nat × Nat)) (ope : Fp × Fp) : Fp × Fp :=
  (taskSum CGate.a0 buf (fun i => seedFp (seeds i)) ts 0 + ope.2,
   taskSum CGate.a1 buf (fun i => seedFp (seeds i)) ts 0 + ope.1)

/-- The combined error. -/
def mulErr (buf : List CGate) (seeds : Nat → U128) (ts : List (Nat × Nat)) : Fp :=
  taskSum CGate.err buf (fun i => seedFp (seeds i)) ts 0

theorem mulCheckA_lab (buf : List CGate) (threads : Nat) (seeds : Nat → U128) (ope : Fp × Fp) :
    mulCheckA (buf.map CGate.lab) threads seeds (lab ope) =
      (mulTasks buf.length threads).map (fun ts => (toW (mulAns buf seeds ts ope).1, toW (mulAns buf seeds ts ope).2)) := by
  simp only [mulCheckA, mulSumsA_lab, Option.bind_eq_bind, Option.bind_map, low64_lab, high64_lab]
  cases mulTasks buf.length threads with
  | none => rfl
  | some ts => simp [mulAns]

theorem mulCheckB_keyAt (d : Fp) (buf : List CGate) (threads : Nat) (seeds : Nat → U128) (ope : Fp × Fp) (ans : W × W) :
    mulCheckB (toW d) (buf.map (CGate.keyAt d)) threads seeds (keyAt d ope) ans =
      (mulTasks buf.length threads).map (fun ts => ans.1 == addMod (multMod ans.2 (toW d))
        (toW ((mulAns buf seeds ts ope).1 - (mulAns buf seeds ts ope).2 * d + mulErr buf seeds ts * (d * d)))) := by
  simp only [mulCheckB, mulSumsB_keyAt, Option.bind_eq_bind, Option.bind_map, low64_keyAt]
  cases mulTasks buf.length threads with
  | none => rfl
  | some ts =>
    simp only [Option.bind_some, Function.comp, addMod_toW, Option.map_some, Option.some.injEq]
    rw [taskSum_B]
    congr 3
    simp only [mulAns, mulErr]
    ring

/-! ### words that are not canonical -/

/-- `mult_mod` on an arbitrary word and a canonical one: right up to a carry lost beyond 64 bits, which subtracts 8. -/
theorem fp_multMod_any (x : W) (d : Fp) :
    (∃ c : Bool, fp (multMod x (toW d)) = fp x * d - (if c then 8 else 0)) ∧
      (multMod x (toW d)).toNat + pN ≤ 2 ^ 64 := by
  have hx := x.isLt
  have hd := canon_toW d
  unfold Canon at hd
  have hP : x.toNat * (toW d).toNat < 2 ^ 64 * pN := Nat.mul_lt_mul'' hx hd
  have hgen := multMod_toNat_gen x (toW d) (by simp only [pN] at hP; omega)
  have hval : fp x * d = ((x.toNat * (toW d).toNat : Nat) : Fp) := by
    rw [Nat.cast_mul]
    conv_lhs => rw [← fp_toW d]
    rfl
  rw [hval]
  generalize x.toNat * (toW d).toNat = P at hP hgen
  have hfold : ((P : Nat) : Fp) = ((P % 2 ^ 61 + P / 2 ^ 61 : Nat) : Fp) := by
    rw [← ZMod.natCast_mod P pN, mersenne_fold, ZMod.natCast_mod]
  rw [hfold]
  have hs : P % 2 ^ 61 + P / 2 ^ 61 < 2 ^ 64 + 2 ^ 61 := by simp only [pN] at hP; omega
  generalize P % 2 ^ 61 + P / 2 ^ 61 = s at hgen hs
  have key : ∀ t : Nat, (multMod x (toW d)).toNat = (if pN ≤ t then t - pN else t) →
      fp (multMod x (toW d)) = (t : Fp) := by
    intro t ht
    unfold fp
    rw [ht]
    split
    · rw [Nat.cast_sub (by assumption), pN_cast_zero, sub_zero]
    · rfl
  by_cases hc : s < 2 ^ 64
  · rw [Nat.mod_eq_of_lt hc] at hgen
    refine ⟨⟨false, ?_⟩, ?_⟩
    · rw [key s hgen]; simp
    · rw [hgen]
      simp only [pN]
      split <;> omega
  · have hm : s % 2 ^ 64 = s - 2 ^ 64 := by omega
    rw [hm] at hgen
    refine ⟨⟨true, ?_⟩, ?_⟩
    · rw [key (s - 2 ^ 64) hgen, Nat.cast_sub (by omega)]
      have : ((2 ^ 64 : Nat) : Fp) = 8 := by decide +kernel
      rw [this]; simp
    · rw [hgen]
      simp only [pN]
      split <;> omega

/-- Adding a canonical word to a word that leaves room for it. -/
theorem fp_addMod_any (a : W) (ha : a.toNat + pN ≤ 2 ^ 64) (k : Fp) : fp (addMod a (toW k)) = fp a + k := by
  have hk := canon_toW k
  unfold Canon at hk
  have hsum : a.toNat + (toW k).toNat < 2 ^ 64 := by omega
  have h := addMod_toNat_gen _ _ hsum
  have : fp (addMod a (toW k)) = fp a + fp (toW k) := by
    unfold fp
    rw [h]
    split
    · rw [Nat.cast_sub (by assumption), pN_cast_zero, sub_zero, Nat.cast_add]
    · rw [Nat.cast_add]
  rw [this, fp_toW]

/-- The same followed by adding a canonical word. -/
theorem fp_open_any (x : W) (d k : Fp) :
    ∃ c : Bool, fp (addMod (multMod x (toW d)) (toW k)) = fp x * d - (if c then 8 else 0) + k := by
  obtain ⟨⟨c, hc⟩, hle⟩ := fp_multMod_any x d
  refine ⟨c, ?_⟩
  have hk := canon_toW k
  unfold Canon at hk
  have hsum : (multMod x (toW d)).toNat + (toW k).toNat < 2 ^ 64 := by omega
  have h := addMod_toNat_gen _ _ hsum
  have : fp (addMod (multMod x (toW d)) (toW k)) = fp (multMod x (toW d)) + fp (toW k) := by
    unfold fp
    rw [h]
    split
    · rw [Nat.cast_sub (by assumption), pN_cast_zero, sub_zero, Nat.cast_add]
    · rw [Nat.cast_add]
  rw [this, hc, fp_toW]

/-! ### polynomial statements -/

/-- `A0` of a statement. -/
def APoly.a0 : APoly (Fp × Fp) → Fp
  | .deg2 _ terms => (terms.map (fun t => fp t.1 * (t.2.1.2 * t.2.2.2))).sum
  | .inner _ terms => (terms.map (fun t => t.1.2 * t.2.2)).sum

/-- `A1` of a statement. -/
def APoly.a1 : APoly (Fp × Fp) → Fp
  | .deg2 _ terms => (terms.map (fun t => fp t.1 * (t.2.1.2 * t.2.2.1 + t.2.2.2 * t.2.1.1))).sum
  | .inner _ terms => (terms.map (fun t => t.1.2 * t.2.1 + t.2.2 * t.1.1)).sum

/-- The value of a statement on committed wires. -/
def APoly.value (p : APoly (Fp × Fp)) : Fp := (p.map Prod.fst).eval

theorem foldl_termA (terms : List (W × (Fp × Fp) × (Fp × Fp))) (h : ∀ t ∈ terms, Canon t.1) (r : Fp × Fp) :
    (terms.map (fun t => (t.1, lab t.2.1, lab t.2.2))).foldl termA (toW r.1, toW r.2) =
      (toW (r.1 + (terms.map (fun t => fp t.1 * (t.2.1.2 * t.2.2.2))).sum),
       toW (r.2 + (terms.map (fun t => fp t.1 * (t.2.1.2 * t.2.2.1 + t.2.2.2 * t.2.1.1))).sum)) := by
  induction terms generalizing r with
  | nil => simp
  | cons t ts ih =>
    have := ih (fun u hu => h u (by simp [hu])) (r.1 + fp t.1 * (t.2.1.2 * t.2.2.2),
      r.2 + fp t.1 * (t.2.1.2 * t.2.2.1 + t.2.2.2 * t.2.1.1))
    simp only [List.map_cons, List.foldl_cons, List.sum_cons, ← add_assoc]
    rw [← this]
    congr 1
    have ht := toW_fp (h t (by simp))
    simp only [termA, low64_lab, high64_lab, multMod_toW, addMod_toW]
    rw [← ht, multMod_toW, addMod_toW, multMod_toW, addMod_toW, fp_toW]

theorem foldl_innerA (terms : List ((Fp × Fp) × (Fp × Fp))) (r : Fp × Fp) :
    (terms.map (fun t => (lab t.1, lab t.2))).foldl innerA (toW r.1, toW r.2) =
      (toW (r.1 + (terms.map (fun t => t.1.2 * t.2.2)).sum),
       toW (r.2 + (terms.map (fun t => t.1.2 * t.2.1 + t.2.2 * t.1.1)).sum)) := by
  induction terms generalizing r with
  | nil => simp
  | cons t ts ih =>
    have := ih (r.1 + t.1.2 * t.2.2, r.2 + (t.1.2 * t.2.1 + t.2.2 * t.1.1))
    simp only [List.map_cons, List.foldl_cons, List.sum_cons, ← add_assoc] at this ⊢
    rw [← this]
    congr 1
    simp only [innerA, low64_lab, high64_lab, multMod_toW, addMod_toW, add_assoc]

theorem apolyA_lab (p : APoly (Fp × Fp)) (h : p.CanonC) : apolyA (p.map lab) = (toW p.a0, toW p.a1) := by
  cases p with
  | deg2 c0 terms =>
    have := foldl_termA terms h.2 (0, 0)
    simp only [toW_zero, zero_add] at this
    exact this
  | inner c terms =>
    have := foldl_innerA terms (0, 0)
    simp only [toW_zero, zero_add] at this
    exact this

theorem foldl_termB (d : Fp) (terms : List (W × (Fp × Fp) × (Fp × Fp))) (h : ∀ t ∈ terms, Canon t.1) (r : Fp) :
    (terms.map (fun t => (t.1, keyAt d t.2.1, keyAt d t.2.2))).foldl termB (toW r) =
      toW (r + (terms.map (fun t => fp t.1 * (t.2.1.2 * t.2.2.2))).sum
        - (terms.map (fun t => fp t.1 * (t.2.1.2 * t.2.2.1 + t.2.2.2 * t.2.1.1))).sum * d
        + (terms.map (fun t => fp t.1 * (t.2.1.1 * t.2.2.1))).sum * (d * d)) := by
  induction terms generalizing r with
  | nil => simp
  | cons t ts ih =>
    have := ih (fun u hu => h u (by simp [hu])) (r + fp t.1 * ((t.2.1.2 - t.2.1.1 * d) * (t.2.2.2 - t.2.2.1 * d)))
    simp only [List.map_cons, List.foldl_cons, List.sum_cons]
    have e : termB (toW r) (t.1, keyAt d t.2.1, keyAt d t.2.2) =
        toW (r + fp t.1 * ((t.2.1.2 - t.2.1.1 * d) * (t.2.2.2 - t.2.2.1 * d))) := by
      have ht := toW_fp (h t (by simp))
      simp only [termB, low64_keyAt, multMod_toW]
      rw [← ht, multMod_toW, addMod_toW, fp_toW]
    rw [e, this]
    congr 1; ring

theorem foldl_innerB (d : Fp) (terms : List ((Fp × Fp) × (Fp × Fp))) (r : Fp) :
    (terms.map (fun t => (keyAt d t.1, keyAt d t.2))).foldl innerB (toW r) =
      toW (r + (terms.map (fun t => t.1.2 * t.2.2)).sum
        - (terms.map (fun t => t.1.2 * t.2.1 + t.2.2 * t.1.1)).sum * d
        + (terms.map (fun t => t.1.1 * t.2.1)).sum * (d * d)) := by
  induction terms generalizing r with
  | nil => simp
  | cons t ts ih =>
    have := ih (r + (t.1.2 - t.1.1 * d) * (t.2.2 - t.2.1 * d))
    simp only [List.map_cons, List.foldl_cons, List.sum_cons]
    have e : innerB (toW r) (keyAt d t.1, keyAt d t.2) =
        toW (r + (t.1.2 - t.1.1 * d) * (t.2.2 - t.2.1 * d)) := by
      simp only [innerB, low64_keyAt, multMod_toW, addMod_toW]
    rw [e, this]
    congr 1; ring

theorem apolyB_keyAt (d : Fp) (p : APoly (Fp × Fp)) (h : p.CanonC) :
    apolyB (toW d) (p.map (keyAt d)) = toW (p.a0 - p.a1 * d + p.value * (d * d)) := by
  cases p with
  | deg2 c0 terms =>
    have := foldl_termB d terms h.2 0
    simp only [toW_zero] at this
    simp only [APoly.map, apolyB, this, multMod_toW]
    conv_lhs => rw [← toW_fp h.1]
    rw [multMod_toW, addMod_toW]
    congr 1
    simp only [APoly.a0, APoly.a1, APoly.value, APoly.map, APoly.eval, List.map_map, Function.comp_def]
    ring
  | inner c terms =>
    have := foldl_innerB d terms 0
    simp only [toW_zero] at this
    simp only [APoly.map, apolyB, this, multMod_toW]
    conv_lhs => rw [← toW_fp h]
    rw [multMod_toW, addMod_toW]
    congr 1
    simp only [APoly.a0, APoly.a1, APoly.value, APoly.map, APoly.eval, List.map_map, Function.comp_def]
    ring

/-- The honest answer of the statement check. -/
def polyAns (buf : List (APoly (Fp × Fp))) (seed : Fp) (ope : Fp × Fp) : Fp × Fp :=
  (chiSum seed (buf.map APoly.a0) + ope.2, chiSum seed (buf.map APoly.a1) + ope.1)

theorem apolyCheckA_lab (buf : List (APoly (Fp × Fp))) (hc : ∀ p ∈ buf, p.CanonC) (hb : buf ≠ []) (seed : Fp)
    (ope : Fp × Fp) :
    apolyCheckA (buf.map (fun p => apolyA (p.map lab))) (toW seed) (lab ope) =
      some (toW (polyAns buf seed ope).1, toW (polyAns buf seed ope).2) := by
  obtain ⟨n, hn⟩ : ∃ n, buf.length = n + 1 := ⟨buf.length - 1, by
    have := List.length_pos_iff.2 hb; omega⟩
  have e : buf.map (fun p => apolyA (p.map lab)) = buf.map (fun p => (toW p.a0, toW p.a1)) :=
    List.map_congr_left (fun p hp => apolyA_lab p (hc p hp))
  have e0 : (buf.map (fun p => (toW p.a0, toW p.a1))).map Prod.fst = (buf.map APoly.a0).map toW := by
    simp [Function.comp_def]
  have e1 : (buf.map (fun p => (toW p.a0, toW p.a1))).map Prod.snd = (buf.map APoly.a1).map toW := by
    simp [Function.comp_def]
  simp only [apolyCheckA, e, e0, e1, List.length_map, hn, uniHashCoeffGen_toW, Option.bind_eq_bind, Option.bind_some]
  rw [innPrdtSumRed_toW seed _ n (by simp [hn]), innPrdtSumRed_toW seed _ n (by simp [hn])]
  simp [polyAns]

theorem apolyCheckB_keyAt (d : Fp) (buf : List (APoly (Fp × Fp))) (hc : ∀ p ∈ buf, p.CanonC) (hb : buf ≠ []) (seed : Fp)
    (ope : Fp × Fp) (ans : W × W) :
    apolyCheckB (toW d) (buf.map (fun p => apolyB (toW d) (p.map (keyAt d)))) (toW seed) (keyAt d ope) ans =
      some (addMod (toW ((polyAns buf seed ope).1 - (polyAns buf seed ope).2 * d +
        chiSum seed (buf.map APoly.value) * (d * d))) (multMod ans.2 (toW d)) == ans.1) := by
  obtain ⟨n, hn⟩ : ∃ n, buf.length = n + 1 := ⟨buf.length - 1, by
    have := List.length_pos_iff.2 hb; omega⟩
  have e : buf.map (fun p => apolyB (toW d) (p.map (keyAt d))) =
      (buf.map (fun p => (p.a0 + p.a1 * (-d)) + p.value * (d * d))).map toW := by
    rw [List.map_map]
    refine List.map_congr_left (fun p hp => ?_)
    rw [apolyB_keyAt d p (hc p hp)]
    simp only [Function.comp]
    congr 1; ring
  simp only [apolyCheckB, e, List.length_map, hn, uniHashCoeffGen_toW, Option.bind_eq_bind, Option.bind_some]
  rw [innPrdtSumRed_toW seed _ n (by simp [hn]), chiSum_add, chiSum_add, chiSum_mul, chiSum_mul]
  simp only [low64_keyAt, addMod_toW]
  congr 4
  simp only [polyAns]
  ring

end EmpZk
