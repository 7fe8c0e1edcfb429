/-
Soundness of the AND check and coverage of the task split.
-/
import Verif.Lemmas.BoolProgress
import Verif.Lemmas.Count

namespace EmpZk

/-- Seeds of the threads as a function on all indices. -/
def extendSeeds {F : Type} [Zero F] {T : Nat} (s : Fin T → F) (i : Nat) : F := if h : i < T then s ⟨i, h⟩ else 0

theorem extendSeeds_update {F : Type} [Zero F] {T : Nat} (s : Fin T → F) (t : Fin T) (x : F) (i : Nat) :
    extendSeeds (Function.update s t x) i = if i = t.1 then x else extendSeeds s i := by
  unfold extendSeeds
  by_cases h : i < T
  · simp only [h, dif_pos]
    by_cases hi : i = t.1
    · have : (⟨i, h⟩ : Fin T) = t := Fin.ext hi
      rw [if_pos hi, this, Function.update_self]
    · have : (⟨i, h⟩ : Fin T) ≠ t := fun hc => hi (congrArg Fin.val hc)
      rw [if_neg hi, Function.update_of_ne this]
  · have hi : i ≠ t.1 := fun hc => h (hc ▸ t.2)
    simp [h, hi]

theorem splitTasks_eq {cnt threads : Nat} (h : 0 < threads) (h2 : threads ≤ cnt) :
    splitTasks cnt threads = some ((List.range (threads - 1)).map (fun i => (i * (cnt / threads), cnt / threads)) ++
        [((threads - 1) * (cnt / threads), cnt / threads + cnt % (cnt / threads))]) := by
  unfold splitTasks
  have h0 : threads ≠ 0 := by omega
  have h1 : cnt / threads ≠ 0 := by
    have := Nat.div_pos h2 h
    omega
  simp [h0, h1]

theorem splitTasks_length {cnt threads : Nat} {tasks : List (Nat × Nat)} (h : splitTasks cnt threads = some tasks) :
    tasks.length = threads := by
  have hs := (splitTasks_isSome cnt threads).1 (by rw [h]; rfl)
  rw [splitTasks_eq hs.1 hs.2] at h
  simp only [Option.some.injEq] at h
  subst h
  simp
  omega

/-- Number of gates covered by the tasks. -/
def covered (cnt threads : Nat) : Nat := cnt / threads * threads + (cnt % (cnt / threads))

/-- The tasks cover exactly the indices below `covered`. -/
theorem splitTasks_covers {cnt threads : Nat} {tasks : List (Nat × Nat)} (h : splitTasks cnt threads = some tasks)
    (g : Nat) : (∃ t ∈ tasks, t.1 ≤ g ∧ g < t.1 + t.2) ↔ g < covered cnt threads := by
  have hs := (splitTasks_isSome cnt threads).1 (by rw [h]; rfl)
  rw [splitTasks_eq hs.1 hs.2] at h
  simp only [Option.some.injEq] at h
  subst h
  obtain ⟨n, rfl⟩ : ∃ n, threads = n + 1 := ⟨threads - 1, by omega⟩
  simp only [Nat.add_sub_cancel, List.mem_append, List.mem_map, List.mem_range, List.mem_singleton, covered]
  have hq : 0 < cnt / (n + 1) := Nat.div_pos hs.2 hs.1
  generalize cnt / (n + 1) = q at hq ⊢
  have hexp : q * (n + 1) = n * q + q := by ring
  constructor
  · rintro ⟨t, (⟨i, hi, rfl⟩ | rfl), h1, h2⟩
    · simp only at h1 h2
      have : (i + 1) * q ≤ n * q := Nat.mul_le_mul_right q hi
      have e : (i + 1) * q = i * q + q := by ring
      omega
    · simp only at h1 h2
      omega
  · intro hg
    by_cases hlt : g < n * q
    · have hdiv : g / q < n := Nat.div_lt_of_lt_mul (by rw [Nat.mul_comm]; exact hlt)
      refine ⟨(g / q * q, q), Or.inl ⟨g / q, hdiv, rfl⟩, Nat.div_mul_le_self g q, ?_⟩
      have := Nat.lt_div_mul_add hq (a := g)
      simpa using this
    · refine ⟨_, Or.inr rfl, ?_, ?_⟩
      · simp only; omega
      · simp only; omega

theorem mod_quot (cnt threads : Nat) : cnt % (cnt / threads) = cnt % threads % (cnt / threads) := by
  have h1 := Nat.div_add_mod cnt threads
  generalize cnt / threads = q at h1 ⊢
  generalize cnt % threads = r at h1 ⊢
  subst h1
  rw [Nat.mul_comm, Nat.mul_add_mod]

/-- No task reads outside the buffers. -/
theorem covered_le {cnt threads : Nat} (h : 0 < threads) : covered cnt threads ≤ cnt := by
  unfold covered
  have h1 := Nat.div_add_mod cnt threads
  have h2 : cnt % (cnt / threads) ≤ cnt % threads := by
    rcases Nat.eq_zero_or_pos (cnt / threads) with h0 | h0
    · rw [h0, Nat.mod_zero]
      have : cnt < threads := by
        rcases Nat.div_eq_zero_iff.1 h0 with h' | h'
        · omega
        · exact h'
      rw [Nat.mod_eq_of_lt this]
    · rw [mod_quot]
      exact Nat.mod_le _ _
  have h3 : cnt / threads * threads = threads * (cnt / threads) := Nat.mul_comm _ _
  omega

/-- Everything is covered exactly when the remainder is smaller than the quotient. -/
theorem covered_eq_iff {cnt threads : Nat} (h : 0 < threads) (h2 : threads ≤ cnt) :
    covered cnt threads = cnt ↔ cnt % threads < cnt / threads := by
  unfold covered
  have h1 := Nat.div_add_mod cnt threads
  have hq : 0 < cnt / threads := Nat.div_pos h2 h
  have h3 : cnt / threads * threads = threads * (cnt / threads) := Nat.mul_comm _ _
  have h4 : cnt % (cnt / threads) = cnt % threads % (cnt / threads) := mod_quot _ _
  have h5 := Nat.mod_lt (cnt % threads) hq
  have h6 := Nat.mod_le (cnt % threads) (cnt / threads)
  constructor
  · intro he
    omega
  · intro hl
    rw [h4, Nat.mod_eq_of_lt hl]
    omega

section
variable {F : Type} [Field F] [BlockField F]

theorem taskSlice_mem {α : Type} {buf : List α} {t : Nat × Nat} {i : Nat} (h1 : t.1 ≤ i) (h2 : i < t.1 + t.2) {x : α}
    (h : buf[i]? = some x) : x ∈ taskSlice buf t := by
  unfold taskSlice
  have : ((buf.drop t.1).take t.2)[i - t.1]? = some x := by
    rw [List.getElem?_take, if_pos (by omega), List.getElem?_drop]
    rw [show t.1 + (i - t.1) = i by omega]
    exact h
  exact List.mem_of_getElem? this

theorem taskSlice_length {α : Type} (buf : List α) (t : Nat × Nat) : (taskSlice buf t).length ≤ t.2 := by
  simp [taskSlice]

theorem errSum_agree (buf : List (Gate F)) (tasks : List (Nat × Nat)) :
    ∀ (i t : Nat) (ht : t < tasks.length) (s s' : Nat → F), (∀ j, j ≠ i + t → s j = s' j) →
    errSum buf s tasks i + chiSum (s' (i + t)) ((taskSlice buf tasks[t]).map Gate.err) =
      errSum buf s' tasks i + chiSum (s (i + t)) ((taskSlice buf tasks[t]).map Gate.err) := by
  induction tasks with
  | nil => intro i t ht; simp at ht
  | cons a ts ih =>
    intro i t ht s s' hag
    have hrest : ∀ (k : Nat), i + t < k → errSum buf s ts k = errSum buf s' ts k := by
      clear ih ht
      induction ts with
      | nil => intro k _; rfl
      | cons b ts ih2 =>
        intro k hk
        rw [errSum, errSum, ih2 (k + 1) (by omega), hag k (by omega)]
    cases t with
    | zero =>
      simp only [List.getElem_cons_zero, errSum, Nat.add_zero] at *
      rw [hrest (i + 1) (by omega)]
      ring
    | succ t =>
      have := ih (i + 1) t (by simpa using ht) s s' (by intro j hj; exact hag j (by omega))
      rw [show i + 1 + t = i + (t + 1) by omega] at this
      simp only [List.getElem_cons_succ, errSum, hag i (by omega)]
      linear_combination this

/-- Few seeds hide a wrong gate. -/
theorem card_bad_seeds [Fintype F] [DecidableEq F] (buf : List (Gate F)) (T : Nat) (tasks : List (Nat × Nat))
    (t : Fin T) (ht : t.1 < tasks.length) (hbad : ∃ g ∈ taskSlice buf tasks[t.1], ¬ g.Correct) :
    (Finset.univ.filter (fun s : Fin T → F => errSum buf (extendSeeds s) tasks 0 = 0)).card ≤
      (tasks[t.1]).2 * Fintype.card F ^ (T - 1) := by
  have := card_coord_le (ι := Fin T) (F := F) (fun s => errSum buf (extendSeeds s) tasks 0 = 0) t
    ((tasks[t.1]).2) (by
      intro s0 xs hxs
      obtain ⟨g, hg, hne⟩ := hbad
      have hle : ∀ c, (Finset.univ.filter (fun x : F => chiSum x ((taskSlice buf tasks[t.1]).map Gate.err) = c)).card ≤
          (tasks[t.1]).2 := by
        intro c
        refine (card_seeds_le _ ⟨g.err, List.mem_map_of_mem hg, fun h => hne (Gate.correct_of_err h)⟩ c).trans ?_
        rw [List.length_map]
        exact taskSlice_length _ _
      refine (Finset.card_le_card ?_).trans (hle (chiSum (extendSeeds s0 t.1) ((taskSlice buf tasks[t.1]).map Gate.err) -
        errSum buf (extendSeeds s0) tasks 0))
      intro x hx
      rw [Finset.mem_filter]
      refine ⟨Finset.mem_univ _, ?_⟩
      have h1 := hxs x hx
      have h2 := errSum_agree buf tasks 0 t.1 ht (extendSeeds (Function.update s0 t x)) (extendSeeds s0) (by
        intro j hj
        rw [extendSeeds_update, if_neg (by omega)])
      rw [h1, zero_add, Nat.zero_add, extendSeeds_update, if_pos rfl] at h2
      rw [h2]; ring)
  rw [Fintype.card_fin] at this
  exact this

/-- At most two values of `delta` pass once the combined error is not zero. -/
theorem delta_le_two [DecidableEq F] (buf : List (Gate F)) (threads : Nat) (seeds ope : Nat → F) (ans : F × F)
    (tasks : List (Nat × Nat)) (hs : splitTasks buf.length threads = some tasks) (he : errSum buf seeds tasks 0 ≠ 0)
    (D : Finset F) (hD : ∀ d ∈ D,
      andCheckVer d (buf.map (Gate.key d)) threads seeds (fun i => keyOf d (ope i)) ans = some true) : D.card ≤ 2 := by
  refine card_quad_le (errSum buf seeds tasks 0)
    (packLsbs ope + (checkSumPrv buf seeds tasks 0).2 - ans.2)
    (packBlocks ope + (checkSumPrv buf seeds tasks 0).1 - ans.1) he D ?_
  intro d hd
  have := hD d hd
  rw [andCheckVer_keyOf, hs, Option.map_some, Option.some.injEq, decide_eq_true_eq] at this
  linear_combination (-1 : F) * this
end
end EmpZk
