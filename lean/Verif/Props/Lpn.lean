/-
C33 - C35: the LPN expansion.
-/
import Verif.Lemmas.Lpn

namespace EmpZk

/-! ### C33 -/

/-- C33. For every `k` that fits in an `int` and every random word the derived index is a valid position among the `k` base
correlations, in the signed and in the unsigned variant, and the mask fits in an `int` as well. -/
theorem C33_index_range (k : Nat) (hk : 0 < k) (hk2 : k < 2 ^ 31) (r : BitVec 32) :
    0 ≤ lpnIndex k r ∧ lpnIndex k r < k ∧ (lpnIndexU k r).toNat < k ∧ ((lpnIndexU k r).toNat : Int) = lpnIndex k r ∧
    k ≤ kMask k ∧ kMask k < 2 ^ 31 := by
  have h := idxN_lt k hk r
  rw [lpnIndex_eq k hk hk2, lpnIndexU_eq k hk hk2]
  exact ⟨by omega, by omega, h, rfl, kMask_ge k, kMask_lt31 k hk hk2⟩

/-- C33. Every position among the base correlations can be selected. -/
theorem C33_onto (k : Nat) (hk : 0 < k) (hk2 : k < 2 ^ 31) (j : Nat) (hj : j < k) :
    ∃ r : BitVec 32, lpnIndex k r = j := by
  obtain ⟨e, he⟩ := kMask_form k
  have h1 := kMask_ge k
  refine ⟨BitVec.ofNat 32 j, ?_⟩
  rw [lpnIndex_eq k hk hk2]
  have : (BitVec.ofNat 32 j).toNat &&& kMask k = j := by
    rw [BitVec.toNat_ofNat, Nat.mod_eq_of_lt (by omega), he, Nat.and_two_pow_sub_one_eq_mod, Nat.mod_eq_of_lt]
    omega
  unfold idxN
  rw [this, if_neg (by omega)]

/-- The default `k = 158000`: mask `2^18 - 1`; word `0xffffffff` gives `262143 - 158000`. -/
example : lpnIndex 158000 0xffffffff#32 = 104143 := by decide +kernel

/-! ### C34 -/

/-- C34. For every `n`, `k`, thread count, random words, and valid correlations (`n` sparse ones `M`, `K`; `k` base ones
`preM`, `preK`), both parties finish without an access out of bounds, and each output is again a valid correlation, obtained by
adding the same base entries `js` (ten of them, or none where the work split misses the position) to value, MAC and key. -/
theorem C34_correlation (prp : Nat → Nat → BitVec 32) (n k threads : Nat) (hk : 0 < k) (hk2 : k < 2 ^ 31) (delta : W)
    (K M preK preM : Nat → U128) (hA : ∀ i, i < n → Auth delta (M i) (K i)) (hP : ∀ j, j < k → Auth delta (preM j) (preK j)) :
    ∃ K' M' : List U128,
      lpnComputeSend prp n k threads ((List.range n).map K) ((List.range k).map preK) = some K' ∧
      lpnComputeRecv prp n k threads ((List.range n).map M) ((List.range k).map preM) = some M' ∧
      K'.length = n ∧ M'.length = n ∧
      ∀ (q : Nat) (m key : U128), M'[q]? = some m → K'[q]? = some key → Auth delta m key ∧
        ∃ js : List Nat, (∀ j ∈ js, j < k) ∧ js.length = (if q < (threads + 1) * (n / (threads + 1)) then 10 else 0) ∧
          fp (high64 m) = fp (high64 (M q)) + (js.map (fun j => fp (high64 (preM j)))).sum ∧
          fp (low64 m) = fp (low64 (M q)) + (js.map (fun j => fp (low64 (preM j)))).sum ∧
          fp (low64 key) = fp (low64 (K q)) + (js.map (fun j => fp (low64 (preK j)))).sum := by
  obtain ⟨h1, h2⟩ := lpn_run_auth prp n k hk hk2 delta K M preK preM hA hP (lpnTasks n threads).flatten (mem_opsPos n threads)
  refine ⟨_, _, h1, h2, by simp, by simp, ?_⟩
  intro q m key hm hkey
  by_cases hq : q < n
  · rw [List.getElem?_map, List.getElem?_range hq, Option.map_some, Option.some.injEq] at hm hkey
    obtain ⟨js, hj1, hj2, hj3⟩ := contrib_list (fun i w => idxN k (prp i w)) ((lpnTasks n threads).flatten.flatMap LpnOp.lanes) q
    rw [hj3] at hm hkey
    have hjk : ∀ j ∈ js, j < k := by
      intro j hj
      obtain ⟨i, w, rfl⟩ := hj1 j hj
      exact idxN_lt k hk _
    have s2 : ∀ js : List Nat, (js.map (fun j => (fp (high64 (preM j)), fp (low64 (preM j))))).sum =
        ((js.map (fun j => fp (high64 (preM j)))).sum, (js.map (fun j => fp (low64 (preM j)))).sum) := by
      intro js; induction js with
      | nil => rfl
      | cons j js ih => simp only [List.map_cons, List.sum_cons, ih]; rfl
    rw [s2] at hm
    have hrel : (js.map (fun j => fp (low64 (preM j)))).sum = (js.map (fun j => fp (low64 (preK j)))).sum +
        (js.map (fun j => fp (high64 (preM j)))).sum * fp delta := by
      clear hm hkey hj1 hj2 hj3 s2
      induction js with
      | nil => simp
      | cons j js ih =>
        have hr := (hP j (hjk j (by simp))).rel
        simp only [List.map_cons, List.sum_cons]
        rw [ih (fun j' h => hjk j' (by simp [h])), hr]
        ring
    subst hm; subst hkey
    simp only [lab, Prod.mk_add_mk]
    refine ⟨⟨?_, ?_, ?_, ?_, ?_⟩, js, hjk, ?_, ?_, ?_, ?_⟩
    · rw [high64_makeBlock]; exact canon_toW _
    · rw [low64_makeBlock]; exact canon_toW _
    · rw [low64_setWidth]; exact canon_toW _
    · exact high64_wide _
    · rw [low64_makeBlock, high64_makeBlock, low64_setWidth, fp_toW, fp_toW, fp_toW, hrel, (hA q hq).rel]
      ring
    · rw [hj2, count_lanes, opsPos_tasks, count_range]
      split <;> rfl
    · rw [high64_makeBlock, fp_toW]
    · rw [low64_makeBlock, fp_toW]
    · rw [low64_setWidth, fp_toW]
  · rw [List.getElem?_eq_none (by simp; omega)] at hm
    simp at hm

/-- C34. The 64-bit sums between two reductions are exact: a word below `2p` plus up to six canonical words. -/
theorem C34_no_overflow (a : W) (ha : a.toNat < 2 * pN) (ps : List U128) (hps : ∀ p ∈ ps, Canon (low64 p)) (hlen : ps.length ≤ 6) :
    (ps.foldl accK a).toNat = a.toNat + (ps.map (fun p => (low64 p).toNat)).sum ∧
    (low64 (ps.foldl vAdd (makeBlock 0 a))).toNat = a.toNat + (ps.map (fun p => (low64 p).toNat)).sum := by
  have hs : ∀ ps : List U128, (∀ p ∈ ps, Canon (low64 p)) → (ps.map (fun p => (low64 p).toNat)).sum ≤ ps.length * (pN - 1) := by
    intro ps h
    induction ps with
    | nil => simp
    | cons p ps ih =>
      rw [List.map_cons, List.sum_cons, List.length_cons, Nat.succ_mul]
      have h1 := h p (by simp)
      have h2 := ih (fun p' h' => h p' (by simp [h']))
      unfold Canon at h1
      omega
  have hb := hs ps hps
  have hb2 : ps.length * (pN - 1) ≤ 6 * (pN - 1) := Nat.mul_le_mul_right _ hlen
  have hlt : a.toNat + (ps.map (fun p => (low64 p).toNat)).sum < 2 ^ 64 := by
    simp only [pN] at *; omega
  refine ⟨foldl_accK ps a hlt, ?_⟩
  rw [low64_foldl_vAdd, low64_makeBlock]
  have e : (ps.map (fun p => (low64 p).setWidth 128)).map (fun p : U128 => (low64 p).toNat) = ps.map (fun p => (low64 p).toNat) := by
    rw [List.map_map]
    refine List.map_congr_left ?_
    intro q _
    simp only [Function.comp, low64_setWidth]
  have := foldl_accK (ps.map (fun p => (low64 p).setWidth 128)) a (by rw [e]; exact hlt)
  rw [e] at this
  exact this

/-- Six positions, one thread, three base correlations, `Delta = 3`: values 1, keys 1, MACs 4. -/
example : Auth 3 (makeBlock 1 4) (makeBlock 0 1) ∧
    (lpnComputeSend (fun i w => BitVec.ofNat 32 (i + w)) 6 3 1 ((List.range 6).map (fun _ => makeBlock 0 1))
      ((List.range 3).map (fun _ => makeBlock 0 1))) = some ((List.range 6).map (fun _ => makeBlock 0 11)) ∧
    (lpnComputeRecv (fun i w => BitVec.ofNat 32 (i + w)) 6 3 1 ((List.range 6).map (fun _ => makeBlock 1 4))
      ((List.range 3).map (fun _ => makeBlock 1 4))) = some ((List.range 6).map (fun _ => makeBlock 11 44)) := by
  refine ⟨?_, ?_, ?_⟩
  · constructor <;> decide +kernel
  · decide +kernel
  · decide +kernel

/-! ### C35 -/

/-- C35. How often a position is written: once below `(threads + 1) * (n / (threads + 1))`, never above. -/
theorem C35_coverage (n threads q : Nat) :
    (((lpnTasks n threads).flatten.flatMap LpnOp.lanes).map (fun l => l.1)).count q =
      if q < (threads + 1) * (n / (threads + 1)) then 1 else 0 := by
  have := opsPos_tasks n threads
  unfold opsPos at this
  rw [this, count_range]

/-- C35, the part that holds: when `threads + 1` divides `n` every output position is written exactly once (and by C34 with
ten base entries). Missing: the other parameter sets, where it is false (`C35_false`). -/
theorem C35_partial (n threads : Nat) (h : (threads + 1) ∣ n) (q : Nat) (hq : q < n) :
    (((lpnTasks n threads).flatten.flatMap LpnOp.lanes).map (fun l => l.1)).count q = 1 := by
  rw [C35_coverage, Nat.mul_div_cancel' h, if_pos hq]

/-- C35 is false: with the default size and six threads the last position is never written. -/
theorem C35_false : ¬ ∀ n threads q, q < n →
    (((lpnTasks n threads).flatten.flatMap LpnOp.lanes).map (fun l => l.1)).count q = 1 := by
  intro h
  have := h 10168320 6 10168319 (by norm_num)
  rw [C35_coverage] at this
  norm_num at this

/-- C35. The positions the split misses keep their input, i.e. the sparse vector, which is zero outside the noise positions. -/
theorem C35_tail_unmixed (prp : Nat → Nat → BitVec 32) (n k threads : Nat) (hk : 0 < k) (hk2 : k < 2 ^ 31) (delta : W)
    (K M preK preM : Nat → U128) (hA : ∀ i, i < n → Auth delta (M i) (K i)) (hP : ∀ j, j < k → Auth delta (preM j) (preK j))
    (M' : List U128) (hM : lpnComputeRecv prp n k threads ((List.range n).map M) ((List.range k).map preM) = some M')
    (q : Nat) (hq : q < n) (hq2 : (threads + 1) * (n / (threads + 1)) ≤ q) : M'[q]? = some (M q) := by
  obtain ⟨K1', M1', h1', h2', h3', h4', h5'⟩ := C34_correlation prp n k threads hk hk2 delta K M preK preM hA hP
  rw [h2'] at hM
  simp only [Option.some.injEq] at hM
  subst hM
  have e1 : M1'[q]? = some M1'[q] := List.getElem?_eq_getElem (by omega)
  have e2 : K1'[q]? = some K1'[q] := List.getElem?_eq_getElem (by omega)
  obtain ⟨ha, js, _, hjl, v1, v2, _⟩ := h5' q _ _ e1 e2
  rw [if_neg (by omega)] at hjl
  have : js = [] := List.length_eq_zero_iff.1 hjl
  subst this
  rw [List.map_nil, List.sum_nil, add_zero] at v1 v2
  rw [e1]
  refine congrArg some ?_
  apply block_ext
  · exact fp_inj ha.value (hA q hq).value v1
  · exact fp_inj ha.mac (hA q hq).mac v2

/-- C35. The order in which the steps of the tasks run does not matter: any reordering of all the steps gives the arrays of the
sequential run, for both parties. -/
theorem C35_schedule (prp : Nat → Nat → BitVec 32) (n k threads : Nat) (hk : 0 < k) (hk2 : k < 2 ^ 31) (delta : W)
    (K M preK preM : Nat → U128) (hA : ∀ i, i < n → Auth delta (M i) (K i)) (hP : ∀ j, j < k → Auth delta (preM j) (preK j))
    (ops : List LpnOp) (hops : ops.Perm (lpnTasks n threads).flatten) :
    lpnRunSend prp k ((List.range k).map preK) ops ((List.range n).map K) =
      lpnComputeSend prp n k threads ((List.range n).map K) ((List.range k).map preK) ∧
    lpnRunRecv prp k ((List.range k).map preM) ops ((List.range n).map M) =
      lpnComputeRecv prp n k threads ((List.range n).map M) ((List.range k).map preM) := by
  have hb := mem_opsPos n threads
  obtain ⟨h1, h2⟩ := lpn_run_auth prp n k hk hk2 delta K M preK preM hA hP _ hb
  obtain ⟨h3, h4⟩ := lpn_run_auth prp n k hk hk2 delta K M preK preM hA hP ops (fun op h => hb op (hops.mem_iff.1 h))
  have hp : (ops.flatMap LpnOp.lanes).Perm ((lpnTasks n threads).flatten.flatMap LpnOp.lanes) := hops.flatMap_right _
  unfold lpnComputeSend lpnComputeRecv
  rw [h1, h2, h3, h4]
  constructor
  · refine congrArg some (List.map_congr_left ?_)
    intro q _
    rw [contrib_perm _ _ _ _ hp]
  · refine congrArg some (List.map_congr_left ?_)
    intro q _
    rw [contrib_perm _ _ _ _ hp]

/-- Eleven positions, two threads: width 3, positions 9 and 10 are missed. -/
example : lpnTasks 11 2 = [[.single 0, .single 1, .single 2], [.single 3, .single 4, .single 5], [.single 6, .single 7, .single 8]] := by
  decide +kernel

/-- Ten positions, one thread: two tasks of five, one quad step each. -/
example : lpnTasks 10 1 = [[.quad 0, .single 4], [.quad 5, .single 9]] := by decide +kernel

/-- The other default size that is missed: `n_pre = 166400` with two threads. -/
example : (2 + 1) * (166400 / (2 + 1)) = 166398 := by norm_num

end EmpZk
