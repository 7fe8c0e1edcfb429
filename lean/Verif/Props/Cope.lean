/-
C26, C27: the base subfield-VOLE.
-/
import Verif.Lemmas.Cope
import Verif.Lemmas.ArithAuth
import Mathlib.Algebra.BigOperators.Field

namespace EmpZk
open Finset

/-! ### C26 -/

/-- C26, batched. For every secret below `p`, all PRG outputs and all inputs below `p`: if the sender's words are those
chosen by the bits of its secret, then both results have `size` canonical entries and `M = K + u * Delta`. -/
theorem C26_batch (delta : W) (hd : Canon delta) (g0 g1 : Nat → Nat → W) (u : Nat → W) (size : Nat)
    (hu : ∀ j, j < size → Canon (u j)) :
    ∃ K, copeExtendSendB (deltaToBool 61 delta) 61 (fun i j => if delta.toNat.testBit i then g1 i j else g0 i j)
        (copeMsgB g0 g1 u) size = some K ∧
      K.length = size ∧ (copeExtendRecvB 61 g0 size).length = size ∧
      ∀ (j : Nat) (k m : U128), K[j]? = some k → (copeExtendRecvB 61 g0 size)[j]? = some m →
        high64 k = 0 ∧ Canon (low64 k) ∧ high64 m = 0 ∧ Canon (low64 m) ∧
        fp (low64 m) = fp (low64 k) + fp (u j) * fp delta := by
  obtain ⟨d, rfl⟩ : ∃ d, delta = toW d := ⟨fp delta, (toW_fp hd).symm⟩
  have hmsg : ∀ i j, j < size → copeMsgB g0 g1 u i j = toW (fp (g0 i j) - fp (g1 i j) - fp (u j)) :=
    fun i j hj => copeTauB_toW _ _ _ (hu j hj)
  have h := copeExtendSendB_eq d g0 g1 (copeMsgB g0 g1 u) size (fun i j hj => by rw [hmsg i j hj]; exact canon_toW _)
  have e : (fun i j => if (toW d).toNat.testBit i then g1 i j else g0 i j) = otRows d g0 g1 := by
    funext i j
    rw [toW_toNat]
    rfl
  rw [e, h]
  refine ⟨_, rfl, by simp, by simp [copeExtendRecvB], ?_⟩
  intro j k m hk hm
  rw [copeExtendRecvB_eq] at hm
  simp only [List.getElem?_map, Option.map_eq_some_iff] at hk hm
  obtain ⟨j1, hj1, rfl⟩ := hk
  obtain ⟨j2, hj2, rfl⟩ := hm
  have hjs : j < size ∧ j = j1 := by
    rw [List.getElem?_eq_some_iff] at hj1
    obtain ⟨h1, h2⟩ := hj1
    simp at h1 h2
    exact ⟨h1, h2⟩
  rw [hj1, Option.some.injEq] at hj2
  subst hj2
  obtain ⟨hjs, rfl⟩ := hjs
  have hz : ∀ w : W, high64 (w.setWidth 128) = 0 := by
    intro w
    apply BitVec.eq_of_toNat_eq
    rw [high64_toNat, BitVec.toNat_setWidth]
    have := w.isLt
    simp
    omega
  refine ⟨hz _, by rw [low64_setWidth]; exact canon_toW _, hz _, by rw [low64_setWidth]; exact canon_toW _, ?_⟩
  simp only [low64_setWidth, fp_toW]
  have hs : ∑ i ∈ range 61, dbit d i * rowInput g0 g1 (copeMsgB g0 g1 u) i j * 2 ^ i = fp (u j) * d := by
    conv_rhs => rw [← dbit_sum d]
    rw [mul_sum]
    refine sum_congr rfl fun i _ => ?_
    rw [rowInput, hmsg i j hjs, fp_toW]
    ring
  rw [hs]
  ring

/-- C26, single. The same for the version on 128-bit words. -/
theorem C26_single (delta : W) (hd : Canon delta) (g0 g1 : Nat → U128) (u : W) (hu : Canon u) :
    ∃ k m : W, copeExtendSendS (deltaToBool 61 delta) 61 (fun i => if delta.toNat.testBit i then g1 i else g0 i)
        (copeMsgS g0 g1 (u.setWidth 128)) = some (k.setWidth 128) ∧
      copeExtendRecvS 61 g0 = m.setWidth 128 ∧ Canon k ∧ Canon m ∧ fp m = fp k + fp u * fp delta := by
  obtain ⟨d, rfl⟩ : ∃ d, delta = toW d := ⟨fp delta, (toW_fp hd).symm⟩
  obtain ⟨x, rfl⟩ : ∃ x, u = toW x := ⟨fp u, (toW_fp hu).symm⟩
  have hmsg : ∀ i, copeMsgS g0 g1 ((toW x).setWidth 128) i =
      (toW (fp (low64 (g0 i)) - (fp (low64 (g1 i)) + x))).setWidth 128 := by
    intro i
    simp only [copeMsgS, extractFp_toW, mod128_add_toW, PR128_sub_toW]
  have hr : copeExtendRecvS 61 g0 = (toW (∑ i ∈ range 61, fp (low64 (g0 i)) * 2 ^ i)).setWidth 128 := by
    unfold copeExtendRecvS
    simp only [extractFp_toW]
    exact prm2prS_toW _ 61 (le_refl _)
  have hs : copeExtendSendS (deltaToBool 61 (toW d)) 61 (fun i => if (toW d).toNat.testBit i then g1 i else g0 i)
      (copeMsgS g0 g1 ((toW x).setWidth 128)) =
      some ((toW (∑ i ∈ range 61, (fp (low64 (g0 i)) - dbit d i * x) * 2 ^ i)).setWidth 128) := by
    unfold copeExtendSendS
    rw [if_neg (by rw [deltaToBool_length]; omega), Option.some.injEq, ← prm2prS_toW _ 61 (le_refl _)]
    have : ∀ n, n ≤ 61 → ∀ a b : Nat → U128, (∀ i, i < n → a i = b i) → prm2prS a n = prm2prS b n := by
      intro n
      induction n with
      | zero => intro _ a b _; rfl
      | succ n ih =>
        intro hn a b hab
        rw [prm2prS, prm2prS, ih (by omega) a b (fun i hi => hab i (by omega)), hab n (by omega)]
    refine this 61 (le_refl _) _ _ ?_
    intro i hi
    rw [deltaToBool_get _ _ _ hi, hmsg, toW_toNat]
    unfold dbit
    by_cases hb : d.val.testBit i = true
    · simp only [hb, if_true, extractFp_toW, mod128_add_toW, one_mul]
      refine congrArg (fun z => (toW z).setWidth 128) ?_
      ring
    · have := mod128_add_toW (fp (low64 (g0 i))) 0
      rw [toW_zero, add_zero] at this
      simp only [hb, Bool.false_eq_true, if_false, zero_mul, sub_zero, extractFp_toW]
      exact this
  refine ⟨_, _, hs, hr, canon_toW _, canon_toW _, ?_⟩
  simp only [fp_toW]
  have : ∑ i ∈ range 61, (fp (low64 (g0 i)) - dbit d i * x) * 2 ^ i =
      ∑ i ∈ range 61, fp (low64 (g0 i)) * 2 ^ i - x * d := by
    conv_rhs => rw [← dbit_sum d]
    rw [mul_sum, ← sum_sub_distrib]
    refine sum_congr rfl fun i _ => ?_
    ring
  rw [this]
  ring

/-- C26: the hypotheses are met (secret 5, inputs 9, 16, 23), and the results are not all zero. -/
example : Canon 5 ∧ (∀ j, j < 3 → Canon (BitVec.ofNat 64 (7 * j + 9))) ∧
    copeExtendSendB (deltaToBool 61 5) 61 (fun i j => BitVec.ofNat 64 (if (5 : Nat).testBit i then i + j + 100 else 3 * i + j))
      (copeMsgB (fun i j => BitVec.ofNat 64 (3 * i + j)) (fun i j => BitVec.ofNat 64 (i + j + 100))
        (fun j => BitVec.ofNat 64 (7 * j + 9))) 3 =
      some ((copeExtendRecvB 61 (fun i j => BitVec.ofNat 64 (3 * i + j)) 3).zipWith
        (fun m u => (addMod (low64 m) (PR - multMod u 5)).setWidth 128) [9, 16, 23]) := by
  refine ⟨by decide, ?_, by decide +kernel⟩
  intro j hj
  interval_cases j <;> decide

/-! ### C27: completeness -/

/-- C27, completeness. For every secret below `p`, all PRG outputs, all raw random words and every challenge: the receiver's
answer passes the sender's check, and the `size` shares of the two parties are authenticated pairs of the random words. -/
theorem C27_complete (delta : U128) (hd : delta.toNat < pN) (g0 g1 gb0 gb1 : Nat → Nat → W) (size : Nat) (hs : 0 < size)
    (rx : List W) (hrx : rx.length = size + 1) (x : Nat → W) (hx : ∀ j, j ≤ size → rx[j]? = some (x j)) (rseed : W) :
    ∃ share M ans,
      tripleGenRecv 61 g0 gb0 rx (mod64 rseed) = some (M, ans) ∧
      tripleGenSend delta 61 (fun i j => if delta.toNat.testBit i then g1 i j else g0 i j)
        (copeMsgB g0 g1 (fun j => mod64 (x j))) (fun i j => if delta.toNat.testBit i then gb1 i j else gb0 i j)
        (copeMsgB gb0 gb1 (fun _ => mod64 (x size))) size rseed ans = some (some share) ∧
      M.length = size ∧ share.length = size ∧
      ∀ (j : Nat) (m k : U128), M[j]? = some m → share[j]? = some k →
        Auth (low64 delta) m k ∧ fp (high64 m) = fp (x j) := by
  obtain ⟨d, rfl⟩ : ∃ d : Fp, delta = (toW d).setWidth 128 := by
    refine ⟨(delta.toNat : Fp), ?_⟩
    apply BitVec.eq_of_toNat_eq
    rw [toW_wide_toNat, ZMod.val_natCast, Nat.mod_eq_of_lt hd]
  have hmsg : ∀ i j, copeMsgB g0 g1 (fun j => mod64 (x j)) i j = toW (fp (g0 i j) - fp (g1 i j) - fp (x j)) := by
    intro i j
    rw [copeMsgB, copeTauB_toW _ _ _ (canon_mod64 _), fp_mod64]
  have hmsgb : ∀ i j, copeMsgB gb0 gb1 (fun _ => mod64 (x size)) i j = toW (fp (gb0 i j) - fp (gb1 i j) - fp (x size)) := by
    intro i j
    rw [copeMsgB, copeTauB_toW _ _ _ (canon_mod64 _), fp_mod64]
  have er : ∀ a0 a1 : Nat → Nat → W, (fun i j => if ((toW d).setWidth 128).toNat.testBit i then a1 i j else a0 i j) = otRows d a0 a1 := by
    intro a0 a1
    funext i j
    rw [toW_wide_toNat]
    rfl
  rw [er, er]
  have key : ∀ (a0 a1 v : Nat → Nat → W) (y : Nat → Fp) (j : Nat), (∀ i, v i j = toW (fp (a0 i j) - fp (a1 i j) - y j)) →
      ∑ i ∈ range 61, dbit d i * rowInput a0 a1 v i j * 2 ^ i = y j * d := by
    intro a0 a1 v y j h
    conv_rhs => rw [← dbit_sum d]
    rw [mul_sum]
    refine sum_congr rfl fun i _ => ?_
    rw [rowInput, h i, fp_toW]
    ring
  have h1 := copeExtendSendB_eq d g0 g1 (copeMsgB g0 g1 (fun j => mod64 (x j))) size
    (fun i j _ => by rw [hmsg i j]; exact canon_toW _)
  have h2 := copeExtendSendB_eq d gb0 gb1 (copeMsgB gb0 gb1 (fun _ => mod64 (x size))) 1
    (fun i j _ => by rw [hmsgb i j]; exact canon_toW _)
  simp only [key g0 g1 _ (fun j => fp (x j)) _ (fun i => hmsg i _)] at h1
  simp only [key gb0 gb1 _ (fun _ => fp (x size)) _ (fun i => hmsgb i _)] at h2
  have hne : ∀ f : Nat → Fp, (List.range size).map f ≠ [] := by
    intro f h
    have := congrArg List.length h
    simp at this
    omega
  have hcomp : ∀ f : Nat → Fp, (List.range size).map (fun j => (toW (f j)).setWidth 128) =
      ((List.range size).map f).map (fun x => (toW x).setWidth 128) := by
    intro f; simp [Function.comp_def]
  have hlen : (rx.map mod64).length - 1 = size := by simp [hrx]
  have hget : (rx.map mod64)[size]? = some (mod64 (x size)) := by
    rw [List.getElem?_map, hx size (le_refl _)]; rfl
  have htake : (rx.map mod64).take size = ((List.range size).map (fun j => fp (x j))).map toW := by
    apply List.ext_getElem?
    intro j
    by_cases hj : j < size
    · rw [List.getElem?_take_of_lt hj, List.getElem?_map, hx j hj.le, List.getElem?_map, List.getElem?_map,
        List.getElem?_range hj]
      simp only [Option.map_some, mod64_eq_toW]
    · rw [List.getElem?_eq_none (by simp; omega), List.getElem?_eq_none (by simp; omega)]
  have hR : tripleGenRecv 61 g0 gb0 rx (mod64 rseed) = some
      (List.zipWith (fun xi s => makeBlock xi (low64 s)) (((List.range size).map (fun j => fp (x j))).map toW)
        (((List.range size).map (copeMac g0)).map (fun x => (toW x).setWidth 128)),
        (toW (chiSum (fp rseed) ((List.range size).map (copeMac g0)) + copeMac gb0 0),
          toW (chiSum (fp rseed) ((List.range size).map (fun j => fp (x j))) + fp (x size)))) := by
    simp only [tripleGenRecv, hlen, hget, htake, copeExtendRecvB_eq, hcomp]
    simp only [List.range_one, List.map_cons, List.map_nil, List.head?_cons, Option.bind_eq_bind, Option.bind_some,
      low64_setWidth, mod64_eq_toW]
    rw [baseRecverCheck_toW _ _ (hne _) (by simp)]
    simp only [Option.bind_some]
  have hS : ∀ xz, tripleGenSend ((toW d).setWidth 128) 61 (otRows d g0 g1) (copeMsgB g0 g1 (fun j => mod64 (x j)))
      (otRows d gb0 gb1) (copeMsgB gb0 gb1 (fun _ => mod64 (x size))) size rseed xz =
      some (if addMod (toW (chiSum (fp rseed) ((List.range size).map (fun j => copeMac g0 j - fp (x j) * d)) +
          (copeMac gb0 0 - fp (x size) * d))) (multMod xz.2 (toW d)) == xz.1 then
        some (((List.range size).map (fun j => copeMac g0 j - fp (x j) * d)).map (fun x => (toW x).setWidth 128))
        else none) := by
    intro xz
    simp only [tripleGenSend, low64_setWidth, h1, h2, hcomp]
    simp only [List.range_one, List.map_cons, List.map_nil, List.head?_cons, Option.bind_eq_bind, Option.bind_some,
      low64_setWidth, mod64_eq_toW]
    rw [baseSenderCheck_toW _ _ (hne _)]
    simp only [Option.bind_some]
  rw [hR]
  refine ⟨((List.range size).map (fun j => copeMac g0 j - fp (x j) * d)).map (fun x => (toW x).setWidth 128), _, _, rfl,
    ?_, by simp, ?_, ?_⟩
  · rw [hS, if_pos]
    simp only [multMod_toW, addMod_toW, beq_iff_eq]
    refine congrArg toW ?_
    have e := chiSum_add (fp rseed) (List.range size) (fun j => copeMac g0 j) (fun j => fp (x j) * (-d))
    have e2 := chiSum_mul (fp rseed) (-d) (List.range size) (fun j => fp (x j))
    have e3 : (fun j => copeMac g0 j - fp (x j) * d) = fun j => copeMac g0 j + fp (x j) * (-d) := by
      funext j; ring
    rw [e3, e, e2]
    ring
  · simp
  · intro j m k hm hk
    simp only [List.getElem?_zipWith, List.getElem?_map] at hm hk
    by_cases hj : j < size
    · simp only [List.getElem?_range hj, Option.map_some, Option.some.injEq, low64_setWidth] at hm hk
      subst hm; subst hk
      have hz : high64 ((toW (copeMac g0 j - fp (x j) * d)).setWidth 128) = 0 := by
        apply BitVec.eq_of_toNat_eq
        rw [high64_toNat, toW_wide_toNat]
        have := val_lt_pN (copeMac g0 j - fp (x j) * d)
        simp only [pN] at this ⊢
        simp
        omega
      refine ⟨⟨?_, ?_, ?_, hz, ?_⟩, ?_⟩
      · rw [high64_makeBlock]; exact canon_toW _
      · rw [low64_makeBlock]; exact canon_toW _
      · rw [low64_setWidth]; exact canon_toW _
      · simp only [low64_makeBlock, high64_makeBlock, low64_setWidth, fp_toW]; ring
      · simp only [high64_makeBlock, fp_toW]
    · rw [List.getElem?_eq_none (by simp; omega)] at hk
      simp at hk

/-! ### C27: soundness -/

/-- C27. A receiver that uses the same input in all 61 rows has a correct correlation, whatever else it does. -/
theorem C27_consistent (d : Fp) (g0 g1 v : Nat → Nat → W) (size : Nat) (hv : ∀ i j, j < size → Canon (v i j))
    (x : Nat → Fp) (hx : ∀ i j, i < 61 → j < size → fp (g0 i j) - fp (g1 i j) - fp (v i j) = x j) :
    ∃ K, copeExtendSendB (deltaToBool 61 (toW d)) 61 (fun i j => if d.val.testBit i then g1 i j else g0 i j) v size = some K ∧
      K.length = size ∧ ∀ (j : Nat) (k : U128), K[j]? = some k →
        fp (low64 k) = ∑ i ∈ range 61, fp (g0 i j) * 2 ^ i - x j * d := by
  refine ⟨_, copeExtendSendB_eq d g0 g1 v size hv, by simp, ?_⟩
  intro j k hk
  simp only [List.getElem?_map, Option.map_eq_some_iff] at hk
  obtain ⟨j', hj', rfl⟩ := hk
  rw [List.getElem?_eq_some_iff] at hj'
  obtain ⟨h1, h2⟩ := hj'
  simp at h1 h2
  subst h2
  have e : ∑ i ∈ range 61, dbit d i * rowInput g0 g1 v i j * 2 ^ i = x j * d := by
    conv_rhs => rw [← dbit_sum d]
    rw [mul_sum]
    refine sum_congr rfl fun i hi => ?_
    rw [rowInput, hx i j (mem_range.1 hi) h1]
    ring
  rw [low64_setWidth, fp_toW, copeMac, e]

/-- C27, soundness. If the receiver's rows are not consistent (two rows of some column carry different inputs), then for every
way of answering the challenge with words below `p`, at most `size * p + 2^60 * p` of the `p * p` pairs (challenge, secret)
are accepted. -/
theorem C27_sound (g0 g1 v gb0 gb1 vb : Nat → Nat → W) (size : Nat) (hv : ∀ i j, j < size → Canon (v i j))
    (hvb : ∀ i j, j < 1 → Canon (vb i j))
    (hbad : ∃ j, j < size ∧ ∃ i i', i < 61 ∧ i' < 61 ∧
      fp (g0 i j) - fp (g1 i j) - fp (v i j) ≠ fp (g0 i' j) - fp (g1 i' j) - fp (v i' j))
    (answer : Fp → W × W) (hans : ∀ s, Canon (answer s).2) :
    (univ.filter (fun q : Fp × Fp => (tripleGenSend ((toW q.2).setWidth 128) 61
      (fun i j => if q.2.val.testBit i then g1 i j else g0 i j) v
      (fun i j => if q.2.val.testBit i then gb1 i j else gb0 i j) vb size (toW q.1) (answer q.1)).any Option.isSome)).card ≤
      size * pN + 2 ^ 60 * pN := by
  obtain ⟨j, hj, i, i', hi, hi', hne⟩ := hbad
  have h := card_inconsistent_le g0 g1 v gb0 gb1 vb size hv hvb j i i' hj hi hi' hne answer hans
    (fun s d => (tripleGenSend ((toW d).setWidth 128) 61 (otRows d g0 g1) v (otRows d gb0 gb1) vb size (toW s)
      (answer s)).any Option.isSome = true) (fun _ _ h => h) _ (le_refl _)
  have hcard : Fintype.card Fp = pN := ZMod.card pN
  rw [hcard] at h
  exact h

/-- C27, selective failure. A receiver that adds `e j` to its inputs in row `i0` only, and otherwise answers as an honest one,
is accepted exactly if bit `i0` of the secret is 0 (or the combination of the differences is zero): the outcome of the check
reveals that bit. -/
theorem C27_selective_failure (g0 g1 gb0 gb1 : Nat → Nat → W) (size : Nat) (hs : 0 < size) (x e : Nat → Fp) (xb : Fp)
    (i0 : Nat) (hi : i0 < 61) (d s : Fp) :
    (tripleGenSend ((toW d).setWidth 128) 61 (fun i j => if d.val.testBit i then g1 i j else g0 i j)
      (fun i j => toW (fp (g0 i j) - fp (g1 i j) - (x j + if i = i0 then e j else 0)))
      (fun i j => if d.val.testBit i then gb1 i j else gb0 i j)
      (fun i j => toW (fp (gb0 i j) - fp (gb1 i j) - xb)) size (toW s)
      (toW (chiSum s ((List.range size).map (fun j => ∑ i ∈ range 61, fp (g0 i j) * 2 ^ i)) +
          ∑ i ∈ range 61, fp (gb0 i 0) * 2 ^ i),
        toW (chiSum s ((List.range size).map x) + xb))).any Option.isSome ↔
      d.val.testBit i0 = false ∨ chiSum s ((List.range size).map e) = 0 := by
  have h := tripleGenSend_accepts g0 g1 (fun i j => toW (fp (g0 i j) - fp (g1 i j) - (x j + if i = i0 then e j else 0)))
    gb0 gb1 (fun i j => toW (fp (gb0 i j) - fp (gb1 i j) - xb)) size hs (fun _ _ _ => canon_toW _) (fun _ _ _ => canon_toW _)
    d s (toW (chiSum s ((List.range size).map (copeMac g0)) + copeMac gb0 0), toW (chiSum s ((List.range size).map x) + xb))
    (canon_toW _)
  have hr : ∀ k, rowSum g0 g1 (fun i j => toW (fp (g0 i j) - fp (g1 i j) - (x j + if i = i0 then e j else 0)))
      gb0 gb1 (fun i j => toW (fp (gb0 i j) - fp (gb1 i j) - xb)) size s k =
      chiSum s ((List.range size).map x) + xb + if k = i0 then chiSum s ((List.range size).map e) else 0 := by
    intro k
    have e1 : rowInput g0 g1 (fun i j => toW (fp (g0 i j) - fp (g1 i j) - (x j + if i = i0 then e j else 0))) k =
        fun j => x j + e j * (if k = i0 then 1 else 0) := by
      funext j
      rw [rowInput, fp_toW]
      by_cases hk : k = i0
      · rw [if_pos hk, if_pos hk]; ring
      · rw [if_neg hk, if_neg hk]; ring
    rw [rowSum, e1, chiSum_add, chiSum_mul, rowInput, fp_toW]
    by_cases hk : k = i0
    · rw [if_pos hk, if_pos hk]; ring
    · rw [if_neg hk, if_neg hk]; ring
  refine Iff.trans h ?_
  simp only [hr, fp_toW]
  have hsum : ∑ k ∈ range 61, dbit d k * (2 ^ k * (chiSum s ((List.range size).map x) + xb -
      (chiSum s ((List.range size).map x) + xb + if k = i0 then chiSum s ((List.range size).map e) else 0))) =
      -(dbit d i0 * (2 ^ i0 * chiSum s ((List.range size).map e))) := by
    rw [sum_eq_single i0]
    · rw [if_pos rfl]; ring
    · intro k _ hk
      rw [if_neg hk]; ring
    · intro h
      exact absurd (mem_range.2 hi) h
  rw [hsum]
  have hp2 : (2 : Fp) ^ i0 ≠ 0 := pow_ne_zero _ two_ne_zero_fp
  constructor
  · intro h1
    have h2 := toW_inj h1
    have h3 : dbit d i0 * (2 ^ i0 * chiSum s ((List.range size).map e)) = 0 := by linear_combination h2
    rcases mul_eq_zero.1 h3 with h4 | h4
    · left
      unfold dbit at h4
      by_cases hb : d.val.testBit i0 = true
      · rw [if_pos hb] at h4
        exact absurd h4 one_ne_zero
      · exact Bool.eq_false_iff.2 hb
    · right
      exact (mul_eq_zero.1 h4).resolve_left hp2
  · intro h1
    have h3 : dbit d i0 * (2 ^ i0 * chiSum s ((List.range size).map e)) = 0 := by
      rcases h1 with h1 | h1
      · unfold dbit
        rw [h1, if_neg (by decide), zero_mul]
      · rw [h1, mul_zero, mul_zero]
    rw [h3, neg_zero, add_zero]

/-! ### C27: concrete cases -/

/-- Honest run with two shares. -/
example : ∃ share M ans,
      tripleGenRecv 61 (fun i j => BitVec.ofNat 64 (i + 3 * j)) (fun i _ => BitVec.ofNat 64 (7 * i)) [5, 6, 7] (mod64 9) =
        some (M, ans) ∧
      tripleGenSend 13 61 (fun i j => if (13 : U128).toNat.testBit i then BitVec.ofNat 64 (i * i + j) else BitVec.ofNat 64 (i + 3 * j))
        (copeMsgB (fun i j => BitVec.ofNat 64 (i + 3 * j)) (fun i j => BitVec.ofNat 64 (i * i + j))
          (fun j => mod64 (BitVec.ofNat 64 (5 + j))))
        (fun i j => if (13 : U128).toNat.testBit i then BitVec.ofNat 64 (i + j) else BitVec.ofNat 64 (7 * i))
        (copeMsgB (fun i _ => BitVec.ofNat 64 (7 * i)) (fun i j => BitVec.ofNat 64 (i + j)) (fun _ => mod64 (BitVec.ofNat 64 (5 + 2)))) 2 9 ans =
          some (some share) ∧
      M.length = 2 ∧ share.length = 2 ∧
      ∀ (j : Nat) (m k : U128), M[j]? = some m → share[j]? = some k →
        Auth (low64 13) m k ∧ fp (high64 m) = fp (BitVec.ofNat 64 (5 + j)) :=
  C27_complete 13 (by decide) _ _ _ _ 2 (by omega) [5, 6, 7] rfl (fun j => BitVec.ofNat 64 (5 + j))
    (by intro j hj; interval_cases j <;> rfl) 9

/-- Row 0 uses input 1, the other rows input 0; all PRG outputs zero. -/
example : (univ.filter (fun q : Fp × Fp => (tripleGenSend ((toW q.2).setWidth 128) 61
      (fun i j => if q.2.val.testBit i then (fun _ _ => 0) i j else (fun _ _ => 0) i j) (fun i _ => if i = 0 then PR - 1 else 0)
      (fun i j => if q.2.val.testBit i then (fun _ _ => 0) i j else (fun _ _ => 0) i j) (fun _ _ => 0) 1 (toW q.1)
      ((fun _ => (0, 0)) q.1)).any Option.isSome)).card ≤ 1 * pN + 2 ^ 60 * pN :=
  C27_sound (fun _ _ => 0) (fun _ _ => 0) (fun i _ => if i = 0 then PR - 1 else 0) (fun _ _ => 0) (fun _ _ => 0)
    (fun _ _ => 0) 1
    (by intro i j _; by_cases h : i = 0
        · rw [if_pos h]; decide
        · rw [if_neg h]; decide)
    (by intro _ _ _; decide)
    ⟨0, by omega, 0, 1, by omega, by omega, by decide +kernel⟩ (fun _ => (0, 0)) (fun _ => by decide)

/-- The same deviation is accepted for the secret 2 and rejected for the secret 3, for the challenge 1. -/
example : chiSum 1 ((List.range 1).map (fun _ => (1 : Fp))) ≠ 0 ∧ (2 : Fp).val.testBit 0 = false ∧
    (3 : Fp).val.testBit 0 = true := by decide +kernel

/-- Consistent rows: input 5 in every row. -/
example : ∃ K, copeExtendSendB (deltaToBool 61 (toW 6)) 61 (fun i j => if (6 : Fp).val.testBit i then (fun _ _ => 9) i j
      else (fun _ _ => 12) i j) (fun _ _ => PR - 2) 1 = some K ∧
      K.length = 1 ∧ ∀ (j : Nat) (k : U128), K[j]? = some k →
        fp (low64 k) = ∑ i ∈ range 61, fp ((fun _ _ => 12) i j) * 2 ^ i - (fun _ => 5) j * 6 :=
  C27_consistent 6 (fun _ _ => 12) (fun _ _ => 9) (fun _ _ => PR - 2) 1 (fun _ _ _ => by decide) (fun _ => 5)
    (fun _ _ _ _ => by decide +kernel)

end EmpZk
