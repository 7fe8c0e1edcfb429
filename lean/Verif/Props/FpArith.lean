/-
Property theorems C01-C04: arithmetic modulo p = 2^61 - 1.
-/
import Verif.Lemmas.WordVec

namespace EmpZk

/-! ## C01 -/

/-- C01: `mul64` returns exactly the low and high words of the product. -/
theorem C01_mul64_exact (a b : W) :
    (mul64 a b).1.toNat + 2^64 * (mul64 a b).2.toNat = a.toNat * b.toNat := by
  obtain ⟨h1, h2⟩ := mul64_toNat a b
  rw [h1, h2]; omega

example : (mul64 0xFFFFFFFFFFFFFFFF 0xFFFFFFFFFFFFFFFE).2 = 0xFFFFFFFFFFFFFFFD := by decide

/-- C01: `mod` is exact and canonical on every 64-bit word. -/
theorem C01_mod_exact (x : W) : (mod64 x).toNat = x.toNat % (2^61 - 1) := mod64_toNat x

example : (mod64 0xFFFFFFFFFFFFFFFF).toNat = 7 := by decide

/-- C01: `add_mod` is exact and canonical when the sum is below 2p. -/
theorem C01_add_exact (a b : W) (h : a.toNat + b.toNat < 2 * (2^61 - 1)) :
    (addMod a b).toNat = (a.toNat + b.toNat) % (2^61 - 1) := addMod_toNat a b h

example : (2305843009213693950#64).toNat + (2305843009213693951#64).toNat < 2 * (2^61 - 1) ∧
    (addMod 2305843009213693950#64 2305843009213693951#64).toNat = 2305843009213693950 := by decide

/-- C01: the domain of `add_mod` is tight: at 2p the result is not canonical. -/
theorem C01_add_domain_tight :
    ∃ a b : W, a.toNat + b.toNat = 2 * (2^61 - 1) ∧ ¬ (addMod a b).toNat < 2^61 - 1 :=
  ⟨PR, PR, by decide, by decide⟩

/-- C01: `mult_mod` is exact and canonical on canonical operands. -/
theorem C01_mult_exact (a b : W) (ha : a.toNat < 2^61 - 1) (hb : b.toNat < 2^61 - 1) :
    (multMod a b).toNat = a.toNat * b.toNat % (2^61 - 1) :=
  multMod_toNat a b (mul_canon_lt ha hb)

example : (2305843009213693950#64).toNat < 2^61 - 1 ∧
    (multMod 2305843009213693950#64 2305843009213693950#64).toNat = 1 := by decide

/-- C01: on a wider domain (one operand may be unreduced) `mult_mod` is still exact. -/
theorem C01_mult_exact_wide (a b : W) (h : a.toNat * b.toNat < (2^61 - 1) * 2^61) :
    (multMod a b).toNat = a.toNat * b.toNat % (2^61 - 1) := multMod_toNat a b h

example : (PR).toNat * (2305843009213693950#64).toNat < (2^61 - 1) * 2^61 ∧
    multMod PR 2305843009213693950#64 = 0 := by decide

/-- C01: `mod_pre` folds a product of two canonical values (any number below 2^122) to a congruent word of at most 62 bits. -/
theorem C01_mod_pre (x : U128) (h : x.toNat < 2^122) :
    (modPre x).toNat < 2^62 ∧ (modPre x).toNat % (2^61 - 1) = x.toNat % (2^61 - 1) := by
  have e1 : (x &&& PR128).toNat = x.toNat % 2^61 := by
    rw [BitVec.toNat_and, show PR128.toNat = 2^61 - 1 by decide, Nat.and_two_pow_sub_one_eq_mod]
  have e2 : (x >>> 61).toNat = x.toNat / 2^61 := by rw [BitVec.toNat_ushiftRight, Nat.shiftRight_eq_div_pow]
  have e : (modPre x).toNat = x.toNat % 2^61 + x.toNat / 2^61 := by
    unfold modPre
    rw [BitVec.toNat_setWidth, BitVec.toNat_add, e1, e2]
    omega
  rw [e]
  omega

example : modPre (2305843009213693950#128 * 2305843009213693950#128) = 2305843009213693952#64 := by decide +kernel

/-- C01: `extract_fp` keeps the residue of the low word. -/
theorem C01_extract_exact (x : U128) :
    (extractFp x).toNat = (low64 x).toNat % (2^61 - 1) := by
  unfold extractFp
  rw [BitVec.toNat_setWidth, mod64_toNat]
  apply Nat.mod_eq_of_lt
  have := Nat.mod_lt (low64 x).toNat (show 0 < pN by norm_num)
  simp only [pN] at *; omega

example : extractFp (makeBlock 5 0xFFFFFFFFFFFFFFFF) = 7#128 := by decide

/-- C01: consequently the words with `add_mod`, `mult_mod` and `PR - x` realise the field F_p. -/
theorem C01_field_homomorphism (a b : W) (ha : a.toNat < 2^61 - 1) (hb : b.toNat < 2^61 - 1) :
    ((addMod a b).toNat : Fp) = a.toNat + b.toNat ∧
    ((multMod a b).toNat : Fp) = a.toNat * b.toNat ∧
    ((addMod a (PR - b)).toNat : Fp) = a.toNat - b.toNat ∧
    (addMod a b).toNat < 2^61 - 1 ∧ (multMod a b).toNat < 2^61 - 1 ∧
    (addMod a (PR - b)).toNat < 2^61 - 1 :=
  ⟨fp_addMod_canon ha hb, fp_multMod ha hb, fp_addMod_sub ha hb,
    canon_addMod ha hb, canon_multMod ha hb, canon_addMod_sub ha hb⟩

example : (3#64).toNat < 2^61 - 1 ∧ addMod 3#64 (PR - 5#64) = 2305843009213693949#64 := by decide

/-! ## C02 -/

/-- C02: `vec_mod` reduces each lane as the scalar `mod`, for all lane contents. -/
theorem C02_vec_mod (h l : W) : vecMod (makeBlock h l) = makeBlock (mod64 h) (mod64 l) := by
  apply block_ext
  · rw [high64_vecMod, high64_makeBlock, high64_makeBlock]
  · rw [low64_vecMod, low64_makeBlock, low64_makeBlock]

example : vecMod (makeBlock 0xFFFFFFFFFFFFFFFF 3) = makeBlock 7 3 := by decide

/-- C02: `vec_partial_mod` is the scalar conditional subtraction in each lane (lanes < 2^63,
as the comparison is signed). -/
theorem C02_vec_cond_sub (h l : W) (hh : h.toNat < 2^63) (hl : l.toNat < 2^63) :
    vecPartialMod (makeBlock h l) =
      makeBlock (if PR ≤ h then h - PR else h) (if PR ≤ l then l - PR else l) := by
  apply block_ext
  · rw [high64_vecPartialMod, high64_makeBlock, high64_makeBlock, laneSub_eq _ hh]
  · rw [low64_vecPartialMod, low64_makeBlock, low64_makeBlock, laneSub_eq _ hl]

example : (2305843009213693952#64).toNat < 2^63 ∧
    vecPartialMod (makeBlock 2305843009213693952#64 2#64) = makeBlock 1 2 := by decide

/-- C02: why the lane bound is there: the signed comparison leaves lanes ≥ 2^63 unreduced. -/
theorem C02_signed_compare_limit :
    ∃ h l : W, vecPartialMod (makeBlock h l) ≠
      makeBlock (if PR ≤ h then h - PR else h) (if PR ≤ l then l - PR else l) :=
  ⟨0x8000000000000000, 0, by decide⟩

/-- C02: `mult_mod(block, u64)`. -/
theorem C02_mult_mod_block (h l b : W) (hh : h.toNat < 2^61 - 1) (hl : l.toNat < 2^61 - 1)
    (hb : b.toNat < 2^61 - 1) :
    multModV (makeBlock h l) b = makeBlock (multMod h b) (multMod l b) := by
  apply block_ext
  · rw [high64_multModV, high64_makeBlock, high64_makeBlock, laneMul_eq _ _ (canon_mul_lt hh hb)]
  · rw [low64_multModV, low64_makeBlock, low64_makeBlock, laneMul_eq _ _ (canon_mul_lt hl hb)]

example : multModV (makeBlock 2305843009213693950 7) 2305843009213693950 =
    makeBlock 1 2305843009213693944 := by decide

/-- C02: `mult_mod_bch2` on blocks. -/
theorem C02_mult_mod_bch2_block (h0 l0 h1 l1 b0 b1 : W)
    (hh0 : h0.toNat < 2^61 - 1) (hl0 : l0.toNat < 2^61 - 1)
    (hh1 : h1.toNat < 2^61 - 1) (hl1 : l1.toNat < 2^61 - 1)
    (hb0 : b0.toNat < 2^61 - 1) (hb1 : b1.toNat < 2^61 - 1) :
    multModBch2V (makeBlock h0 l0) (makeBlock h1 l1) b0 b1 =
      (makeBlock (multMod h0 b0) (multMod l0 b0), makeBlock (multMod h1 b1) (multMod l1 b1)) := by
  rw [multModBch2V_eq, C02_mult_mod_block _ _ _ hh0 hl0 hb0, C02_mult_mod_block _ _ _ hh1 hl1 hb1]

example : multModBch2V (makeBlock 2 3) (makeBlock 5 7) 11 13 =
    (makeBlock 22 33, makeBlock 65 91) := by decide

/-- C02: `mult_mod_bch2` on words. -/
theorem C02_mult_mod_bch2_word (a0 a1 b0 b1 : W)
    (h0 : a0.toNat < 2^61 - 1) (h1 : a1.toNat < 2^61 - 1)
    (hb0 : b0.toNat < 2^61 - 1) (hb1 : b1.toNat < 2^61 - 1) :
    multModBch2 (a0, a1) (b0, b1) = (multMod a0 b0, multMod a1 b1) := by
  rw [multModBch2_eq, laneMul_eq _ _ (canon_mul_lt h0 hb0), laneMul_eq _ _ (canon_mul_lt h1 hb1)]

example : multModBch2 (2305843009213693950, 3) (2305843009213693950, 5) = (1, 15) := by decide

/-- C02: `mult_mod_bch4` on words. -/
theorem C02_mult_mod_bch4_word (a0 a1 a2 a3 b0 b1 b2 b3 : W)
    (h0 : a0.toNat < 2^61 - 1) (h1 : a1.toNat < 2^61 - 1)
    (h2 : a2.toNat < 2^61 - 1) (h3 : a3.toNat < 2^61 - 1)
    (hb0 : b0.toNat < 2^61 - 1) (hb1 : b1.toNat < 2^61 - 1)
    (hb2 : b2.toNat < 2^61 - 1) (hb3 : b3.toNat < 2^61 - 1) :
    multModBch4 (a0, a1, a2, a3) (b0, b1, b2, b3) =
      (multMod a0 b0, multMod a1 b1, multMod a2 b2, multMod a3 b3) := by
  rw [multModBch4_eq, laneMul_eq _ _ (canon_mul_lt h0 hb0), laneMul_eq _ _ (canon_mul_lt h1 hb1),
    laneMul_eq _ _ (canon_mul_lt h2 hb2), laneMul_eq _ _ (canon_mul_lt h3 hb3)]

example : multModBch4 (1, 2, 3, 2305843009213693950) (5, 6, 7, 2305843009213693950) =
    (5, 12, 21, 1) := by decide

/-- C02: the AVX512 `mult_mod_bch4` on four blocks. -/
theorem C02_mult_mod_bch4_block (h l : Fin 4 → W) (b : Fin 4 → W)
    (hh : ∀ i, (h i).toNat < 2^61 - 1) (hl : ∀ i, (l i).toNat < 2^61 - 1)
    (hb : ∀ i, (b i).toNat < 2^61 - 1) (i : Fin 4) :
    multModBch4Avx (fun j => makeBlock (h j) (l j)) b i =
      makeBlock (multMod (h i) (b i)) (multMod (l i) (b i)) := by
  rw [multModBch4Avx_eq, C02_mult_mod_block _ _ _ (hh i) (hl i) (hb i)]

example : multModBch4Avx (fun _ => makeBlock 2305843009213693950 3) (fun _ => 2305843009213693950) 2 =
    makeBlock 1 2305843009213693948 := by decide

/-- C02: `add_mod` on blocks. -/
theorem C02_add_mod_block (h l h' l' : W) (hh : h.toNat < 2^61 - 1) (hl : l.toNat < 2^61 - 1)
    (hh' : h'.toNat < 2^61 - 1) (hl' : l'.toNat < 2^61 - 1) :
    addModV (makeBlock h l) (makeBlock h' l') = makeBlock (addMod h h') (addMod l l') := by
  apply block_ext
  · rw [high64_addModV]; simp only [high64_makeBlock]; exact laneAdd_eq _ _ (by omega)
  · rw [low64_addModV]; simp only [low64_makeBlock]; exact laneAdd_eq _ _ (by omega)

example : addModV (makeBlock 2305843009213693950 3) (makeBlock 5 7) = makeBlock 4 10 := by decide

/-- C02: `add_mod(block, u64)` adds the word to both lanes. -/
theorem C02_add_mod_block_word (h l b : W) (hh : h.toNat < 2^61 - 1) (hl : l.toNat < 2^61 - 1)
    (hb : b.toNat < 2^61 - 1) :
    addModVW (makeBlock h l) b = makeBlock (addMod h b) (addMod l b) :=
  C02_add_mod_block h l b b hh hl hb hb

example : addModVW (makeBlock 2305843009213693950 3) 5 = makeBlock 4 8 := by decide

/-! ## C03 -/

/-- C03: exact characterisation of the 128-bit reduction: always congruent, ... -/
theorem C03_mod128_congr (k : U128) : ((mod128 k PR128).toNat : Fp) = (k.toNat : Fp) := by
  rw [mod128_toNat_gen]
  have e : ((k.toNat : Nat) : Fp) = ((k.toNat % 2^61 + k.toNat / 2^61 : Nat) : Fp) := by
    rw [ZMod.natCast_eq_natCast_iff']; exact mersenne_fold _
  rw [e]
  simp only
  split
  · rename_i h
    rw [Nat.cast_sub h, pN_cast_zero, sub_zero]
  · rfl

/-- C03: ... and canonical exactly when one folding leaves less than 2p. -/
theorem C03_mod128_canonical_iff (k : U128) :
    (mod128 k PR128).toNat < 2^61 - 1 ↔ k.toNat % 2^61 + k.toNat / 2^61 < 2 * (2^61 - 1) := by
  rw [mod128_toNat_gen]
  simp only [pN]
  split <;> omega

/-- C03: exact on everything below p * 2^61. -/
theorem C03_mod128_exact (k : U128) (h : k.toNat < (2^61 - 1) * 2^61) :
    (mod128 k PR128).toNat = k.toNat % (2^61 - 1) := mod128_toNat k h

/-- C03: products of canonical elements, and elements shifted left by up to 61 places
(`x * 2^i`, as in the bit composition of COPE), are in the domain. -/
theorem C03_domain (a b : W) (i : Nat) (ha : a.toNat < 2^61 - 1) (hb : b.toNat < 2^61 - 1)
    (hi : i ≤ 61) :
    mod128 (a.setWidth 128 * b.setWidth 128) PR128 =
      BitVec.ofNat 128 (a.toNat * b.toNat % (2^61 - 1)) ∧
    mod128 (a.setWidth 128 <<< i) PR128 = BitVec.ofNat 128 (a.toNat * 2^i % (2^61 - 1)) := by
  have hab := mul_canon_lt ha hb
  have h2 : 2^i ≤ 2^61 := Nat.pow_le_pow_right (by omega) hi
  have hai : a.toNat * 2^i < pN * 2^61 :=
    Nat.mul_lt_mul_of_lt_of_le ha h2 (by positivity)
  have ea : (a.setWidth 128).toNat = a.toNat := by
    simp; omega
  have eb : (b.setWidth 128).toNat = b.toNat := by
    simp; omega
  have lt1 : a.toNat * b.toNat < 2^128 := by simp only [pN] at hab; omega
  have lt2 : a.toNat * 2^i < 2^128 := by simp only [pN] at hai; omega
  have m1 := Nat.mod_lt (a.toNat * b.toNat) (show 0 < pN by norm_num)
  have m2 := Nat.mod_lt (a.toNat * 2^i) (show 0 < pN by norm_num)
  constructor
  · apply BitVec.eq_of_toNat_eq
    have e : (a.setWidth 128 * b.setWidth 128 : U128).toNat = a.toNat * b.toNat := by
      rw [BitVec.toNat_mul, ea, eb, Nat.mod_eq_of_lt lt1]
    rw [mod128_toNat _ (by rw [e]; exact hab), e, BitVec.toNat_ofNat]
    exact (Nat.mod_eq_of_lt (lt_trans m1 (by norm_num))).symm
  · apply BitVec.eq_of_toNat_eq
    have e : (a.setWidth 128 <<< i : U128).toNat = a.toNat * 2^i := by
      rw [BitVec.toNat_shiftLeft, ea, Nat.shiftLeft_eq, Nat.mod_eq_of_lt lt2]
    rw [mod128_toNat _ (by rw [e]; exact hai), e, BitVec.toNat_ofNat]
    exact (Nat.mod_eq_of_lt (lt_trans m2 (by norm_num))).symm

example : mod128 ((2305843009213693950#64).setWidth 128 * (2305843009213693950#64).setWidth 128) PR128
    = 1#128 := by decide

/-- C03: outside that range the result need not be canonical. -/
theorem C03_noncanonical_witness :
    ∃ k : U128, ¬ (mod128 k PR128).toNat < 2^61 - 1 := ⟨BitVec.allOnes 128, by decide⟩

/-! ## C04 -/

/-- C04: the coefficients are the successive powers of the seed, canonical, for every length. -/
theorem C04_coeff_powers (seed : W) (hs : seed.toNat < 2^61 - 1) (n : Nat) (hn : 0 < n) :
    ∃ l, uniHashCoeffGen seed n = some l ∧ l.length = n ∧
      ∀ i (h : i < l.length), (l[i].toNat : Fp) = (seed.toNat : Fp) ^ (i + 1) ∧
        l[i].toNat < 2^61 - 1 := by
  cases n with
  | zero => omega
  | succ n =>
    refine ⟨_, rfl, by simp [coeffFrom_length], ?_⟩
    intro i h
    cases i with
    | zero => exact ⟨by simp, hs⟩
    | succ i =>
      simp only [List.getElem_cons_succ]
      have h' : i < (coeffFrom seed seed n).length := by simpa using h
      obtain ⟨h1, h2⟩ := coeffFrom_get seed seed hs hs n i h'
      refine ⟨?_, h1⟩
      unfold fp at h2
      rw [h2]; ring

example : uniHashCoeffGen 3 4 = some [3, 9, 27, 81] := by decide

/-- C04: for length zero the first store is out of bounds. -/
theorem C04_coeff_zero_length_ub (seed : W) : uniHashCoeffGen seed 0 = none := rfl

/-- C04: the inner product is exact and canonical for every length. -/
theorem C04_inner_product (a b : List W) (hlen : a.length = b.length)
    (ha : ∀ x ∈ a, x.toNat < 2^61 - 1) (hb : ∀ x ∈ b, x.toNat < 2^61 - 1) :
    ((innPrdtSumRed a b).toNat : Fp) =
      ∑ i : Fin a.length, (a[i].toNat : Fp) * ((b[i.1]'(hlen ▸ i.2)).toNat : Fp) ∧
    (innPrdtSumRed a b).toNat < 2^61 - 1 := by
  obtain ⟨h1, h2⟩ := innPrdtLoop_spec 0 a b canon_zero ha hb
  refine ⟨?_, h1⟩
  have h3 : ((innPrdtSumRed a b).toNat : Fp) =
      (List.zipWith (fun x y => fp x * fp y) a b).sum := by
    rw [fp_zero, zero_add] at h2; exact h2
  rw [h3]
  clear h1 h2 h3 ha hb
  induction a generalizing b with
  | nil => simp
  | cons x a ih =>
    cases b with
    | nil => simp at hlen
    | cons y b =>
      rw [List.zipWith_cons_cons, List.sum_cons, ih b (by simpa using hlen)]
      exact (Fin.sum_univ_succ (n := a.length) (fun i : Fin (a.length + 1) =>
        ((x :: a)[i].toNat : Fp) * (((y :: b)[i.1]'(hlen ▸ i.2)).toNat : Fp))).symm

example : innPrdtSumRed [2305843009213693950, 2, 3] [2305843009213693950, 5, 7] = 32 := by decide

end EmpZk
