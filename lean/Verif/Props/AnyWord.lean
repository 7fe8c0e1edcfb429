/-
Property C79: 64-bit words given to the arithmetic API that are not below p.
-/
import Verif.Props.ArithProtocol

namespace EmpZk

/-- `add_mod` on arbitrary words: right up to a carry lost beyond 64 bits, which subtracts 8. -/
theorem fp_addMod_wrap (a b : W) : ∃ c : Bool, fp (addMod a b) = fp a + fp b - (if c then 8 else 0) := by
  have h64 : ((2 ^ 64 : Nat) : Fp) = 8 := by decide +kernel
  have ha := a.isLt
  have hb := b.isLt
  have key : fp (addMod a b) = (((a.toNat + b.toNat) % 2 ^ 64 : Nat) : Fp) := by
    unfold fp addMod
    simp only [condSub_toNat, BitVec.toNat_add]
    split
    · rw [Nat.cast_sub (by assumption), pN_cast_zero, sub_zero]
    · rfl
  by_cases hc : a.toNat + b.toNat < 2 ^ 64
  · refine ⟨false, ?_⟩
    rw [key, Nat.mod_eq_of_lt hc, Nat.cast_add]
    simp [fp]
  · refine ⟨true, ?_⟩
    have : (a.toNat + b.toNat) % 2 ^ 64 = a.toNat + b.toNat - 2 ^ 64 := by omega
    rw [key, this, Nat.cast_sub (by omega), Nat.cast_add, h64]
    simp [fp]

/-- C79 (inputs, exactly). The correction word sent for the input `w` masked by `u` stands for `u - w` when `w ≤ u + p`, and
for `u - w + 8` otherwise: then the prover is committed to another value than `w`. -/
theorem C79_input_word (c : U128) (hu : Canon (high64 c)) (w : W) :
    fp (feedA c w).2 = fp (high64 c) - fp w + (if (high64 c).toNat + pN < w.toNat then 8 else 0) := by
  have h64 : ((2 ^ 64 : Nat) : Fp) = 8 := by decide +kernel
  simp only [feedA]
  generalize high64 c = u at *
  unfold Canon at hu
  have hw := w.isLt
  have key : fp (addMod u (PR - w)) = (((u.toNat + (2 ^ 64 - w.toNat + pN)) % 2 ^ 64 : Nat) : Fp) := by
    unfold fp addMod
    have e : (u + (PR - w)).toNat = (u.toNat + (2 ^ 64 - w.toNat + pN)) % 2 ^ 64 := by
      rw [BitVec.toNat_add, BitVec.toNat_sub, PR_toNat, Nat.add_mod_mod]
    simp only [condSub_toNat]
    rw [e]
    split
    · rw [Nat.cast_sub (by assumption), pN_cast_zero, sub_zero]
    · rfl
  rw [key]
  by_cases h : u.toNat + pN < w.toNat
  · rw [if_pos h]
    have : (u.toNat + (2 ^ 64 - w.toNat + pN)) % 2 ^ 64 = u.toNat + pN + 2 ^ 64 - w.toNat := by
      simp only [pN] at *; omega
    rw [this, Nat.cast_sub (by omega), Nat.cast_add, Nat.cast_add, h64, pN_cast_zero]
    unfold fp; ring
  · rw [if_neg h]
    have : (u.toNat + (2 ^ 64 - w.toNat + pN)) % 2 ^ 64 = u.toNat + pN - w.toNat := by
      simp only [pN] at *; omega
    rw [this, Nat.cast_sub (by omega), Nat.cast_add, pN_cast_zero]
    unfold fp; ring

theorem eight_ne_zero : (8 : Fp) ≠ 0 := by decide +kernel

theorem card_val_lt (n : Nat) : (Finset.univ.filter (fun u : Fp => u.val < n)).card = min pN n := by
  rw [← Finset.card_range (min pN n)]
  refine Finset.card_bij (fun u _ => u.val) ?_ ?_ ?_
  · intro u hu
    simp only [Finset.mem_filter, Finset.mem_univ, true_and] at hu
    simp only [Finset.mem_range, lt_min_iff]
    exact ⟨ZMod.val_lt u, hu⟩
  · intro u _ v _ h
    exact ZMod.val_injective _ h
  · intro m hm
    simp only [Finset.mem_range, lt_min_iff] at hm
    have hv : ((m : Nat) : Fp).val = m := ZMod.val_cast_of_lt hm.1
    exact ⟨(m : Fp), by simp only [Finset.mem_filter, Finset.mem_univ, true_and, hv]; exact hm.2, hv⟩

/-- C79 (inputs, how often). Among the `p` masks, exactly `min p (w - p)` make the correction word of the input `w` a wrong one:
none for `w ≤ p`, all for `w ≥ 2p`. -/
theorem C79_input_count (m : Fp) (w : W) :
    (Finset.univ.filter (fun u : Fp => fp (feedA (lab (u, m)) w).2 ≠ u - fp w)).card = min pN (w.toNat - pN) := by
  rw [← card_val_lt]
  refine congrArg Finset.card (Finset.filter_congr ?_)
  intro u _
  rw [C79_input_word _ (by rw [high64_lab]; exact canon_toW u), high64_lab, fp_toW, toW_toNat]
  by_cases h : u.val + pN < w.toNat
  · rw [if_pos h]
    constructor
    · intro _; omega
    · intro _ h2
      exact eight_ne_zero (by linear_combination h2)
  · rw [if_neg h]
    constructor
    · intro h2; exact absurd (add_zero _) h2
    · intro h2; omega

/-- The word stored by the verifier when the input `w` is opened to `w`: the MAC of the prover plus `8 Delta`, up to three
lost carries. -/
theorem open_input (d u m : Fp) (w : W) (hw : u.val + pN < w.toNat) :
    ∃ n : Nat, n ≤ 3 ∧
      fp (openB (toW d) w (feedB (toW d) (keyAt d (u, m)) (feedA (lab (u, m)) w).2)) = m + 8 * d - 8 * (n : Fp) := by
  have hl := C79_input_word (lab (u, m)) (by rw [high64_lab]; exact canon_toW u) w
  rw [high64_lab, fp_toW, toW_toNat, if_pos hw] at hl
  have hk := fp_feedB d (u, m) (feedA (lab (u, m)) w).2
  obtain ⟨b1, h1⟩ := (fp_multMod_any (feedA (lab (u, m)) w).2 d).1
  obtain ⟨b2, h2⟩ := (fp_multMod_any w d).1
  obtain ⟨b3, h3⟩ := fp_addMod_wrap (multMod w (toW d)) (low64 (feedB (toW d) (keyAt d (u, m)) (feedA (lab (u, m)) w).2))
  refine ⟨b1.toNat + b2.toNat + b3.toNat, ?_, ?_⟩
  · cases b1 <;> cases b2 <;> cases b3 <;> decide
  · rw [openB, h3, h2, hk, h1, hl]
    cases b1 <;> cases b2 <;> cases b3 <;> simp <;> ring

/-- C79 is false for inputs: whenever the input `w` exceeds `p` plus the mask, the honest session that inputs `w` and opens
it is rejected, for every `Delta` but 0, 1, 2, 3. -/
theorem C79_input_false (e : AEnv) (he : e.Good) (w : W) (hw : (e.u 1).toNat + pN < w.toNat) (hd : 4 ≤ e.delta.toNat)
    (hash : ∀ x y, e.hash [x] = e.hash [y] → x = y) :
    ∃ P ms fin V, aprvSession e [.input w, .reveal 0] = some (P, ms, fin) ∧
      averSession e [.input w, .reveal 0] ms fin = some V ∧ V.outs = [w] ∧ V.accepted = false := by
  have hmac := he.cor 1
  have hcor : e.cor 1 = lab (fp (e.u 1), fp (e.mac 1)) := by
    simp only [AEnv.cor, lab, toW_fp (he.u 1), toW_fp (he.mac 1)]
  have hkey : e.keyU 1 = keyAt (fp e.delta) (fp (e.u 1), fp (e.mac 1)) := by
    simp only [AEnv.keyU, keyAt]
    congr 1
    refine eq_toW (he.key 1) ?_
    rw [hmac]; ring
  have hval : ((fp (e.u 1)) : Fp).val = (e.u 1).toNat := by
    unfold fp; exact ZMod.val_cast_of_lt (he.u 1)
  obtain ⟨n, hn, ho⟩ := open_input (fp e.delta) (fp (e.u 1)) (fp (e.mac 1)) w (by rw [hval]; exact hw)
  rw [toW_fp he.delta, ← hcor, ← hkey] at ho
  have hne : openB e.delta w (feedB e.delta (e.keyU 1) (feedA (e.cor 1) w).2) ≠ e.mac 1 := by
    intro h
    rw [h] at ho
    have h8 : (8 : Fp) * (fp e.delta - (n : Fp)) = 0 := by linear_combination -ho
    rcases mul_eq_zero.1 h8 with h | h
    · exact eight_ne_zero h
    · have h' : fp e.delta = (n : Fp) := sub_eq_zero.1 h
      have hv := congrArg ZMod.val h'
      rw [show (fp e.delta).val = e.delta.toNat from ZMod.val_cast_of_lt he.delta,
        ZMod.val_cast_of_lt (by simp only [pN]; omega)] at hv
      omega
  have hlow : low64 (feedA (e.cor 1) w).1 = e.mac 1 := by simp [feedA, AEnv.cor]
  have hhigh : high64 (feedA (e.cor 1) w).1 = w := by simp [feedA]
  refine ⟨_, _, _, _, rfl, rfl, ?_, ?_⟩
  · simp [averFinHash, APrv.init, AVer.init, hhigh]
  · simp only [AVer.accepted, averFinHash, APrv.init, AVer.init]
    rw [hhigh, hlow]
    have hb : (e.hash ([] ++ [openB e.delta w (feedB e.delta (e.keyU 1) (feedA (e.cor 1) w).2)]) == e.hash ([] ++ [e.mac 1])) =
        false := by
      rw [beq_eq_false_iff_ne]
      exact fun h => hne (hash _ _ h)
    rw [hb]; rfl

/-- The hash of the example environment distinguishes single words. -/
theorem exHash_inj (x y : W) (h : exEnvA.hash [x] = exEnvA.hash [y]) : x = y := by
  have hx := x.isLt
  have hy := y.isLt
  have := congrArg BitVec.toNat h
  simp only [exEnvA, List.foldl_cons, List.foldl_nil, BitVec.toNat_ofNat] at this
  rw [Nat.mod_eq_of_lt (by omega), Nat.mod_eq_of_lt (by omega)] at this
  exact BitVec.eq_of_toNat_eq (by omega)

/-- The input `p + 4` with the mask 3 and `Delta = 5`. -/
example : ∃ P ms fin V, aprvSession exEnvA [.input (PR + 4), .reveal 0] = some (P, ms, fin) ∧
    averSession exEnvA [.input (PR + 4), .reveal 0] ms fin = some V ∧ V.outs = [PR + 4] ∧ V.accepted = false :=
  C79_input_false exEnvA exEnvA_good (PR + 4) (by decide +kernel) (by decide) exHash_inj

example : (Finset.univ.filter (fun u : Fp => fp (feedA (lab (u, 7)) (PR + 4)).2 ≠ u - fp (PR + 4))).card = 4 := by
  rw [C79_input_count 7 (PR + 4)]
  decide +kernel

/-- C79 is false for constants: with `Delta = p - 1` the verifier's key of the public constant `2^64 - 1` is 8 too large,
whatever the fixed MAC of the constants is. -/
theorem C79_public_false (pm : W) (hpm : Canon pm) :
    fp (low64 (pubB (PR - 1) pm 18446744073709551615)) = fp pm - fp 18446744073709551615 * fp (PR - 1) + 8 := by
  unfold Canon at hpm
  have e : PR - multMod (PR - 1) 18446744073709551615 = 4611686018427387917 := by decide +kernel
  have hc : - (fp 18446744073709551615 * fp (PR - 1)) + 8 = ((4611686018427387917 : Nat) : Fp) := by decide +kernel
  simp only [pubB, low64_keyWord, e]
  have h := addMod_toNat_gen (4611686018427387917 : W) pm (by
    rw [show (4611686018427387917 : W).toNat = 4611686018427387917 from rfl]
    simp only [pN] at hpm
    omega)
  rw [show (4611686018427387917 : W).toNat = 4611686018427387917 from rfl] at h
  have h2 : fp (addMod 4611686018427387917 pm) = ((4611686018427387917 + pm.toNat : Nat) : Fp) := by
    conv_lhs => unfold fp
    rw [h]
    split
    · rw [Nat.cast_sub (by assumption), pN_cast_zero, sub_zero]
    · rfl
  rw [h2, Nat.cast_add, ← hc]
  unfold fp
  ring

/-- An environment with `Delta = p - 1`. -/
def exEnvW : AEnv := { exEnvA with delta := PR - 1, key := fun _ => 25 }

theorem exEnvW_good : exEnvW.Good where
  delta := by decide +kernel
  key := fun _ => by simp only [exEnvW]; decide +kernel
  u := fun _ => by simp only [exEnvW, exEnvA]; decide +kernel
  mac := fun _ => by simp only [exEnvW, exEnvA]; decide +kernel
  pub := by decide +kernel
  cor := fun _ => by simp only [exEnvW, exEnvA]; decide +kernel

/-- Result of an honest session: does the verifier accept? -/
def honestAccepts (e : AEnv) (ops : List AOp) : Option Bool := do
  let q ← aprvSession e ops
  let V ← averSession e ops q.2.1 q.2.2
  some V.accepted

/-- C79 is false for constants in sessions: a public constant `2^64 - 1` added to an input, and an input multiplied with
`2^64 - 1`, make the honest session be rejected. -/
theorem C79_constants_false :
    (∃ e : AEnv, e.Good ∧ honestAccepts e [.pub 18446744073709551615, .input 1, .add 0 1, .reveal 2] = some false) ∧
    (∃ e : AEnv, e.Good ∧ honestAccepts e [.input 1152921504606846976, .mulc 0 18446744073709551615, .reveal 1] =
      some false) :=
  ⟨⟨exEnvW, exEnvW_good, by decide +kernel⟩, ⟨exEnvA, exEnvA_good, by decide +kernel⟩⟩

/-- C79 is false for expected values: an honest opening of the value `w < p` is refused when the expected word is another
word of the same residue, e.g. `w + p`. -/
theorem C79_expected_false (e : AEnv) (w x : W) (h : x ≠ w) :
    honestAccepts e [.input w, .revealCheck 0 x] = some false := by
  have hb : (x == w) = false := beq_eq_false_iff_ne.2 h
  simp [honestAccepts, aprvSession, aprvRun, aprvStep, APrv.init, feedA, aprvFinalize, aprvFinPoly, aprvFinMul, averSession, averRun,
    averStep, AVer.init, averFinalize, averFinPoly, averFinMul, averFinHash, AVer.accepted, hb]

example : honestAccepts exEnvA [.input 3, .revealCheck 0 (PR + 3)] = some false ∧ fp (PR + 3) = fp 3 :=
  ⟨C79_expected_false exEnvA 3 (PR + 3) (by decide), by decide +kernel⟩

/-- C79 (what holds): with words below `p` everywhere the honest session is accepted and returns the values of the plain
program. Missing from C79 as stated: words of `p` and more; false, see the theorems above. -/
theorem C79_partial (e : AEnv) (he : e.Good) (ops : List AOp) (ho : ∀ o ∈ ops, o.CanonC) (b : Bool)
    (h : honestAccepts e ops = some b) :
    ∃ pl, aplainRun ops = some pl ∧ ((∀ x ∈ pl.claims, x = 0) → b = true) := by
  unfold honestAccepts at h
  simp only [Option.bind_eq_bind, Option.bind_eq_some_iff, Option.some.injEq] at h
  obtain ⟨⟨P, ms, fin⟩, h1, V, h2, rfl⟩ := h
  obtain ⟨V', pl, k1, k2, _, _, _, k3⟩ := C17_honest_session e he ops ho P ms fin h1
  simp only at h2
  rw [h2, Option.some.injEq] at k1
  subst k1
  exact ⟨pl, k2, k3⟩

example : honestAccepts exEnvA [.input 1, .mulc 0 (PR - 1), .reveal 1] = some true := by decide +kernel

end EmpZk
