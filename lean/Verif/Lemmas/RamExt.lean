import Verif.Model.RamExt
import Verif.Lemmas.ZkRamHonest
/-! Helper lemmas for `ZkRamExt`: packing. -/
namespace EmpZk

/-- Widths for which the fields of the first word do not overlap, and cells of at least one word. -/
def RxCfg.Ok (c : RxCfg) : Prop := c.isz ≤ 32 ∧ c.ssz ≤ 31 ∧ 1 ≤ c.vsz

/-- Rows that fit. -/
def RowOf.FitsX (c : RxCfg) (e : ExtEnt) : Prop :=
  e.idx < 2 ^ c.isz ∧ e.step < 2 ^ c.ssz ∧ e.val.length = c.words ∧ ∀ v ∈ e.val, v < 2 ^ 64

/-- The widths the first word of a row is packed with. -/
def extW : RamCfg := ⟨32, 31, 64⟩

theorem extW_ok : extW.Ok := by unfold RamCfg.Ok extW; decide

/-- Words two by two. -/
def pairs : List Nat → List Nat
  | [] => []
  | [a] => [2 ^ 64 * a]
  | a :: b :: l => (b + 2 ^ 64 * a) :: pairs l

/-- The words of a row. -/
def extRow (e : ExtEnt) : List Nat :=
  match e.val with
  | [] => []
  | v :: vs => ramPacked extW ⟨e.idx, e.step, e.op, v⟩ :: pairs vs

theorem pairs_length : ∀ l : List Nat, (pairs l).length = (l.length + 1) / 2
  | [] => rfl
  | [_] => by simp [pairs]
  | _ :: _ :: l => by
    rw [pairs, List.length_cons, pairs_length l, List.length_cons, List.length_cons]
    omega

theorem shl64 {a : Nat} (ha : a < 2 ^ 64) : (a <<< 64) % 2 ^ 128 = 2 ^ 64 * a := by
  rw [Nat.shiftLeft_eq, mul_comm, Nat.mod_eq_of_lt (by omega)]

theorem shl64_or {a b : Nat} (ha : a < 2 ^ 64) (hb : b < 2 ^ 64) : (a <<< 64) % 2 ^ 128 ||| b = b + 2 ^ 64 * a := by
  rw [shl64 ha, ← Nat.two_pow_add_eq_or_of_lt hb, add_comm]

theorem extPackLoop_eq (rows : Nat) (dummy : Bool) : ∀ (l pre : List Nat) (fuel i : Nat), (∀ v ∈ l, v < 2 ^ 64) →
    rows = i + (l.length + 1) / 2 → dummy = (l.length % 2 == 1) → l.length < fuel →
    extPackLoop (pre ++ l) rows dummy fuel i pre.length = some (pairs l)
  | [], pre, fuel, i, _, hr, _, hf => by
    obtain ⟨f, rfl⟩ := Nat.exists_eq_succ_of_ne_zero (show fuel ≠ 0 by omega)
    simp only [List.length_nil] at hr
    rw [extPackLoop, if_neg (by omega), if_neg (by omega)]
    rfl
  | [a], pre, fuel, i, hv, hr, hd, hf => by
    obtain ⟨f, rfl⟩ := Nat.exists_eq_succ_of_ne_zero (show fuel ≠ 0 by omega)
    simp only [List.length_cons, List.length_nil] at hr hd
    have h0 : (pre ++ [a])[pre.length]? = some a := by simp
    rw [extPackLoop, if_neg (by omega), if_pos (by omega), h0, hd]
    simp only [Option.bind_eq_bind, Option.bind_some]
    rw [if_pos (by decide), shl64 (hv a (by simp))]
    rfl
  | [a, b], pre, fuel, i, hv, hr, hd, hf => by
    obtain ⟨f, rfl⟩ := Nat.exists_eq_succ_of_ne_zero (show fuel ≠ 0 by omega)
    simp only [List.length_cons, List.length_nil] at hr hd
    have h0 : (pre ++ [a, b])[pre.length]? = some a := by simp
    have h1 : (pre ++ [a, b])[pre.length + 1]? = some b := by simp
    rw [extPackLoop, if_neg (by omega), if_pos (by omega), h0, h1, hd]
    simp only [Option.bind_eq_bind, Option.bind_some]
    rw [if_neg (by decide), shl64_or (hv a (by simp)) (hv b (by simp))]
    rfl
  | a :: b :: x :: l, pre, fuel, i, hv, hr, hd, hf => by
    obtain ⟨f, rfl⟩ := Nat.exists_eq_succ_of_ne_zero (show fuel ≠ 0 by omega)
    simp only [List.length_cons] at hr hd hf
    have h0 : (pre ++ a :: b :: x :: l)[pre.length]? = some a := by simp
    have h1 : (pre ++ a :: b :: x :: l)[pre.length + 1]? = some b := by simp
    have h2 : pre ++ a :: b :: x :: l = (pre ++ [a, b]) ++ (x :: l) := by simp
    have h3 := extPackLoop_eq rows dummy (x :: l) (pre ++ [a, b]) f (i + 1)
      (fun v h => hv v (List.mem_cons_of_mem _ (List.mem_cons_of_mem _ h))) (by simp only [List.length_cons]; omega)
      (by rw [hd]; simp only [List.length_cons]; congr 1; omega) (by simp only [List.length_cons]; omega)
    rw [extPackLoop, if_pos (by omega), h0, h1]
    simp only [Option.bind_eq_bind, Option.bind_some]
    rw [h2, show pre.length + 2 = (pre ++ [a, b]).length by simp, h3, shl64_or (hv a (by simp)) (hv b (by simp))]
    rfl

theorem extPack_eq {c : RxCfg} (hc : c.Ok) {e : ExtEnt} (h : e.FitsX c) :
    extPack e.idx e.val e.step e.op = some (extRow e) := by
  obtain ⟨h1, h2, h3⟩ := hc
  obtain ⟨a1, a2, a3, a4⟩ := h
  obtain ⟨idx, step, op, val⟩ := e
  simp only at *
  cases val with
  | nil =>
    exfalso
    simp only [List.length_nil, RxCfg.words] at a3
    omega
  | cons v vs =>
    have e1 := packU_eq (c := extW) extW_ok (e := ⟨idx, step, op, v⟩)
      ⟨lt_of_lt_of_le a1 (Nat.pow_le_pow_right (by decide) h1), lt_of_lt_of_le a2 (Nat.pow_le_pow_right (by decide) h2),
        a4 v (by simp)⟩
    rw [packU, if_pos (by decide)] at e1
    have e2 := extPackLoop_eq ((v :: vs).length / 2 + 1) ((v :: vs).length % 2 == 0) vs [v] ((v :: vs).length + 1) 1
      (fun x hx => a4 x (by simp [hx])) (by simp only [List.length_cons]; omega)
      (by
        simp only [List.length_cons]
        rcases Nat.mod_two_eq_zero_or_one vs.length with h | h
        · have : (vs.length + 1) % 2 = 1 := by omega
          rw [h, this]; rfl
        · have : (vs.length + 1) % 2 = 0 := by omega
          rw [h, this]; rfl)
      (by simp only [List.length_cons]; omega)
    unfold extPack
    have e3 : (v :: vs)[0]? = some v := rfl
    simp only [List.singleton_append, List.length_singleton] at e2
    simp only [e3, Option.bind_eq_bind, Option.bind_some, e2]
    simp only [Option.some.injEq] at e1
    simp only [extRow]
    rw [← e1]
    rfl

theorem pair_div {a b : Nat} (ha : a < 2 ^ 64) (hb : b < 2 ^ 64) :
    ((b + 2 ^ 64 * a) >>> 64) % 2 ^ 64 = a ∧ (b + 2 ^ 64 * a) % 2 ^ 64 = b := by
  rw [Nat.shiftRight_eq_div_pow, Nat.add_mul_div_left _ _ (by positivity), Nat.div_eq_of_lt hb, Nat.zero_add,
    Nat.mod_eq_of_lt ha, Nat.add_mul_mod_self_left, Nat.mod_eq_of_lt hb]
  exact ⟨rfl, rfl⟩

theorem extUnpackLoop_eq (n : Nat) (hn : n < 2 ^ 64) (h2 : 2 ≤ n) : ∀ (l pre : List Nat) (fuel j : Nat), l ≠ [] →
    (∀ v ∈ l, v < 2 ^ 64) → (j + 1) / 2 = pre.length → j % 2 = 1 → j + l.length = n → l.length < fuel →
    extUnpackLoop (pre ++ pairs l) n (n % 2 == 0) fuel j = some l
  | [], _, _, _, h, _, _, _, _, _ => absurd rfl h
  | [a], pre, fuel, j, _, hv, hj, ho, hl, hf => by
    obtain ⟨f, rfl⟩ := Nat.exists_eq_succ_of_ne_zero (show fuel ≠ 0 by omega)
    simp only [List.length_cons, List.length_nil] at hl
    have h0 : (pre ++ pairs [a])[(j + 1) / 2]? = some (2 ^ 64 * a) := by rw [hj]; simp [pairs]
    have h1 : (n + 2 ^ 64 - 2) % 2 ^ 64 = n - 2 := by omega
    have h3 : n % 2 = 0 := by omega
    have h4 := (pair_div (hv a (by simp)) (Nat.two_pow_pos 64)).1
    rw [Nat.zero_add] at h4
    rw [extUnpackLoop, h1, if_neg (by omega), h0, h3]
    simp only [Option.bind_eq_bind, Option.bind_some]
    rw [if_pos (by decide), if_pos (by omega), h4]
  | [a, b], pre, fuel, j, _, hv, hj, ho, hl, hf => by
    obtain ⟨f, rfl⟩ := Nat.exists_eq_succ_of_ne_zero (show fuel ≠ 0 by omega)
    simp only [List.length_cons, List.length_nil] at hl
    have h0 : (pre ++ pairs [a, b])[(j + 1) / 2]? = some (b + 2 ^ 64 * a) := by rw [hj]; simp [pairs]
    have h1 : (n + 2 ^ 64 - 2) % 2 ^ 64 = n - 2 := by omega
    have h3 : n % 2 = 1 := by omega
    have h4 := pair_div (hv a (by simp)) (hv b (by simp))
    rw [extUnpackLoop, h1, if_neg (by omega), h0, h3]
    simp only [Option.bind_eq_bind, Option.bind_some, h4.1, h4.2]
    rw [if_neg (by decide), if_pos (by omega)]
  | a :: b :: x :: l, pre, fuel, j, _, hv, hj, ho, hl, hf => by
    obtain ⟨f, rfl⟩ := Nat.exists_eq_succ_of_ne_zero (show fuel ≠ 0 by omega)
    simp only [List.length_cons] at hl hf
    have hp : pairs (a :: b :: x :: l) = (b + 2 ^ 64 * a) :: pairs (x :: l) := rfl
    have h0 : (pre ++ pairs (a :: b :: x :: l))[(j + 1) / 2]? = some (b + 2 ^ 64 * a) := by rw [hj, hp]; simp
    have h1 : (n + 2 ^ 64 - 2) % 2 ^ 64 = n - 2 := by omega
    have h4 := pair_div (hv a (by simp)) (hv b (by simp))
    have h3 := extUnpackLoop_eq n hn h2 (x :: l) (pre ++ [b + 2 ^ 64 * a]) f (j + 2) (by simp)
      (fun v h => hv v (List.mem_cons_of_mem _ (List.mem_cons_of_mem _ h))) (by simp only [List.length_append, List.length_singleton]; omega)
      (by omega) (by simp only [List.length_cons]; omega) (by simp only [List.length_cons]; omega)
    have h5 : pre ++ pairs (a :: b :: x :: l) = (pre ++ [b + 2 ^ 64 * a]) ++ pairs (x :: l) := by rw [hp]; simp
    rw [extUnpackLoop, h1, if_pos (by omega), h0]
    simp only [Option.bind_eq_bind, Option.bind_some, h4.1, h4.2]
    rw [if_pos (by omega), h5, h3]
    rfl

theorem extUnpack_eq {c : RxCfg} (hc : c.Ok) (hn : c.words < 2 ^ 64) (h2 : 2 ≤ c.words) {e : ExtEnt} (h : e.FitsX c) :
    extUnpack c (extRow e) = some e := by
  obtain ⟨h1, h3, h4⟩ := hc
  obtain ⟨a1, a2, a3, a4⟩ := h
  obtain ⟨idx, step, op, val⟩ := e
  simp only at *
  cases val with
  | nil =>
    exfalso
    simp only [List.length_nil] at a3
    omega
  | cons v vs =>
    have e2 := ram_unpack_pack (c := extW) extW_ok (e := ⟨idx, step, op, v⟩)
      ⟨lt_of_lt_of_le a1 (Nat.pow_le_pow_right (by decide) h1), lt_of_lt_of_le a2 (Nat.pow_le_pow_right (by decide) h3),
        a4 v (by simp)⟩
    simp only [List.length_cons] at a3
    have e1 := extUnpackLoop_eq c.words hn h2 vs [ramPacked extW ⟨idx, step, op, v⟩] (c.words + 1) 1
      (by intro h; rw [h] at a3; simp only [List.length_nil] at a3; omega) (fun x hx => a4 x (by simp [hx])) rfl rfl
      (by omega) (by omega)
    have e3 : (extRow ⟨idx, step, op, v :: vs⟩)[0]? = some (ramPacked extW ⟨idx, step, op, v⟩) := rfl
    have e4 : extRow ⟨idx, step, op, v :: vs⟩ = [ramPacked extW ⟨idx, step, op, v⟩] ++ pairs vs := rfl
    unfold extUnpack
    rw [e3, e4]
    simp only [Option.bind_eq_bind, Option.bind_some, e1]
    generalize ramPacked extW ⟨idx, step, op, v⟩ = w at *
    unfold unpackU extW at e2
    simp only [RowOf.mk.injEq] at e2
    obtain ⟨f1, f2, f3, f4⟩ := e2
    rw [Nat.and_two_pow_sub_one_eq_mod] at f1 f2 f4
    have f2' : ((w >>> 64) % 2 ^ 64) >>> 1 = step + 2 ^ 31 * (((w >>> 64) % 2 ^ 64) >>> 1 >>> 31) := by
      have := Nat.mod_add_div (((w >>> 64) % 2 ^ 64) >>> 1) (2 ^ 31)
      rw [f2] at this
      rw [Nat.shiftRight_eq_div_pow _ 31]
      exact this.symm
    have f1' : ((w >>> 64) % 2 ^ 64) >>> 1 >>> 31 = idx := by
      rw [← f1, Nat.shiftRight_add _ 31 1]
      generalize w >>> 64 = x
      simp only [Nat.shiftRight_eq_div_pow]
      omega
    simp only [Nat.and_two_pow_sub_one_eq_mod, Option.some.injEq, RowOf.mk.injEq, f3, f4, f1', and_true]
    refine ⟨?_, ?_⟩
    · rw [Nat.mod_mod, Nat.mod_eq_of_lt a1]
    · rw [Nat.mod_mod, f2', f1']
      have : (2 : Nat) ^ 31 = 2 ^ c.ssz * 2 ^ (31 - c.ssz) := (pow_mul_pow_sub 2 h3).symm
      rw [this, mul_assoc, Nat.add_mul_mod_self_left, Nat.mod_eq_of_lt a2]

/-- With one word per cell the row has one word, and the unpacking reads a second. -/
theorem extUnpack_one {c : RxCfg} (h : c.words = 1) (w : Nat) : extUnpack c [w] = none := by
  unfold extUnpack
  have e3 : ([w] : List Nat)[0]? = some w := rfl
  simp only [e3, h, Option.bind_eq_bind, Option.bind_some]
  have : extUnpackLoop [w] 1 (1 % 2 == 0) (1 + 1) 1 = none := by
    rw [extUnpackLoop, if_pos (by decide)]
    rfl
  rw [this]
  rfl

/-! ### MACs -/

section
variable {F : Type} [Field F] [BlockField F]

theorem wordF_pair {a b : Nat} (_ha : a < 2 ^ 64) (hb : b < 2 ^ 64) :
    (wordF (b + 2 ^ 64 * a) : F) =
      ∑ i ∈ Finset.range 64, bit (a.testBit i) * gX ^ (64 + i) + ∑ i ∈ Finset.range 64, bit (b.testBit i) * gX ^ (0 + i) := by
  rw [wordF_eq, show 128 = 64 + 64 from rfl, sum_testBit_split _ hb, add_comm]
  simp only [Nat.zero_add]

/-- Blocks of a committed word with its keys. -/
abbrev keyBits (n : Nat) (k : Nat → F) : List F := (List.range n).map k

theorem innBase_mac (off n w : Nat) (k : Nat → F) (delta : F) (h : off + n ≤ 128) :
    innBase off (macBits n w k delta) (macBits n w k delta).length =
      some (∑ i ∈ Finset.range n, k i * gX ^ (off + i) + (∑ i ∈ Finset.range n, bit (w.testBit i) * gX ^ (off + i)) * delta) := by
  have : (macBits n w k delta).length = n := by simp [macBits]
  rw [this, macBits, innBase_map _ _ _ _ (le_refl n) h, Finset.sum_mul, ← Finset.sum_add_distrib]
  congr 1
  apply Finset.sum_congr rfl
  intro i _
  ring

theorem innBase_key (off n : Nat) (k : Nat → F) (h : off + n ≤ 128) :
    innBase off (keyBits n k) (keyBits n k).length = some (∑ i ∈ Finset.range n, k i * gX ^ (off + i)) := by
  have : (keyBits n k).length = n := by simp [keyBits]
  rw [this, keyBits, innBase_map _ _ _ _ (le_refl n) h]

/-- Committed words with their keys. -/
abbrev kvals (vs : List (Nat × (Nat → F))) : List (List F) := vs.map (fun p => keyBits 64 p.2)

/-- The same words as MACs. -/
abbrev mvals (delta : F) (vs : List (Nat × (Nat → F))) : List (List F) := vs.map (fun p => macBits 64 p.1 p.2 delta)

theorem extPackMacLoop_eq (delta : F) (rows : Nat) (dummy : Bool) : ∀ (l pre : List (Nat × (Nat → F))) (fuel i : Nat),
    (∀ v ∈ l, v.1 < 2 ^ 64) → rows = i + (l.length + 1) / 2 → dummy = (l.length % 2 == 1) → l.length < fuel →
    ∃ Ks, extPackMacLoop (kvals (pre ++ l)) rows dummy fuel i pre.length = some Ks ∧ Ks.length = (pairs (l.map Prod.fst)).length ∧
      extPackMacLoop (mvals delta (pre ++ l)) rows dummy fuel i pre.length =
        some (List.zipWith (fun k w => k + wordF w * delta) Ks (pairs (l.map Prod.fst)))
  | [], pre, fuel, i, _, hr, _, hf => by
    obtain ⟨f, rfl⟩ := Nat.exists_eq_succ_of_ne_zero (show fuel ≠ 0 by omega)
    simp only [List.length_nil] at hr
    refine ⟨[], ?_, rfl, ?_⟩ <;> rw [extPackMacLoop, if_neg (by omega), if_neg (by omega)] <;> rfl
  | [a], pre, fuel, i, hv, hr, hd, hf => by
    obtain ⟨f, rfl⟩ := Nat.exists_eq_succ_of_ne_zero (show fuel ≠ 0 by omega)
    simp only [List.length_cons, List.length_nil] at hr hd
    have h0 : (kvals (pre ++ [a]))[pre.length]? = some (keyBits 64 a.2) := by simp
    have h0' : (mvals delta (pre ++ [a]))[pre.length]? = some (macBits 64 a.1 a.2 delta) := by simp
    refine ⟨[∑ i ∈ Finset.range 64, a.2 i * gX ^ (64 + i) + 0], ?_, rfl, ?_⟩
    · rw [extPackMacLoop, if_neg (by omega), if_pos (by omega), h0, hd]
      simp only [Option.bind_eq_bind, Option.bind_some]
      rw [innBase_key _ _ _ (by decide)]
      simp only [Option.bind_some]
      rw [if_pos (by decide)]
    · rw [extPackMacLoop, if_neg (by omega), if_pos (by omega), h0', hd]
      simp only [Option.bind_eq_bind, Option.bind_some]
      rw [innBase_mac _ _ _ _ _ (by decide)]
      simp only [Option.bind_some]
      rw [if_pos (by decide)]
      have := wordF_pair (F := F) (hv a (by simp)) (Nat.two_pow_pos 64)
      simp only [Nat.zero_testBit, bit_false, zero_mul, Finset.sum_const_zero, add_zero, Nat.zero_add] at this
      simp only [List.map_cons, List.map_nil, pairs, List.zipWith_cons_cons, List.zipWith_nil_left, this, add_zero]
  | [a, b], pre, fuel, i, hv, hr, hd, hf => by
    obtain ⟨f, rfl⟩ := Nat.exists_eq_succ_of_ne_zero (show fuel ≠ 0 by omega)
    simp only [List.length_cons, List.length_nil] at hr hd
    have h0 : (kvals (pre ++ [a, b]))[pre.length]? = some (keyBits 64 a.2) := by simp
    have h1 : (kvals (pre ++ [a, b]))[pre.length + 1]? = some (keyBits 64 b.2) := by simp
    have h0' : (mvals delta (pre ++ [a, b]))[pre.length]? = some (macBits 64 a.1 a.2 delta) := by simp
    have h1' : (mvals delta (pre ++ [a, b]))[pre.length + 1]? = some (macBits 64 b.1 b.2 delta) := by simp
    refine ⟨[∑ i ∈ Finset.range 64, a.2 i * gX ^ (64 + i) + ∑ i ∈ Finset.range 64, b.2 i * gX ^ (0 + i)], ?_, rfl, ?_⟩
    · rw [extPackMacLoop, if_neg (by omega), if_pos (by omega), h0, h1, hd]
      simp only [Option.bind_eq_bind, Option.bind_some]
      rw [innBase_key _ _ _ (by decide), innBase_key _ _ _ (by decide)]
      simp only [Option.bind_some]
      rw [if_neg (by decide)]
    · rw [extPackMacLoop, if_neg (by omega), if_pos (by omega), h0', h1', hd]
      simp only [Option.bind_eq_bind, Option.bind_some]
      rw [innBase_mac _ _ _ _ _ (by decide), innBase_mac _ _ _ _ _ (by decide)]
      simp only [Option.bind_some]
      rw [if_neg (by decide)]
      simp only [List.map_cons, List.map_nil, pairs, List.zipWith_cons_cons, List.zipWith_nil_left,
        wordF_pair (F := F) (hv a (by simp)) (hv b (by simp)), Option.some.injEq, List.cons.injEq, and_true]
      ring
  | a :: b :: x :: l, pre, fuel, i, hv, hr, hd, hf => by
    obtain ⟨f, rfl⟩ := Nat.exists_eq_succ_of_ne_zero (show fuel ≠ 0 by omega)
    simp only [List.length_cons] at hr hd hf
    have h0 : (kvals (pre ++ a :: b :: x :: l))[pre.length]? = some (keyBits 64 a.2) := by simp
    have h1 : (kvals (pre ++ a :: b :: x :: l))[pre.length + 1]? = some (keyBits 64 b.2) := by simp
    have h0' : (mvals delta (pre ++ a :: b :: x :: l))[pre.length]? = some (macBits 64 a.1 a.2 delta) := by simp
    have h1' : (mvals delta (pre ++ a :: b :: x :: l))[pre.length + 1]? = some (macBits 64 b.1 b.2 delta) := by simp
    have h2 : pre ++ a :: b :: x :: l = (pre ++ [a, b]) ++ (x :: l) := by simp
    obtain ⟨Ks, k1, k2, k3⟩ := extPackMacLoop_eq delta rows dummy (x :: l) (pre ++ [a, b]) f (i + 1)
      (fun v h => hv v (List.mem_cons_of_mem _ (List.mem_cons_of_mem _ h))) (by simp only [List.length_cons]; omega)
      (by rw [hd]; simp only [List.length_cons]; congr 1; omega) (by simp only [List.length_cons]; omega)
    have hp : pairs ((a :: b :: x :: l).map Prod.fst) = (b.1 + 2 ^ 64 * a.1) :: pairs ((x :: l).map Prod.fst) := rfl
    have hl : (pre ++ [a, b]).length = pre.length + 2 := by simp
    rw [← h2, hl] at k1 k3
    refine ⟨(∑ i ∈ Finset.range 64, a.2 i * gX ^ (64 + i) + ∑ i ∈ Finset.range 64, b.2 i * gX ^ (0 + i)) :: Ks, ?_, ?_, ?_⟩
    · rw [extPackMacLoop, if_pos (by omega), h0, h1]
      simp only [Option.bind_eq_bind, Option.bind_some]
      rw [innBase_key _ _ _ (by decide), innBase_key _ _ _ (by decide)]
      simp only [Option.bind_some, k1]
    · rw [hp, List.length_cons, List.length_cons, k2]
    · rw [extPackMacLoop, if_pos (by omega), h0', h1']
      simp only [Option.bind_eq_bind, Option.bind_some]
      rw [innBase_mac _ _ _ _ _ (by decide), innBase_mac _ _ _ _ _ (by decide)]
      simp only [Option.bind_some, k3]
      rw [hp, List.zipWith_cons_cons, wordF_pair (F := F) (hv a (by simp)) (hv b (by simp))]
      simp only [Option.some.injEq, List.cons.injEq, and_true]
      ring

/-- MACs and keys of a row of several words: word by word the MAC relation on the packed words. -/
theorem extPackMac_key {c : RxCfg} (hc : c.Ok) (delta : F) (e : ExtEnt) (vs : List (Nat × (Nat → F)))
    (hvs : vs.map Prod.fst = e.val) (he : e.FitsX c) (ki ks : Nat → F) (ko : F) :
    ∃ Ks, extPackMac (keyBits c.isz ki) (kvals vs) (keyBits c.ssz ks) ko = some Ks ∧ Ks.length = (extRow e).length ∧
      extPackMac (macBits c.isz e.idx ki delta) (mvals delta vs) (macBits c.ssz e.step ks delta) (ko + bit e.op * delta) =
        some (List.zipWith (fun k w => k + wordF w * delta) Ks (extRow e)) := by
  obtain ⟨h1, h2, h3⟩ := hc
  obtain ⟨a1, a2, a3, a4⟩ := he
  obtain ⟨idx, step, op, val⟩ := e
  simp only at *
  subst hvs
  cases vs with
  | nil =>
    exfalso
    simp only [List.map_nil, List.length_nil, RxCfg.words] at a3
    omega
  | cons v vs =>
    obtain ⟨Ks, k1, k2, k3⟩ := extPackMacLoop_eq delta ((v :: vs).length / 2 + 1) ((v :: vs).length % 2 == 0) vs [v]
      ((v :: vs).length + 1) 1
      (fun x hx => a4 x.1 (by simp only [List.map_cons, List.mem_cons, List.mem_map]; exact Or.inr ⟨x, hx, rfl⟩))
      (by simp only [List.length_cons]; omega)
      (by
        simp only [List.length_cons]
        rcases Nat.mod_two_eq_zero_or_one vs.length with h | h
        · have : (vs.length + 1) % 2 = 1 := by omega
          rw [h, this]; rfl
        · have : (vs.length + 1) % 2 = 0 := by omega
          rw [h, this]; rfl)
      (by simp only [List.length_cons]; omega)
    have ho : ∀ b : F, [b] = (List.range 1).map (fun _ => b) := fun b => rfl
    have hlk : (kvals (v :: vs)).length = (v :: vs).length := by simp
    have hlm : (mvals delta (v :: vs)).length = (v :: vs).length := by simp
    have e0 : (kvals (v :: vs))[0]? = some (keyBits 64 v.2) := rfl
    have e0' : (mvals delta (v :: vs))[0]? = some (macBits 64 v.1 v.2 delta) := rfl
    simp only [List.singleton_append, List.length_singleton] at k1 k3
    have hw := wordF_packed (F := F) extW_ok ⟨idx, step, op, v.1⟩
    have hs : ∑ i ∈ Finset.range 31, (bit (step.testBit i) * gX ^ (64 + 1 + i) : F) =
        ∑ i ∈ Finset.range c.ssz, bit (step.testBit i) * gX ^ (64 + 1 + i) := by
      have := sum_testBit_ext (m := 31 - c.ssz) (fun i => (gX : F) ^ (64 + 1 + i)) a2
      rw [show c.ssz + (31 - c.ssz) = 31 by omega] at this
      exact this
    have hi : ∑ i ∈ Finset.range 32, (bit (idx.testBit i) * gX ^ (64 + 1 + 31 + i) : F) =
        ∑ i ∈ Finset.range c.isz, bit (idx.testBit i) * gX ^ (64 + 1 + 31 + i) := by
      have := sum_testBit_ext (m := 32 - c.isz) (fun i => (gX : F) ^ (64 + 1 + 31 + i)) a1
      rw [show c.isz + (32 - c.isz) = 32 by omega] at this
      exact this
    have hb : ∑ i ∈ Finset.range 1, (bit (op.toNat.testBit i) * gX ^ (64 + i) : F) = bit op * gX ^ 64 := by
      rw [Finset.sum_range_one]
      cases op <;> simp
    rw [show extW.vsz = 64 from rfl, show extW.ssz = 31 from rfl, show extW.isz = 32 from rfl, hs, hi, hb] at hw
    refine ⟨(∑ i ∈ Finset.range 64, v.2 i * gX ^ (0 + i) + ko * gX ^ 64 + ∑ i ∈ Finset.range c.ssz, ks i * gX ^ (65 + i) +
      ∑ i ∈ Finset.range c.isz, ki i * gX ^ (96 + i)) :: Ks, ?_, ?_, ?_⟩
    · unfold extPackMac
      simp only [hlk, e0, k1, Option.bind_eq_bind, Option.bind_some]
      rw [innBase_key _ _ _ (by decide), ho, innBase_map _ _ _ _ (le_refl 1) (by decide), innBase_key _ _ _ (by omega),
        innBase_key _ _ _ (by omega)]
      simp only [Option.bind_some, Finset.sum_range_one, Nat.add_zero]
    · simp [extRow, k2]
    · unfold extPackMac
      simp only [hlm, e0', k3, Option.bind_eq_bind, Option.bind_some]
      rw [innBase_mac _ _ _ _ _ (by decide), ho, innBase_map _ _ _ _ (le_refl 1) (by decide), innBase_mac _ _ _ _ _ (by omega),
        innBase_mac _ _ _ _ _ (by omega)]
      simp only [Option.bind_some, Finset.sum_range_one, Nat.add_zero, extRow, List.map_cons, List.zipWith_cons_cons, hw,
        Option.some.injEq, List.cons.injEq, and_true]
      ring

/-! ### compression -/

/-- Combination of a row with coefficients. -/
def rowDot (coef row : List F) : F := (List.zipWith (· * ·) coef row).sum

omit [BlockField F] in
theorem compressRow_eq (coef row : List F) : ∀ n, n ≤ coef.length → n ≤ row.length →
    compressRow coef row n = some (rowDot (coef.take n) (row.take n)) := by
  intro n
  induction n with
  | zero => intro _ _; simp [compressRow, rowDot]
  | succ n ih =>
    intro h1 h2
    rw [compressRow, ih (by omega) (by omega), List.getElem?_eq_getElem (show n < coef.length by omega),
      List.getElem?_eq_getElem (show n < row.length by omega)]
    simp only [Option.bind_eq_bind, Option.bind_some, rowDot, List.take_add_one,
      List.getElem?_eq_getElem (show n < coef.length by omega), List.getElem?_eq_getElem (show n < row.length by omega),
      Option.toList_some]
    rw [List.zipWith_append (by simp; omega)]
    simp

omit [BlockField F] in
theorem compressRow_full {coef row : List F} (h : row.length = coef.length) : compressRow coef row coef.length = some (rowDot coef row) := by
  rw [compressRow_eq coef row coef.length (le_refl _) (by omega), List.take_length, ← h, List.take_length]

theorem mapM_opt_congr {α β : Type} {f g : α → Option β} : ∀ {l : List α}, (∀ a ∈ l, f a = g a) → l.mapM f = l.mapM g
  | [], _ => rfl
  | a :: l, h => by
    rw [List.mapM_cons, List.mapM_cons, h a (by simp), mapM_opt_congr (l := l) (fun x hx => h x (by simp [hx]))]

omit [BlockField F] in
theorem compressRows_eq (coef : List F) (rows : List (List F)) (h : ∀ r ∈ rows, r.length = coef.length) :
    compressRows coef rows rows.length coef.length = some (rows.map (rowDot coef)) := by
  have := mapM_range_eq (rowDot coef) rows
  rw [← this, compressRows]
  apply mapM_opt_congr
  intro i hi
  have hi' : i < rows.length := List.mem_range.1 hi
  rw [List.getElem?_eq_getElem hi']
  simp only [Option.bind_some, Option.map_some]
  exact compressRow_full (h _ (List.getElem_mem hi'))

omit [BlockField F] in
theorem rowDot_mac (delta : F) : ∀ (coef ks ws : List F), ks.length = ws.length →
    rowDot coef (List.zipWith (fun k w => k + w * delta) ks ws) = rowDot coef ks + rowDot coef ws * delta
  | [], _, _, _ => by simp [rowDot]
  | _ :: _, [], [], _ => by simp [rowDot]
  | c :: cs, k :: ks, w :: ws, h => by
    have ih := rowDot_mac delta cs ks ws (by simpa using h)
    simp only [rowDot, List.zipWith_cons_cons, List.sum_cons] at ih ⊢
    rw [ih]
    ring

end
end EmpZk
