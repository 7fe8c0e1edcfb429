import Verif.Model.ZkRam
import Verif.Lemmas.F2kChain
import Mathlib.Data.Nat.Bitwise
import Mathlib.Data.List.Sort
import Mathlib.Tactic.Ring
/-! Helper lemmas for `ZKRAM`. -/
namespace EmpZk

/-- Widths for which no shift overflows. -/
def RamCfg.Ok (c : RamCfg) : Prop := c.isz + c.ssz + 1 ≤ 64 ∧ 1 ≤ c.isz ∧ c.vsz ≤ 64

/-- Rows that fit the widths. -/
def RowOf.Fits (c : RamCfg) (e : RamEnt) : Prop := e.idx < 2 ^ c.isz ∧ e.step < 2 ^ c.ssz ∧ e.val < 2 ^ c.vsz

theorem ramPacked_fits {c : RamCfg} {e : RamEnt} (h : e.Fits c) :
    ramPacked c e = e.val + 2 ^ c.vsz * (e.op.toNat + 2 * (e.step + 2 ^ c.ssz * e.idx)) := by
  rw [ramPacked, Nat.mod_eq_of_lt h.1, Nat.mod_eq_of_lt h.2.1, Nat.mod_eq_of_lt h.2.2]

theorem packU_eq {c : RamCfg} (hc : c.Ok) {e : RamEnt} (h : e.Fits c) :
    packU c e.idx e.val e.step e.op = some (ramPacked c e) := by
  obtain ⟨h1, h2, h3⟩ := hc
  obtain ⟨a1, a2, a3⟩ := h
  rw [packU, if_pos ⟨by omega, by omega⟩]
  congr 1
  have hop : e.op.toNat &&& 1 = e.op.toNat := by cases e.op <;> rfl
  have e1 : (e.idx <<< (c.ssz + 1)) % 2 ^ 64 = 2 ^ (c.ssz + 1) * e.idx := by
    rw [Nat.shiftLeft_eq, mul_comm]
    apply Nat.mod_eq_of_lt
    calc 2 ^ (c.ssz + 1) * e.idx < 2 ^ (c.ssz + 1) * 2 ^ c.isz := Nat.mul_lt_mul_of_pos_left a1 (by positivity)
      _ = 2 ^ (c.ssz + 1 + c.isz) := by rw [← pow_add]
      _ ≤ 2 ^ 64 := Nat.pow_le_pow_right (by decide) (by omega)
  have e2 : (e.step <<< 1) % 2 ^ 64 = 2 ^ 1 * e.step := by
    rw [Nat.shiftLeft_eq, mul_comm]
    apply Nat.mod_eq_of_lt
    calc 2 ^ 1 * e.step < 2 ^ 1 * 2 ^ c.ssz := Nat.mul_lt_mul_of_pos_left a2 (by positivity)
      _ = 2 ^ (1 + c.ssz) := by rw [← pow_add]
      _ ≤ 2 ^ 64 := Nat.pow_le_pow_right (by decide) (by omega)
  have hs : 2 ^ 1 * e.step + e.op.toNat < 2 ^ (c.ssz + 1) := by
    have : e.op.toNat < 2 := Bool.toNat_lt _
    have : 2 ^ (c.ssz + 1) = 2 * 2 ^ c.ssz := by rw [pow_succ]; ring
    omega
  rw [hop, e1, e2, Nat.or_assoc, ← Nat.two_pow_add_eq_or_of_lt (Bool.toNat_lt _) e.step,
    ← Nat.two_pow_add_eq_or_of_lt hs e.idx]
  have hlt : 2 ^ (c.ssz + 1) * e.idx + (2 ^ 1 * e.step + e.op.toNat) < 2 ^ 64 := by
    calc 2 ^ (c.ssz + 1) * e.idx + (2 ^ 1 * e.step + e.op.toNat) < 2 ^ (c.ssz + 1) * e.idx + 2 ^ (c.ssz + 1) := by omega
      _ = 2 ^ (c.ssz + 1) * (e.idx + 1) := by ring
      _ ≤ 2 ^ (c.ssz + 1) * 2 ^ c.isz := Nat.mul_le_mul_left _ a1
      _ = 2 ^ (c.ssz + 1 + c.isz) := by rw [← pow_add]
      _ ≤ 2 ^ 64 := Nat.pow_le_pow_right (by decide) (by omega)
  have e3 : ((2 ^ (c.ssz + 1) * e.idx + (2 ^ 1 * e.step + e.op.toNat)) <<< c.vsz) % 2 ^ 128 =
      2 ^ c.vsz * (2 ^ (c.ssz + 1) * e.idx + (2 ^ 1 * e.step + e.op.toNat)) := by
    rw [Nat.shiftLeft_eq, mul_comm]
    apply Nat.mod_eq_of_lt
    calc _ < 2 ^ c.vsz * 2 ^ 64 := Nat.mul_lt_mul_of_pos_left hlt (by positivity)
      _ = 2 ^ (c.vsz + 64) := by rw [← pow_add]
      _ ≤ 2 ^ 128 := Nat.pow_le_pow_right (by decide) (by omega)
  rw [e3, ← Nat.two_pow_add_eq_or_of_lt a3, ramPacked_fits ⟨a1, a2, a3⟩, pow_succ]
  ring

theorem ramPacked_lt {c : RamCfg} (hc : c.Ok) (e : RamEnt) : ramPacked c e < 2 ^ 128 := by
  obtain ⟨h1, h2, h3⟩ := hc
  have p : ∀ n : Nat, 0 < 2 ^ n := fun n => by positivity
  have b1 := Nat.mod_lt e.val (p c.vsz)
  have b2 := Nat.mod_lt e.step (p c.ssz)
  have b3 := Nat.mod_lt e.idx (p c.isz)
  have b4 : e.op.toNat < 2 := Bool.toNat_lt _
  unfold ramPacked
  generalize e.val % 2 ^ c.vsz = v at *
  generalize e.step % 2 ^ c.ssz = s at *
  generalize e.idx % 2 ^ c.isz = i at *
  have c1 : s + 2 ^ c.ssz * i < 2 ^ c.ssz * 2 ^ c.isz := by
    calc s + 2 ^ c.ssz * i < 2 ^ c.ssz * (i + 1) := by rw [Nat.mul_add]; omega
      _ ≤ _ := Nat.mul_le_mul_left _ b3
  rw [← pow_add] at c1
  have c2 : e.op.toNat + 2 * (s + 2 ^ c.ssz * i) < 2 ^ 64 := by
    calc e.op.toNat + 2 * (s + 2 ^ c.ssz * i) < 2 * 2 ^ (c.ssz + c.isz) := by omega
      _ = 2 ^ (c.ssz + c.isz + 1) := by rw [pow_succ]; ring
      _ ≤ 2 ^ 64 := Nat.pow_le_pow_right (by decide) (by omega)
  generalize e.op.toNat + 2 * (s + 2 ^ c.ssz * i) = w at *
  calc v + 2 ^ c.vsz * w < 2 ^ c.vsz * (w + 1) := by rw [Nat.mul_add]; omega
    _ ≤ 2 ^ c.vsz * 2 ^ 64 := Nat.mul_le_mul_left _ c2
    _ = 2 ^ (c.vsz + 64) := by rw [← pow_add]
    _ ≤ 2 ^ 128 := Nat.pow_le_pow_right (by decide) (by omega)

/-- `a + 2^n * b` determines `a < 2^n` and `b`. -/
theorem addMul_inj {n a b a' b' : Nat} (ha : a < 2 ^ n) (ha' : a' < 2 ^ n) (h : a + 2 ^ n * b = a' + 2 ^ n * b') :
    a = a' ∧ b = b' := by
  have h1 := congrArg (· % 2 ^ n) h
  have h2 := congrArg (· / 2 ^ n) h
  simp only [Nat.add_mul_mod_self_left, Nat.mod_eq_of_lt ha, Nat.mod_eq_of_lt ha'] at h1
  have hp : 0 < 2 ^ n := by positivity
  simp only [Nat.add_mul_div_left _ _ hp, Nat.div_eq_of_lt ha, Nat.div_eq_of_lt ha', Nat.zero_add] at h2
  exact ⟨h1, h2⟩

/-- Packing is injective on rows that fit, up to index bits `index_sz` and above. -/
theorem ramPacked_inj {c : RamCfg} {e f : RamEnt} (he : e.step < 2 ^ c.ssz ∧ e.val < 2 ^ c.vsz)
    (hf : f.step < 2 ^ c.ssz ∧ f.val < 2 ^ c.vsz) (h : ramPacked c e = ramPacked c f) :
    e.idx % 2 ^ c.isz = f.idx % 2 ^ c.isz ∧ e.step = f.step ∧ e.op = f.op ∧ e.val = f.val := by
  unfold ramPacked at h
  rw [Nat.mod_eq_of_lt he.1, Nat.mod_eq_of_lt he.2, Nat.mod_eq_of_lt hf.1, Nat.mod_eq_of_lt hf.2] at h
  obtain ⟨h1, h2⟩ := addMul_inj he.2 hf.2 h
  have h3 : e.op.toNat = f.op.toNat ∧ e.step + 2 ^ c.ssz * (e.idx % 2 ^ c.isz) = f.step + 2 ^ c.ssz * (f.idx % 2 ^ c.isz) := by
    have h4 : e.op.toNat < 2 := Bool.toNat_lt _
    have h5 : f.op.toNat < 2 := Bool.toNat_lt _
    omega
  obtain ⟨h6, h7⟩ := addMul_inj he.1 hf.1 h3.2
  exact ⟨h7, h6, by have := h3.1; revert this; cases e.op <;> cases f.op <;> simp, h1⟩

theorem ram_unpack_pack {c : RamCfg} (hc : c.Ok) {e : RamEnt} (h : e.Fits c) : unpackU c (ramPacked c e) = e := by
  rw [ramPacked_fits h]
  obtain ⟨h1, h2, h3⟩ := hc
  obtain ⟨a1, a2, a3⟩ := h
  have hb : e.op.toNat < 2 := Bool.toNat_lt _
  have hp : ∀ n : Nat, 0 < 2 ^ n := fun n => by positivity
  have e1 : (e.val + 2 ^ c.vsz * (e.op.toNat + 2 * (e.step + 2 ^ c.ssz * e.idx))) >>> c.vsz =
      e.op.toNat + 2 * (e.step + 2 ^ c.ssz * e.idx) := by
    rw [Nat.shiftRight_eq_div_pow, Nat.add_mul_div_left _ _ (hp _), Nat.div_eq_of_lt a3, Nat.zero_add]
  have hlt : e.op.toNat + 2 * (e.step + 2 ^ c.ssz * e.idx) < 2 ^ 64 := by
    have c1 : e.step + 2 ^ c.ssz * e.idx < 2 ^ c.ssz * 2 ^ c.isz := by
      calc e.step + 2 ^ c.ssz * e.idx < 2 ^ c.ssz * (e.idx + 1) := by rw [Nat.mul_add]; omega
        _ ≤ _ := Nat.mul_le_mul_left _ a1
    rw [← pow_add] at c1
    calc e.op.toNat + 2 * (e.step + 2 ^ c.ssz * e.idx) < 2 * 2 ^ (c.ssz + c.isz) := by omega
      _ = 2 ^ (c.ssz + c.isz + 1) := by rw [pow_succ]; ring
      _ ≤ 2 ^ 64 := Nat.pow_le_pow_right (by decide) (by omega)
  have e2 : (e.op.toNat + 2 * (e.step + 2 ^ c.ssz * e.idx)) >>> 1 = e.step + 2 ^ c.ssz * e.idx := by
    rw [Nat.shiftRight_eq_div_pow, pow_one]; omega
  have e3 : (e.op.toNat + 2 * (e.step + 2 ^ c.ssz * e.idx)) >>> (c.ssz + 1) = e.idx := by
    rw [Nat.add_comm c.ssz 1, Nat.shiftRight_add, e2, Nat.shiftRight_eq_div_pow, Nat.add_mul_div_left _ _ (hp _),
      Nat.div_eq_of_lt a2, Nat.zero_add]
  have e4 : (e.op.toNat + 2 * (e.step + 2 ^ c.ssz * e.idx)).testBit 0 = e.op := by
    rw [Nat.testBit_zero]
    have : (e.op.toNat + 2 * (e.step + 2 ^ c.ssz * e.idx)) % 2 = e.op.toNat := by omega
    rw [this]
    cases e.op <;> rfl
  unfold unpackU
  simp only [e1, Nat.mod_eq_of_lt hlt, e2, e3, e4, Nat.and_two_pow_sub_one_eq_mod, Nat.add_mul_mod_self_left,
    Nat.mod_eq_of_lt a1, Nat.mod_eq_of_lt a2, Nat.mod_eq_of_lt a3]

/-! ### comparison -/

theorem ltW_eq {n a b : Nat} (ha : a < 2 ^ n) (hb : b < 2 ^ n) : ltW (n + 1) a b = decide (a < b) := by
  unfold ltW
  have hs : 2 ^ (n + 1) = 2 * 2 ^ n := by rw [pow_succ]; ring
  rw [Nat.add_sub_cancel, hs]
  generalize hN : 2 ^ n = N at *
  by_cases h : a < b
  · have : (a + 2 * N - b) % (2 * N) = 2 ^ n + (a + N - b) := by
      rw [Nat.mod_eq_of_lt (by omega)]; omega
    rw [this, Nat.testBit_two_pow_add_eq, Nat.testBit_lt_two_pow (by omega)]
    simp [h]
  · have : (a + 2 * N - b) % (2 * N) = a - b := by
      rw [show a + 2 * N - b = a - b + 2 * N by omega, Nat.add_mod_right, Nat.mod_eq_of_lt (by omega)]
    rw [this, Nat.testBit_lt_two_pow (by omega)]
    simp [h]

/-- The order on rows that the condition establishes. -/
def RowOf.lt {α : Type} (e f : RowOf α) : Prop := e.idx < f.idx ∨ (e.idx = f.idx ∧ e.step < f.step)

theorem RowOf.lt_trans {α : Type} {e f g : RowOf α} (h1 : e.lt f) (h2 : f.lt g) : e.lt g := by
  unfold RowOf.lt at *
  omega

/-- Neighbouring rows of a sorted list that passes. -/
def RowOf.Adj (p e : RamEnt) : Prop := p.lt e ∧ (e.op = false → p.idx = e.idx ∧ p.val = e.val)

theorem ramCond2_iff {c : RamCfg} (hs : 1 ≤ c.ssz) {p e : RamEnt} (hp : p.idx < 2 ^ c.isz) (he : e.idx < 2 ^ c.isz)
    (hps : p.step < 2 ^ (c.ssz - 1)) (hes : e.step < 2 ^ (c.ssz - 1)) : ramCond2 c p e = true ↔ p.Adj e := by
  have h2 := ltW_eq hps hes
  rw [Nat.sub_add_cancel hs] at h2
  unfold ramCond2 RowOf.Adj RowOf.lt
  rw [ltW_eq hp he, h2]
  simp only [Bool.and_eq_true, Bool.or_eq_true, decide_eq_true_eq, beq_iff_eq]
  cases e.op <;> simp
  tauto

theorem ramCond_iff (c : RamCfg) (l : List RamEnt) : ramCond c l = true ↔ l.IsChain (fun p e => ramCond2 c p e = true) := by
  induction l with
  | nil => simp [ramCond]
  | cons p l ih =>
    cases l with
    | nil => simp [ramCond]
    | cons e l =>
      rw [ramCond, Bool.and_eq_true, ih, List.isChain_cons_cons]

theorem chain_adj {c : RamCfg} (hs : 1 ≤ c.ssz) (l : List RamEnt) (hi : ∀ e ∈ l, e.idx < 2 ^ c.isz)
    (hst : ∀ e ∈ l, e.step < 2 ^ (c.ssz - 1)) : ramCond c l = true ↔ l.IsChain RowOf.Adj := by
  rw [ramCond_iff]
  induction l with
  | nil => simp
  | cons p l ih =>
    cases l with
    | nil => simp
    | cons e l =>
      rw [List.isChain_cons_cons, List.isChain_cons_cons, ih (fun x hx => hi x (by simp [hx])) (fun x hx => hst x (by simp [hx])),
        ramCond2_iff hs (hi p (by simp)) (hi e (by simp)) (hst p (by simp)) (hst e (by simp))]

theorem Adj_pairwise {l : List RamEnt} (h : l.IsChain RowOf.Adj) : l.Pairwise RowOf.lt := by
  have h1 : l.IsChain RowOf.lt := h.imp (fun _ _ hab => hab.1)
  have : Trans (RowOf.lt (α := Nat)) RowOf.lt RowOf.lt := ⟨RowOf.lt_trans⟩
  exact List.isChain_iff_pairwise.1 h1

/-- The heart of the check: in a permutation of the log whose neighbours satisfy the condition, a read repeats the latest earlier
access to its address. -/
theorem chain_readsPrev (L S : List RamEnt) (hperm : S.Perm L) (hstep : ∀ i (h : i < L.length), L[i].step = i)
    (hc : S.IsChain RowOf.Adj) : ReadsPrev (L.map RowOf.acc) := by
  intro i e he hop j f hji hf hidx hno
  have hi : i < L.length := by
    have := (List.getElem?_eq_some_iff.1 he).1
    simpa using this
  have hj : j < L.length := by omega
  have hp := Adj_pairwise hc
  have he' : e = L[i].acc := by
    have h := (List.getElem?_eq_some_iff.1 he).2
    rw [List.getElem_map] at h
    exact h.symm
  have hf' : f = L[j].acc := by
    have h := (List.getElem?_eq_some_iff.1 hf).2
    rw [List.getElem_map] at h
    exact h.symm
  subst he'
  subst hf'
  obtain ⟨p, hpl, hpe⟩ := List.getElem_of_mem (hperm.mem_iff.2 (List.getElem_mem hi))
  obtain ⟨q, hql, hqe⟩ := List.getElem_of_mem (hperm.mem_iff.2 (List.getElem_mem hj))
  rw [List.pairwise_iff_getElem] at hp
  simp only [RowOf.acc] at hidx hop hno ⊢
  have hsi := hstep i hi
  have hsj := hstep j hj
  have hqp : q < p := by
    rcases Nat.lt_trichotomy q p with h | h | h
    · exact h
    · subst h
      have : L[i] = L[j] := by rw [← hpe, ← hqe]
      rw [this, hsj] at hsi
      omega
    · have := hp p q hpl hql h
      rw [hpe, hqe] at this
      unfold RowOf.lt at this
      omega
  by_cases hpq : q + 1 = p
  · subst hpq
    have := (List.isChain_iff_getElem.1 hc) q hpl
    have h2 := (this.2 (by rw [hpe]; exact hop)).2
    rw [hpe, hqe] at h2
    exact h2
  · exfalso
    have h1 := hp q (q + 1) hql (by omega) (by omega)
    have h2 := hp (q + 1) p (by omega) hpl (by omega)
    obtain ⟨k, hk, hke⟩ := List.getElem_of_mem (hperm.mem_iff.1 (List.getElem_mem (show q + 1 < S.length by omega)))
    have hsk := hstep k hk
    rw [hqe, ← hke] at h1
    rw [hpe, ← hke] at h2
    unfold RowOf.lt at h1 h2
    have h3 : L[k].idx = L[i].idx := by omega
    exact hno k L[k].acc (by omega) (by omega) (by rw [List.getElem?_map, List.getElem?_eq_getElem hk]; rfl) h3

theorem chain_first (L S : List RamEnt) (hperm : S.Perm L) (hstep : ∀ i (h : i < L.length), L[i].step = i)
    (hc : S.IsChain RowOf.Adj) : ∀ i (h : i < L.length), L[i].op = false →
      (∀ j (hj : j < i), L[j].idx ≠ L[i].idx) → ∀ e ∈ L, L[i].idx ≤ e.idx := by
  intro i hi hop hno e he
  have hp := Adj_pairwise hc
  rw [List.pairwise_iff_getElem] at hp
  obtain ⟨p, hpl, hpe⟩ := List.getElem_of_mem (hperm.mem_iff.2 (List.getElem_mem hi))
  obtain ⟨q, hql, hqe⟩ := List.getElem_of_mem (hperm.mem_iff.2 he)
  have hp0 : p = 0 := by
    by_contra h0
    obtain ⟨k, rfl⟩ := Nat.exists_eq_succ_of_ne_zero h0
    have h1 := (List.isChain_iff_getElem.1 hc) k hpl
    have h2 := (h1.2 (by rw [hpe]; exact hop)).1
    have h3 := h1.1
    obtain ⟨j, hj, hje⟩ := List.getElem_of_mem (hperm.mem_iff.1 (List.getElem_mem (show k < S.length by omega)))
    have s1 := hstep j hj
    have s2 := hstep i hi
    rw [hpe, ← hje] at h2 h3
    unfold RowOf.lt at h3
    exact hno j (by omega) h2
  subst hp0
  rcases Nat.eq_zero_or_pos q with h | h
  · subst h
    rw [← hpe, ← hqe]
  · have := hp 0 q hpl hql h
    rw [hpe, hqe] at this
    unfold RowOf.lt at this
    omega

theorem perm_of_leftInv {α β : Type} (f : α → β) (g : β → α) {A B : List α} (hA : ∀ a ∈ A, g (f a) = a)
    (hB : ∀ b ∈ B, g (f b) = b) (h : (A.map f).Perm (B.map f)) : A.Perm B := by
  have h1 := h.map g
  have e : ∀ l : List α, (∀ a ∈ l, g (f a) = a) → (l.map f).map g = l := by
    intro l hl
    rw [List.map_map]
    conv_rhs => rw [← List.map_id l]
    exact List.map_congr_left hl
  rwa [e A hA, e B hB] at h1

theorem perm_of_packed {c : RamCfg} (hc : c.Ok) (L S : List RamEnt) (hL : ∀ e ∈ L, e.Fits c) (hS : ∀ e ∈ S, e.Fits c)
    (h : (S.map (ramPacked c)).Perm (L.map (ramPacked c))) : S.Perm L := by
  exact perm_of_leftInv _ (unpackU c) (fun e he => ram_unpack_pack hc (hS e he)) (fun e he => ram_unpack_pack hc (hL e he)) h

/-! ### packing of MACs -/

section
variable {F : Type} [Field F] [BlockField F]

/-- Blocks of a committed integer: bit `i` of `n` with key `k i`. -/
def macBits (w n : Nat) (k : Nat → F) (delta : F) : List F :=
  (List.range w).map (fun i => k i + bit (n.testBit i) * delta)

theorem innFrom_map (f : Nat → F) : ∀ (n off : Nat),
    innFrom off ((List.range n).map f) = ∑ i ∈ Finset.range n, f i * gX ^ (off + i) := by
  intro n
  induction n generalizing f with
  | zero => intro off; simp [innFrom]
  | succ n ih =>
    intro off
    rw [List.range_succ_eq_map, List.map_cons, innFrom, List.map_map, ih (f ∘ Nat.succ), Finset.sum_range_succ']
    rw [add_comm]
    congr 1
    apply Finset.sum_congr rfl
    intro i _
    simp only [Function.comp]
    rw [show off + 1 + i = off + (i + 1) by omega]

theorem innBase_map (f : Nat → F) (w n off : Nat) (h1 : n ≤ w) (h2 : off + n ≤ 128) :
    innBase off ((List.range w).map f) n = some (∑ i ∈ Finset.range n, f i * gX ^ (off + i)) := by
  rw [innBase, if_pos ⟨by simpa using h1, h2⟩, ← List.map_take, List.take_range, min_eq_left h1, innFrom_map]

omit [BlockField F] in
theorem sum_testBit_split {a n b m : Nat} (g : Nat → F) (ha : a < 2 ^ n) :
    ∑ i ∈ Finset.range (n + m), bit ((a + 2 ^ n * b).testBit i) * g i =
      ∑ i ∈ Finset.range n, bit (a.testBit i) * g i + ∑ i ∈ Finset.range m, bit (b.testBit i) * g (n + i) := by
  rw [Finset.sum_range_add]
  congr 1
  · apply Finset.sum_congr rfl
    intro i hi
    rw [add_comm a, Nat.testBit_two_pow_mul_add _ ha, if_pos (Finset.mem_range.1 hi)]
  · apply Finset.sum_congr rfl
    intro i hi
    rw [add_comm a, Nat.testBit_two_pow_mul_add _ ha, if_neg (by omega), Nat.add_sub_cancel_left]

omit [BlockField F] in
theorem sum_testBit_mod (a n : Nat) (g : Nat → F) :
    ∑ i ∈ Finset.range n, bit ((a % 2 ^ n).testBit i) * g i = ∑ i ∈ Finset.range n, bit (a.testBit i) * g i := by
  apply Finset.sum_congr rfl
  intro i hi
  rw [Nat.testBit_mod_two_pow, decide_eq_true (Finset.mem_range.1 hi), Bool.true_and]

theorem sum_testBit_ext {a n m : Nat} (g : Nat → F) (ha : a < 2 ^ n) :
    ∑ i ∈ Finset.range (n + m), bit (a.testBit i) * g i = ∑ i ∈ Finset.range n, bit (a.testBit i) * g i := by
  rw [Finset.sum_range_add, add_eq_left]
  apply Finset.sum_eq_zero
  intro i _
  rw [Nat.testBit_lt_two_pow (lt_of_lt_of_le ha (Nat.pow_le_pow_right (by decide) (by omega))), bit_false, zero_mul]

theorem wordF_eq (w : Nat) : (wordF w : F) = ∑ i ∈ Finset.range 128, bit (w.testBit i) * gX ^ i := by
  rw [wordF, innFrom_map]
  simp only [Nat.zero_add]

/-- The word of a row is the combination of its bits with the powers used by `pack`. -/
theorem wordF_packed {c : RamCfg} (hc : c.Ok) (e : RamEnt) :
    (wordF (ramPacked c e) : F) =
      ∑ i ∈ Finset.range c.vsz, bit (e.val.testBit i) * gX ^ (0 + i) +
      ∑ i ∈ Finset.range 1, bit (e.op.toNat.testBit i) * gX ^ (c.vsz + i) +
      ∑ i ∈ Finset.range c.ssz, bit (e.step.testBit i) * gX ^ (c.vsz + 1 + i) +
      ∑ i ∈ Finset.range c.isz, bit (e.idx.testBit i) * gX ^ (c.vsz + 1 + c.ssz + i) := by
  obtain ⟨h1, h2, h3⟩ := hc
  have p : ∀ n : Nat, 0 < 2 ^ n := fun n => by positivity
  have b1 := Nat.mod_lt e.val (p c.vsz)
  have b2 := Nat.mod_lt e.step (p c.ssz)
  have b3 := Nat.mod_lt e.idx (p c.isz)
  have b4 : e.op.toNat < 2 ^ 1 := Bool.toNat_lt _
  rw [wordF_eq, ramPacked]
  have e0 : 128 = c.vsz + (1 + (c.ssz + (c.isz + (128 - c.vsz - 1 - c.ssz - c.isz)))) := by omega
  rw [e0, sum_testBit_split _ b1]
  have hr : 2 * (e.step % 2 ^ c.ssz + 2 ^ c.ssz * (e.idx % 2 ^ c.isz)) =
      2 ^ 1 * (e.step % 2 ^ c.ssz + 2 ^ c.ssz * (e.idx % 2 ^ c.isz)) := by rw [pow_one]
  rw [hr, sum_testBit_split (fun i => gX ^ (c.vsz + i)) b4, sum_testBit_split (fun i => gX ^ (c.vsz + (1 + i))) b2,
    sum_testBit_ext (fun i => gX ^ (c.vsz + (1 + (c.ssz + i)))) b3, sum_testBit_mod, sum_testBit_mod, sum_testBit_mod]
  simp only [Nat.zero_add, add_assoc]

/-- MACs and keys of a row: the packed MAC is the packed key plus the packed value times `Delta`. -/
theorem packMac_key {c : RamCfg} (hc : c.Ok) (delta : F) (e : RamEnt) (wi wv ws : Nat) (ki kv ks : Nat → F) (ko : F)
    (hi : c.isz ≤ wi) (hv : c.vsz ≤ wv) (hs : c.ssz ≤ ws) :
    ∃ K, packMac c ((List.range wi).map ki) ((List.range wv).map kv) ((List.range ws).map ks) ko = some K ∧
      packMac c (macBits wi e.idx ki delta) (macBits wv e.val kv delta) (macBits ws e.step ks delta) (ko + bit e.op * delta) =
        some (K + wordF (ramPacked c e) * delta) := by
  obtain ⟨h1, h2, h3⟩ := hc
  have ho : ∀ b : F, [b] = (List.range 1).map (fun _ => b) := fun b => rfl
  unfold packMac macBits
  simp only [ho]
  rw [innBase_map _ _ _ _ hv (by omega), innBase_map _ _ _ _ (le_refl 1) (by omega), innBase_map _ _ _ _ hs (by omega),
    innBase_map _ _ _ _ hi (by omega), innBase_map _ _ _ _ hv (by omega), innBase_map _ _ _ _ (le_refl 1) (by omega),
    innBase_map _ _ _ _ hs (by omega), innBase_map _ _ _ _ hi (by omega)]
  simp only [Option.bind_eq_bind, Option.bind_some, Option.some.injEq, exists_eq_left']
  rw [wordF_packed ⟨h1, h2, h3⟩]
  have hb : ∀ i ∈ Finset.range 1, (bit (e.op.toNat.testBit i) * gX ^ (c.vsz + i) : F) = bit e.op * gX ^ (c.vsz + i) := by
    intro i hi
    have : i = 0 := by simpa using hi
    subst this
    cases e.op <;> simp
  rw [Finset.sum_congr rfl hb]
  simp only [add_mul, Finset.sum_add_distrib, Finset.sum_mul, mul_right_comm]
  ring

end

theorem wordF_inj {F : Type} [Field F] [PackField F] {a b : Nat} (ha : a < 2 ^ 128) (hb : b < 2 ^ 128)
    (h : (wordF a : F) = wordF b) : a = b := by
  rw [wordF_eq, wordF_eq, ← Fin.sum_univ_eq_sum_range (fun i => (bit (a.testBit i) * gX ^ i : F)),
    ← Fin.sum_univ_eq_sum_range (fun i => (bit (b.testBit i) * gX ^ i : F))] at h
  have := (PackField.pack_bijective (F := F)).1 (a₁ := fun i : Fin 128 => a.testBit i) (a₂ := fun i : Fin 128 => b.testBit i) h
  apply Nat.eq_of_testBit_eq
  intro i
  by_cases hi : i < 128
  · exact congrFun this ⟨i, hi⟩
  · rw [Nat.testBit_lt_two_pow (lt_of_lt_of_le ha (Nat.pow_le_pow_right (by decide) (by omega))),
      Nat.testBit_lt_two_pow (lt_of_lt_of_le hb (Nat.pow_le_pow_right (by decide) (by omega)))]

/-- Equal multisets of packed blocks come from equal multisets of packed words. -/
theorem perm_wordF {F : Type} [Field F] [PackField F] {A B : List Nat} (hA : ∀ a ∈ A, a < 2 ^ 128) (hB : ∀ b ∈ B, b < 2 ^ 128)
    (h : (A.map (wordF (F := F))).Perm (B.map wordF)) : A.Perm B := by
  classical
  let f : F → Nat := fun x => if h : ∃ n, n < 2 ^ 128 ∧ wordF n = x then h.choose else 0
  have hf : ∀ n, n < 2 ^ 128 → f (wordF n) = n := by
    intro n hn
    have hex : ∃ m, m < 2 ^ 128 ∧ (wordF m : F) = wordF n := ⟨n, hn, rfl⟩
    simp only [f, dif_pos hex]
    exact wordF_inj hex.choose_spec.1 hn hex.choose_spec.2
  exact perm_of_leftInv _ f (fun e he => hf e (hA e he)) (fun e he => hf e (hB e he)) h

end EmpZk
