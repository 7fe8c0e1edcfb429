import Verif.Model.RoRam
import Verif.Lemmas.ZkRamHonest
/-! Helper lemmas for `ROZKRAM`. -/
namespace EmpZk

/-- Widths for which nothing overflows. -/
def RoCfg.Ok (c : RoCfg) : Prop := c.isz ≤ 64 ∧ c.vsz ≤ 64

/-- Rows that fit the widths. -/
def RoEnt.Fits (c : RoCfg) (e : RoEnt) : Prop := e.idx < 2 ^ c.isz ∧ e.val < 2 ^ c.vsz

theorem roPacked_fits {c : RoCfg} {e : RoEnt} (h : e.Fits c) : roPacked c e = e.val + 2 ^ c.vsz * e.idx := by
  rw [roPacked, Nat.mod_eq_of_lt h.1, Nat.mod_eq_of_lt h.2]

theorem roPackU_eq {c : RoCfg} (hc : c.Ok) {e : RoEnt} (h : e.Fits c) : roPackU c e.idx e.val = some (roPacked c e) := by
  obtain ⟨h1, h2⟩ := hc
  obtain ⟨a1, a2⟩ := h
  rw [roPackU, if_pos (by omega)]
  have e1 : (e.idx <<< c.vsz) % 2 ^ 128 = 2 ^ c.vsz * e.idx := by
    rw [Nat.shiftLeft_eq, mul_comm]
    apply Nat.mod_eq_of_lt
    calc 2 ^ c.vsz * e.idx < 2 ^ c.vsz * 2 ^ c.isz := Nat.mul_lt_mul_of_pos_left a1 (by positivity)
      _ = 2 ^ (c.vsz + c.isz) := by rw [← pow_add]
      _ ≤ 2 ^ 128 := Nat.pow_le_pow_right (by decide) (by omega)
  rw [e1, ← Nat.two_pow_add_eq_or_of_lt a2, roPacked_fits ⟨a1, a2⟩, add_comm]

theorem roPacked_lt {c : RoCfg} (hc : c.Ok) (e : RoEnt) : roPacked c e < 2 ^ 128 := by
  obtain ⟨h1, h2⟩ := hc
  have p : ∀ n : Nat, 0 < 2 ^ n := fun n => by positivity
  have b1 := Nat.mod_lt e.val (p c.vsz)
  have b3 := Nat.mod_lt e.idx (p c.isz)
  unfold roPacked
  generalize e.val % 2 ^ c.vsz = v at *
  generalize e.idx % 2 ^ c.isz = i at *
  calc v + 2 ^ c.vsz * i < 2 ^ c.vsz * (i + 1) := by rw [Nat.mul_add]; omega
    _ ≤ 2 ^ c.vsz * 2 ^ c.isz := Nat.mul_le_mul_left _ b3
    _ = 2 ^ (c.vsz + c.isz) := by rw [← pow_add]
    _ ≤ 2 ^ 128 := Nat.pow_le_pow_right (by decide) (by omega)

theorem roUnpack_pack {c : RoCfg} (hc : c.Ok) {e : RoEnt} (h : e.Fits c) : roUnpackU c (roPacked c e) = e := by
  rw [roPacked_fits h]
  obtain ⟨h1, h2⟩ := hc
  obtain ⟨a1, a2⟩ := h
  have hp : ∀ n : Nat, 0 < 2 ^ n := fun n => by positivity
  have e1 : (e.val + 2 ^ c.vsz * e.idx) >>> c.vsz = e.idx := by
    rw [Nat.shiftRight_eq_div_pow, Nat.add_mul_div_left _ _ (hp _), Nat.div_eq_of_lt a2, Nat.zero_add]
  have l1 : e.idx < 2 ^ 64 := lt_of_lt_of_le a1 (Nat.pow_le_pow_right (by decide) h1)
  have l2 : e.val < 2 ^ 64 := lt_of_lt_of_le a2 (Nat.pow_le_pow_right (by decide) h2)
  have l3 : e.idx < 2 ^ (c.isz + 1) := lt_of_lt_of_le a1 (Nat.pow_le_pow_right (by decide) (by omega))
  unfold roUnpackU
  simp only [e1, Nat.and_two_pow_sub_one_eq_mod, Nat.add_mul_mod_self_left, Nat.mod_eq_of_lt a2, Nat.mod_eq_of_lt l1,
    Nat.mod_eq_of_lt l2, Nat.mod_eq_of_lt l3]

/-- The relation the condition establishes. -/
def RoEnt.le (p e : RoEnt) : Prop := p.idx < e.idx ∨ (p.idx = e.idx ∧ p.val = e.val)

theorem RoEnt.le_trans {p e f : RoEnt} (h1 : p.le e) (h2 : e.le f) : p.le f := by
  unfold RoEnt.le at *
  omega

theorem roCond2_iff {c : RoCfg} {p e : RoEnt} (hp : p.idx < 2 ^ c.isz) (he : e.idx < 2 ^ c.isz) :
    roCond2 c p e = true ↔ p.le e := by
  unfold roCond2 RoEnt.le
  rw [ltW_eq hp he]
  simp

theorem roCond_iff {c : RoCfg} (l : List RoEnt) (hi : ∀ e ∈ l, e.idx < 2 ^ c.isz) : roCond c l = true ↔ l.Pairwise RoEnt.le := by
  have : Trans RoEnt.le RoEnt.le RoEnt.le := ⟨RoEnt.le_trans⟩
  rw [← List.isChain_iff_pairwise]
  induction l with
  | nil => simp [roCond]
  | cons p l ih =>
    cases l with
    | nil => simp [roCond]
    | cons e l =>
      have ih' := ih (fun x hx => hi x (by simp only [List.mem_cons] at hx ⊢; tauto))
      rw [roCond, Bool.and_eq_true, List.isChain_cons_cons]
      exact and_congr (roCond2_iff (hi p (by simp)) (hi e (by simp))) ih'

theorem le_pairwise_val {l : List RoEnt} (h : l.Pairwise RoEnt.le) {p e : RoEnt} (hp : p ∈ l) (he : e ∈ l)
    (hidx : p.idx = e.idx) : p.val = e.val := by
  obtain ⟨i, hi, rfl⟩ := List.getElem_of_mem hp
  obtain ⟨j, hj, rfl⟩ := List.getElem_of_mem he
  rw [List.pairwise_iff_getElem] at h
  rcases Nat.lt_trichotomy i j with hij | hij | hij
  · have := h i j hi hj hij
    unfold RoEnt.le at this
    omega
  · subst hij; rfl
  · have := h j i hj hi hij
    unfold RoEnt.le at this
    omega

/-! ### honest runs -/

/-- The rows committed by `init`. -/
def roRows : Nat → List Nat → List RoEnt
  | _, [] => []
  | i, v :: vs => ⟨i, v⟩ :: roRows (i + 1) vs

theorem roRows_length (i : Nat) (l : List Nat) : (roRows i l).length = l.length := by
  induction l generalizing i with
  | nil => rfl
  | cons v vs ih => simp [roRows, ih]

theorem roRows_getElem (l : List Nat) : ∀ (i k : Nat), (roRows i l)[k]? = (l[k]?).map (fun v => ⟨i + k, v⟩) := by
  induction l with
  | nil => intro i k; simp [roRows]
  | cons v vs ih =>
    intro i k
    cases k with
    | zero => simp [roRows]
    | succ k =>
      simp only [roRows, List.getElem?_cons_succ, ih]
      congr 1
      funext v
      congr 1
      omega

theorem roRows_mem {l : List Nat} {e : RoEnt} (h : e ∈ roRows 0 l) : l[e.idx]? = some e.val := by
  obtain ⟨k, hk⟩ := List.getElem?_of_mem h
  rw [roRows_getElem, Option.map_eq_some_iff] at hk
  obtain ⟨v, h1, h2⟩ := hk
  subst h2
  simpa using h1

theorem roInitFrom_eq {c : RoCfg} (hc : c.Ok) (data : List Nat) : ∀ (i : Nat) (st : RoState),
    i + data.length ≤ 2 ^ c.isz → (∀ v ∈ data, v < 2 ^ c.vsz) →
    roInitFrom c i st data = some ⟨st.mem ++ data, st.list ++ (roRows i data).map (roPacked c), st.log ++ roRows i data, st.step⟩ := by
  induction data with
  | nil => intro i st _ _; simp [roInitFrom, roRows]
  | cons v vs ih =>
    intro i st hl hv
    simp only [List.length_cons] at hl
    have hfit : RoEnt.Fits c ⟨i, v⟩ := ⟨by simp only; omega, hv v (by simp)⟩
    have hpk := roPackU_eq hc hfit
    simp only at hpk
    have : i < 2 ^ (c.isz + 1) := lt_of_lt_of_le hfit.1 (Nat.pow_le_pow_right (by decide) (by omega))
    rw [roInitFrom, hpk]
    simp only [Option.bind_eq_bind, Option.bind_some, Nat.mod_eq_of_lt this, Nat.mod_eq_of_lt (hv v (by simp))]
    rw [ih (i + 1) _ (by omega) (fun x hx => hv x (by simp [hx]))]
    simp [roRows, List.append_assoc]

/-- Invariant of an honest run. -/
structure RoInv (c : RoCfg) (data : List Nat) (st : RoState) : Prop where
  mem : st.mem = data
  list : st.list = st.log.map (roPacked c)
  pre : st.log.take data.length = roRows 0 data
  step : st.log.length = data.length + st.step
  le : st.step < data.length * 8
  vals : ∀ e ∈ st.log, data[e.idx]? = some e.val

/-- What an honest check satisfies. -/
def RoChk.Good (c : RoCfg) (chk : RoChk) : Prop :=
  chk.cond = true ∧ chk.sorted.Perm chk.orig ∧ chk.sorted = chk.rows.map (roPacked c)

theorem roCheck_good {c : RoCfg} (hc : c.Ok) {data : List Nat} (hd : data.length ≤ 2 ^ c.isz) (hv : ∀ v ∈ data, v < 2 ^ c.vsz)
    (st : RoState) (hm : st.mem = data) (hl : st.list = st.log.map (roPacked c)) (hvals : ∀ e ∈ st.log, data[e.idx]? = some e.val)
    (h3 : 3 ≤ st.log.length) (h64 : st.log.length < 2 ^ 64) (hlen : data.length ≤ st.log.length) :
    ∃ chk, roCheck c st = some (⟨data, st.list.take data.length, st.log.take data.length, 0⟩, chk) ∧ chk.Good c ∧
      chk.orig = st.log.map (roPacked c) ∧ chk.rows.Perm st.log ∧ chk.cond = roCond c chk.rows := by
  have hll : st.list.length = st.log.length := by rw [hl, List.length_map]
  have hfit : ∀ e ∈ st.log, e.Fits c := by
    intro e he
    have := hvals e he
    obtain ⟨h1, h2⟩ := List.getElem?_eq_some_iff.1 this
    refine ⟨by omega, ?_⟩
    rw [← h2]
    exact hv _ (List.getElem_mem _)
  have hp : (st.list.mergeSort (fun a b => decide (a ≤ b))).Perm st.list := List.mergeSort_perm _ _
  have hun : ∀ w ∈ st.list, roPacked c (roUnpackU c w) = w := by
    intro w hw
    rw [hl] at hw
    obtain ⟨e, he, rfl⟩ := List.mem_map.1 hw
    rw [roUnpack_pack hc (hfit e he)]
  have hperm : ((st.list.mergeSort (fun a b => decide (a ≤ b))).map (roUnpackU c)).Perm st.log := by
    have := hp.map (roUnpackU c)
    have e : st.list.map (roUnpackU c) = st.log := by
      rw [hl, List.map_map]
      conv_rhs => rw [← List.map_id st.log]
      exact List.map_congr_left (fun e he => roUnpack_pack hc (hfit e he))
    rwa [e] at this
  obtain ⟨gs, hg, _⟩ := bchGroups_eq (w := 4) (n := st.list.length) (by decide) (by omega) (by omega) (by omega)
  have hne : st.list ≠ [] := by
    intro h0
    rw [h0] at hll
    simp at hll
    omega
  refine ⟨⟨roCond c ((st.list.mergeSort (fun a b => decide (a ≤ b))).map (roUnpackU c)),
    (st.list.mergeSort (fun a b => decide (a ≤ b))).map (roUnpackU c), _, st.list⟩, ?_, ⟨?_, hp, ?_⟩, hl, hperm, rfl⟩
  · unfold roCheck
    simp only [if_neg hne, hg, Option.bind_eq_bind, Option.bind_some, hm, if_neg (show ¬ st.list.length < data.length by omega)]
  · simp only
    rw [roCond_iff _ (fun e he => (hfit e (hperm.mem_iff.1 he)).1), List.pairwise_map]
    have := List.pairwise_mergeSort (le := fun a b : Nat => decide (a ≤ b)) (by intro a b c; simp; omega)
      (by intro a b; simp; omega) st.list
    refine List.Pairwise.imp_of_mem ?_ this
    intro a b ha hb hab
    have ma : roUnpackU c a ∈ st.log := hperm.mem_iff.1 (List.mem_map_of_mem ha)
    have mb : roUnpackU c b ∈ st.log := hperm.mem_iff.1 (List.mem_map_of_mem hb)
    have hab' : roPacked c (roUnpackU c a) ≤ roPacked c (roUnpackU c b) := by
      rw [hun a (hp.mem_iff.1 ha), hun b (hp.mem_iff.1 hb)]
      exact of_decide_eq_true hab
    rw [roPacked_fits (hfit _ ma), roPacked_fits (hfit _ mb)] at hab'
    have v1 := hvals _ ma
    have v2 := hvals _ mb
    have f2 := (hfit _ mb).2
    generalize roUnpackU c a = x at *
    generalize roUnpackU c b = y at *
    unfold RoEnt.le
    rcases Nat.lt_trichotomy x.idx y.idx with h | h | h
    · exact Or.inl h
    · rw [h, v2] at v1
      exact Or.inr ⟨h, (Option.some.inj v1).symm⟩
    · exfalso
      have : 2 ^ c.vsz * (y.idx + 1) ≤ 2 ^ c.vsz * x.idx := Nat.mul_le_mul_left _ h
      rw [Nat.mul_add] at this
      omega
  · simp only
    rw [List.map_map]
    conv_lhs => rw [← List.map_id (st.list.mergeSort (fun a b => decide (a ≤ b)))]
    exact List.map_congr_left (fun w hw => (hun w (hp.mem_iff.1 hw)).symm)

theorem roRead_inv {c : RoCfg} (hc : c.Ok) {data : List Nat} (hd : data.length ≤ 2 ^ c.isz) (hdd : data.length < 2 ^ 60)
    (hv : ∀ v ∈ data, v < 2 ^ c.vsz) (st : RoState) (h : RoInv c data st) (i : Nat) (hi : i < data.length) :
    ∃ st' chks, roRead c st i = some (st', data[i], chks) ∧ RoInv c data st' ∧ ∀ chk ∈ chks, chk.Good c := by
  have hfit : RoEnt.Fits c ⟨i, data[i]⟩ := ⟨by simp only; omega, hv _ (List.getElem_mem _)⟩
  have hpk := roPackU_eq hc hfit
  simp only at hpk
  have hg : st.mem[i]? = some data[i] := by rw [h.mem, List.getElem?_eq_getElem hi]
  have hvals : ∀ e ∈ st.log ++ [⟨i, data[i]⟩], data[e.idx]? = some e.val := by
    intro e he
    rcases List.mem_append.1 he with he | he
    · exact h.vals e he
    · rw [List.mem_singleton.1 he]
      exact List.getElem?_eq_getElem hi
  have hpre : (st.log ++ [(⟨i, data[i]⟩ : RoEnt)]).take data.length = roRows 0 data := by
    rw [List.take_append_of_le_length (by rw [h.step]; omega), h.pre]
  have hst := h.step
  have hle := h.le
  unfold roRead roPush
  simp only [hg, hpk, Option.bind_eq_bind, Option.bind_some, Nat.mod_eq_of_lt hfit.1, Nat.mod_eq_of_lt hfit.2]
  rw [h.mem]
  by_cases hck : st.step + 1 = data.length * 8
  · rw [if_pos hck]
    obtain ⟨chk, h1, h2, _⟩ := roCheck_good hc hd hv ⟨data, st.list ++ [roPacked c ⟨i, data[i]⟩], st.log ++ [⟨i, data[i]⟩],
      st.step + 1⟩ rfl (by simp [h.list]) hvals (by simp; omega) (by simp; omega) (by simp; omega)
    rw [h1]
    refine ⟨_, _, rfl, ?_, by simpa using h2⟩
    constructor
    · rfl
    · simp only [h.list]
      rw [← List.map_singleton (f := roPacked c), ← List.map_append, List.map_take]
    · simp only [hpre]
      rw [List.take_of_length_le (by rw [roRows_length])]
    · simp only [hpre, roRows_length, Nat.add_zero]
    · simp only; omega
    · intro e he
      exact hvals e (List.mem_of_mem_take he)
  · rw [if_neg hck]
    refine ⟨_, _, rfl, ?_, by simp⟩
    constructor
    · rfl
    · simp [h.list]
    · exact hpre
    · simp; omega
    · simp only; omega
    · exact hvals

theorem roRun_inv {c : RoCfg} (hc : c.Ok) {data : List Nat} (hd : data.length ≤ 2 ^ c.isz) (hdd : data.length < 2 ^ 60)
    (hv : ∀ v ∈ data, v < 2 ^ c.vsz) (is : List Nat) : ∀ (st : RoState), RoInv c data st → (∀ i ∈ is, i < data.length) →
    ∃ st' vs chks, roRun c st is = some (st', vs, chks) ∧ RoInv c data st' ∧ vs.map some = is.map (fun i => data[i]?) ∧
      ∀ chk ∈ chks, chk.Good c := by
  induction is with
  | nil => intro st h _; exact ⟨st, [], [], rfl, h, rfl, by simp⟩
  | cons i is ih =>
    intro st h hi
    obtain ⟨st1, ch, h1, h2, h3⟩ := roRead_inv hc hd hdd hv st h i (hi i (by simp))
    obtain ⟨st2, vs, chs, h4, h5, h6, h7⟩ := ih st1 h2 (fun x hx => hi x (by simp [hx]))
    refine ⟨st2, data[i]'(hi i (by simp)) :: vs, ch ++ chs, ?_, h5, ?_, ?_⟩
    · rw [roRun, h1]
      simp only [Option.bind_eq_bind, Option.bind_some, h4]
    · rw [List.map_cons, List.map_cons, h6, List.getElem?_eq_getElem (hi i (by simp))]
    · intro chk hc
      rcases List.mem_append.1 hc with hc | hc
      · exact h3 chk hc
      · exact h7 chk hc

section
variable {F : Type} [Field F] [BlockField F]

theorem wordF_roPacked {c : RoCfg} (hc : c.Ok) (e : RoEnt) :
    (wordF (roPacked c e) : F) = ∑ i ∈ Finset.range c.vsz, bit (e.val.testBit i) * gX ^ (0 + i) +
      ∑ i ∈ Finset.range c.isz, bit (e.idx.testBit i) * gX ^ (c.vsz + i) := by
  obtain ⟨h1, h2⟩ := hc
  have p : ∀ n : Nat, 0 < 2 ^ n := fun n => by positivity
  have b1 := Nat.mod_lt e.val (p c.vsz)
  have b3 := Nat.mod_lt e.idx (p c.isz)
  rw [wordF_eq, roPacked]
  have e0 : 128 = c.vsz + (c.isz + (128 - c.vsz - c.isz)) := by omega
  rw [e0, sum_testBit_split _ b1, sum_testBit_ext (fun i => gX ^ (c.vsz + i)) b3, sum_testBit_mod, sum_testBit_mod]
  simp only [Nat.zero_add]

theorem roPackMac_key {c : RoCfg} (hc : c.Ok) (delta : F) (e : RoEnt) (wi wv : Nat) (ki kv : Nat → F)
    (hi : c.isz ≤ wi) (hv : c.vsz ≤ wv) :
    ∃ K, roPackMac c ((List.range wi).map ki) ((List.range wv).map kv) = some K ∧
      roPackMac c (macBits wi e.idx ki delta) (macBits wv e.val kv delta) = some (K + wordF (roPacked c e) * delta) := by
  have h12 := hc
  obtain ⟨h1, h2⟩ := hc
  unfold roPackMac macBits
  rw [innBase_map _ _ _ _ hv (by omega), innBase_map _ _ _ _ hi (by omega), innBase_map _ _ _ _ hv (by omega),
    innBase_map _ _ _ _ hi (by omega)]
  simp only [Option.bind_eq_bind, Option.bind_some, Option.some.injEq, exists_eq_left']
  rw [wordF_roPacked h12]
  simp only [add_mul, Finset.sum_add_distrib, Finset.sum_mul, mul_right_comm]
  ring

end
end EmpZk
