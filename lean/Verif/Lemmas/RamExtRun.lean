import Verif.Lemmas.RamExt
/-! Helper lemmas for `ZkRamExt`: the condition, honest runs. -/
namespace EmpZk

/-- Neighbouring rows of a sorted list that passes the condition of `ZkRamExt`. -/
def RowOf.AdjX (p e : ExtEnt) : Prop := p.idx = e.idx → p.step < e.step ∧ (e.op = false → p.val = e.val)

theorem extCond_iff {c : RxCfg} (hs : 1 ≤ c.ssz) : ∀ (l : List ExtEnt), (∀ e ∈ l, e.step < 2 ^ (c.ssz - 1)) →
    (extCond c l = true ↔ l.IsChain RowOf.AdjX)
  | [], _ => by simp [extCond]
  | [_], _ => by simp [extCond]
  | p :: e :: l, hst => by
    have ih := extCond_iff hs (e :: l) (fun x hx => hst x (by simp [hx]))
    have h2 := ltW_eq (hst p (by simp)) (hst e (by simp))
    rw [Nat.sub_add_cancel hs] at h2
    rw [extCond, Bool.and_eq_true, List.isChain_cons_cons]
    refine and_congr ?_ ih
    unfold extCond2 RowOf.AdjX
    rw [h2]
    by_cases hi : p.idx = e.idx
    · cases e.op <;> simp [hi]
    · simp [hi]

/-- Rows of one index follow one another. -/
def Grouped (S : List ExtEnt) : Prop :=
  ∀ i j k (hk : k < S.length) (hjk : j < k) (hij : i < j), S[i].idx = S[k].idx → S[j].idx = S[i].idx

theorem grouped_step {S : List ExtEnt} (hg : Grouped S) (hc : S.IsChain RowOf.AdjX) (q : Nat) : ∀ d (h : q + d + 1 < S.length),
    S[q].idx = S[q + d + 1].idx → S[q].step < S[q + d + 1].step := by
  intro d
  induction d with
  | zero =>
    intro h he
    exact ((List.isChain_iff_getElem.1 hc) q h he).1
  | succ d ih =>
    intro h he
    have h1 : S[q + d + 1].idx = S[q].idx := hg q (q + d + 1) (q + (d + 1) + 1) h (by omega) (by omega) he
    have h2 := ih (by omega) h1.symm
    have h3 := ((List.isChain_iff_getElem.1 hc) (q + d + 1) h (h1.trans he)).1
    exact lt_trans h2 h3

/-- In a permutation of the log that passes and is grouped, a read repeats the latest earlier access to its address. -/
theorem ext_readsPrev (L S : List ExtEnt) (hperm : S.Perm L) (hstep : ∀ i (h : i < L.length), L[i].step = i)
    (hc : S.IsChain RowOf.AdjX) (hg : Grouped S) : ReadsPrev (L.map RowOf.acc) := by
  intro i e he hop j f hji hf hidx hno
  have hi : i < L.length := by
    have := (List.getElem?_eq_some_iff.1 he).1
    simpa using this
  have hj : j < L.length := by omega
  have he' : e = L[i].acc := by
    have h := (List.getElem?_eq_some_iff.1 he).2
    rw [List.getElem_map] at h
    exact h.symm
  have hf' : f = L[j].acc := by
    have h := (List.getElem?_eq_some_iff.1 hf).2
    rw [List.getElem_map] at h
    exact h.symm
  subst he'
  subst hf'
  obtain ⟨p, hpl, hpe⟩ := List.getElem_of_mem (hperm.mem_iff.2 (List.getElem_mem hi))
  obtain ⟨q, hql, hqe⟩ := List.getElem_of_mem (hperm.mem_iff.2 (List.getElem_mem hj))
  simp only [RowOf.acc] at hidx hop hno ⊢
  have hsi := hstep i hi
  have hsj := hstep j hj
  have ord : ∀ x y (hx : x < y) (hy : y < S.length), S[x].idx = S[y].idx → S[x].step < S[y].step := by
    intro x y hx hy h
    obtain ⟨d, rfl⟩ : ∃ d, y = x + d + 1 := ⟨y - x - 1, by omega⟩
    exact grouped_step hg hc x d hy h
  have hqp : q < p := by
    rcases Nat.lt_trichotomy q p with h | h | h
    · exact h
    · subst h
      have : L[i] = L[j] := by rw [← hpe, ← hqe]
      rw [this, hsj] at hsi
      omega
    · have := ord p q h hql (by rw [hpe, hqe, hidx])
      rw [hpe, hqe] at this
      omega
  obtain ⟨p', rfl⟩ : ∃ p', p = p' + 1 := ⟨p - 1, by omega⟩
  have hadj := (List.isChain_iff_getElem.1 hc) p' hpl
  have hidx' : S[p'].idx = S[p' + 1].idx := by
    by_cases hpq : q = p'
    · subst hpq
      rw [hqe, hpe, hidx]
    · have := hg q p' (p' + 1) hpl (by omega) (by omega) (by rw [hqe, hpe, hidx])
      rw [this, hqe, hpe, hidx]
  have h1 := hadj hidx'
  by_cases hpq : q = p'
  · subst hpq
    have := h1.2 (by rw [hpe]; exact hop)
    rw [hqe, hpe] at this
    exact this
  · exfalso
    have h2 := ord q p' (by omega) (by omega) (by rw [hidx', hqe, hpe, hidx])
    obtain ⟨k, hk, hke⟩ := List.getElem_of_mem (hperm.mem_iff.1 (List.getElem_mem (show p' < S.length by omega)))
    have hsk := hstep k hk
    rw [hqe, ← hke] at h2
    have h3 := h1.1
    rw [hpe, ← hke] at h3
    rw [hpe, ← hke] at hidx'
    exact hno k L[k].acc (by omega) (by omega) (by rw [List.getElem?_map, List.getElem?_eq_getElem hk]; rfl) hidx'

/-! ### honest runs -/

/-- Every read returns the latest write to its address, and there is one. -/
def ReadsWritten (l : List (Acc (List Nat))) : Prop :=
  ∀ (i : Nat) (e : Acc (List Nat)), l[i]? = some e → e.op = false → lastWrite (l.take i) e.idx = some e.val

theorem ReadsWritten.prev {l : List (Acc (List Nat))} (h : ReadsWritten l) : ReadsPrev l := by
  intro i e he hop j f hji hf hidx hno
  have hi := (List.getElem?_eq_some_iff.1 he).1
  have h1 := h i e he hop
  rw [lastWrite_skip l e.idx (j + 1) i hji (by omega) (fun k g h1 h2 => hno k g (by omega) h2)] at h1
  have ht : l.take (j + 1) = l.take j ++ [f] := by
    rw [List.take_add_one, hf]; rfl
  rw [ht, lastWrite_append] at h1
  by_cases hfo : f.op = true
  · rw [if_pos ⟨hfo, hidx⟩] at h1
    exact Option.some.inj h1
  · rw [if_neg (by tauto)] at h1
    have h2 := h j f hf (by simpa using hfo)
    rw [hidx, h1] at h2
    exact (Option.some.inj h2).symm

theorem ReadsWritten.snoc {l : List (Acc (List Nat))} (h : ReadsWritten l) (e : Acc (List Nat))
    (he : e.op = false → lastWrite l e.idx = some e.val) : ReadsWritten (l ++ [e]) := by
  intro i f hf hop
  by_cases hi : i < l.length
  · rw [List.getElem?_append_left hi] at hf
    rw [List.take_append_of_le_length (by omega)]
    exact h i f hf hop
  · rw [List.getElem?_append_right (by omega)] at hf
    have : i = l.length := by
      by_contra hne
      rw [List.getElem?_eq_none (by simp; omega)] at hf
      simp at hf
    subst this
    simp only [Nat.sub_self, List.getElem?_cons_zero, Option.some.injEq] at hf
    subst hf
    rw [List.take_append_of_le_length (le_refl _), List.take_length]
    exact he hop

/-- Calls that fit. -/
def ExtOp.Fits (c : RxCfg) : ExtOp → Prop
  | .read i => i < 2 ^ c.isz
  | .write i v => i < 2 ^ c.isz ∧ v.length = c.words ∧ ∀ x ∈ v, x < 2 ^ 64

/-- The access a call is, given the accesses before it: reads return the latest write. -/
def ExtOp.spec (l : List (Acc (List Nat))) : ExtOp → Option (Acc (List Nat))
  | .read i => (lastWrite l i).map (fun v => ⟨i, false, v⟩)
  | .write i v => some ⟨i, true, v⟩

/-- What the caller sees of it. -/
def ExtOp.result : ExtOp → Acc (List Nat) → Option (List Nat)
  | .read _, e => some e.val
  | .write _ _, _ => none

/-- The accesses of a sequence of calls, with what the caller sees; `none` if an address is read before it is written. -/
def extSpec : List (Acc (List Nat)) → List ExtOp → Option (List (Acc (List Nat)) × List (Option (List Nat)))
  | l, [] => some (l, [])
  | l, o :: os => do
    let e ← o.spec l
    let (l', rs) ← extSpec (l ++ [e]) os
    some (l', o.result e :: rs)

/-- Invariant of honest runs. -/
structure ExtInv (c : RxCfg) (st : ExtState) (l : List (Acc (List Nat))) : Prop where
  acc : st.log.map RowOf.acc = l
  step : st.step = st.log.length
  steps : ∀ i (h : i < st.log.length), st.log[i].step = i
  fits : ∀ e ∈ st.log, e.FitsX c
  list : st.list = st.log.map extRow
  mem : ∀ i, i < 2 ^ c.isz → st.mem[i]? = some ((lastWrite l i).getD [])
  memfit : ∀ i v, lastWrite l i = some v → v.length = c.words ∧ ∀ x ∈ v, x < 2 ^ 64
  reads : ReadsWritten l

theorem extInit_inv (c : RxCfg) : ExtInv c (extInit c) [] where
  acc := rfl
  step := rfl
  steps := by intro i h; simp [extInit] at h
  fits := by intro e he; simp [extInit] at he
  list := rfl
  mem := by intro i h; simp [extInit, lastWrite, h]
  memfit := by intro i v h; simp [lastWrite] at h
  reads := by intro i e he; simp at he

theorem ExtInv.push {c : RxCfg} {st : ExtState} {l : List (Acc (List Nat))} (h : ExtInv c st l)
    (e : Acc (List Nat)) (hi : e.idx < 2 ^ c.isz) (hv : e.val.length = c.words ∧ ∀ x ∈ e.val, x < 2 ^ 64)
    (hr : e.op = false → lastWrite l e.idx = some e.val) (hst : st.step < 2 ^ c.ssz) :
    ExtInv c { mem := if e.op then st.mem.set e.idx e.val else st.mem,
               list := st.list ++ [extRow ⟨e.idx, st.step, e.op, e.val⟩], step := st.step + 1,
               log := st.log ++ [⟨e.idx, st.step, e.op, e.val⟩] } (l ++ [e]) where
  acc := by simp [h.acc, RowOf.acc]
  step := by simp [h.step]
  steps := by
    intro i hi
    simp only [List.length_append, List.length_singleton] at hi
    by_cases hlt : i < st.log.length
    · simp only [List.getElem_append_left hlt]
      exact h.steps i hlt
    · have : i = st.log.length := by omega
      subst this
      simp [h.step]
  fits := by
    intro x hx
    rcases List.mem_append.1 hx with hx | hx
    · exact h.fits x hx
    · simp only [List.mem_singleton] at hx
      subst hx
      exact ⟨hi, hst, hv⟩
  list := by simp [h.list]
  mem := by
    intro i hi'
    rw [lastWrite_append]
    have hm := h.mem i hi'
    cases hop : e.op
    · simpa using hm
    · by_cases hie : e.idx = i
      · subst hie
        have : e.idx < st.mem.length := (List.getElem?_eq_some_iff.1 hm).1
        simp [this]
      · simp [hie, hm]
  memfit := by
    intro i v hv'
    rw [lastWrite_append] at hv'
    by_cases hc : e.op = true ∧ e.idx = i
    · rw [if_pos hc] at hv'
      rw [← Option.some.inj hv']
      exact hv
    · rw [if_neg hc] at hv'
      exact h.memfit i v hv'
  reads := h.reads.snoc e hr

theorem extStep_inv {c : RxCfg} (hc : c.Ok) {st : ExtState} {l : List (Acc (List Nat))} (h : ExtInv c st l) (o : ExtOp)
    (ho : o.Fits c) (e : Acc (List Nat)) (he : o.spec l = some e) (hst : st.step < 2 ^ c.ssz) :
    ∃ st', extStep c st o = some (st', o.result e) ∧ st'.step = st.step + 1 ∧ ExtInv c st' (l ++ [e]) := by
  have hmod : ∀ v : List Nat, (∀ x ∈ v, x < 2 ^ 64) → v.map (· % 2 ^ 64) = v := by
    intro v hv
    conv_rhs => rw [← List.map_id v]
    exact List.map_congr_left (fun x hx => Nat.mod_eq_of_lt (hv x hx))
  cases o with
  | read i =>
    simp only [ExtOp.spec, Option.map_eq_some_iff] at he
    obtain ⟨v, hv, rfl⟩ := he
    have hi : i < 2 ^ c.isz := ho
    have hm := h.mem i hi
    rw [hv] at hm
    have hf := h.memfit i v hv
    have hp := extPack_eq hc (e := ⟨i, st.step, false, v⟩) ⟨hi, hst, hf⟩
    simp only at hp
    have hr := mapM_range_eq (· % 2 ^ 64) v
    rw [hf.1, hmod v hf.2] at hr
    have hinv := h.push ⟨i, false, v⟩ hi hf (fun _ => hv) hst
    refine ⟨_, ?_, ?_, hinv⟩
    · simp only [extStep, extRead, hm, Option.getD_some, Option.bind_eq_bind, Option.bind_some, hp, hr, Option.map_some,
        Nat.mod_eq_of_lt hi, Nat.mod_eq_of_lt hst, ExtOp.result]
      rfl
    · rfl
  | write i v =>
    simp only [ExtOp.spec, Option.some.injEq] at he
    subst he
    obtain ⟨hi, hf⟩ := ho
    have hm := h.mem i hi
    have hp := extPack_eq hc (e := ⟨i, st.step, true, v⟩) ⟨hi, hst, hf⟩
    simp only at hp
    have hr := mapM_range_eq id v
    rw [hf.1, List.map_id] at hr
    have hr' : (List.range c.words).mapM (fun i => v[i]?) = some v := by
      rw [← hr]
      apply mapM_opt_congr
      intro a _
      simp
    have hinv := h.push ⟨i, true, v⟩ hi hf (by simp) hst
    refine ⟨_, ?_, ?_, hinv⟩
    · simp only [extStep, extWrite, hm, Option.bind_eq_bind, Option.bind_some, hp, hr', Option.map_some,
        Nat.mod_eq_of_lt hi, Nat.mod_eq_of_lt hst, ExtOp.result, hmod v hf.2]
      rfl
    · rfl

theorem extRun_inv {c : RxCfg} (hc : c.Ok) (ops : List ExtOp) : ∀ (st : ExtState) (l : List (Acc (List Nat))), ExtInv c st l →
    st.step + ops.length ≤ 2 ^ c.ssz → (∀ o ∈ ops, o.Fits c) → ∀ l' rs, extSpec l ops = some (l', rs) →
    ∃ st', extRun c st ops = some (st', rs) ∧ st'.step = st.step + ops.length ∧ ExtInv c st' l' := by
  induction ops with
  | nil =>
    intro st l h _ _ l' rs hs
    simp only [extSpec, Option.some.injEq, Prod.mk.injEq] at hs
    obtain ⟨rfl, rfl⟩ := hs
    exact ⟨st, rfl, rfl, h⟩
  | cons o os ih =>
    intro st l h hlen hf l' rs hs
    simp only [List.length_cons] at hlen
    simp only [extSpec, Option.bind_eq_bind, Option.bind_eq_some_iff] at hs
    obtain ⟨e, he, ⟨l1, rs1⟩, hs1, hs2⟩ := hs
    simp only [Option.some.injEq, Prod.mk.injEq] at hs2
    obtain ⟨rfl, rfl⟩ := hs2
    obtain ⟨st1, g1, g2, g3⟩ := extStep_inv hc h o (hf o (by simp)) e he (by omega)
    obtain ⟨st2, k1, k2, k3⟩ := ih st1 _ g3 (by omega) (fun x hx => hf x (by simp [hx])) l1 rs1 hs1
    refine ⟨st2, ?_, ?_, k3⟩
    · simp only [extRun, g1, k1, Option.bind_eq_bind, Option.bind_some]
    · rw [k2, g2, List.length_cons]; omega

/-! ### the honest check -/

theorem ext_honest_chain (L S : List ExtEnt) (hperm : S.Perm L) (hstep : ∀ i (h : i < L.length), L[i].step = i)
    (hlt : S.Pairwise RowOf.lt) (hprev : ReadsPrev (L.map RowOf.acc)) : S.IsChain RowOf.AdjX := by
  rw [List.isChain_iff_getElem]
  intro k hk hidx
  rw [List.pairwise_iff_getElem] at hlt
  have h0 := hlt k (k + 1) (by omega) hk (by omega)
  have hs0 : S[k].step < S[k + 1].step := by
    unfold RowOf.lt at h0
    omega
  refine ⟨hs0, ?_⟩
  intro hop
  obtain ⟨i, hi, hie⟩ := List.getElem_of_mem (hperm.mem_iff.1 (List.getElem_mem hk))
  obtain ⟨p, hp, hpe⟩ := List.getElem_of_mem (hperm.mem_iff.1 (List.getElem_mem (show k < S.length by omega)))
  have si := hstep i hi
  have sp := hstep p hp
  rw [← hie] at hop hidx hs0 ⊢
  rw [← hpe] at hidx hs0 ⊢
  refine hprev i L[i].acc (by rw [List.getElem?_map, List.getElem?_eq_getElem hi]; rfl) hop p L[p].acc (by omega)
    (by rw [List.getElem?_map, List.getElem?_eq_getElem hp]; rfl) hidx ?_
  intro m g h1 h2 hg heq
  have hm : m < L.length := by omega
  rw [List.getElem?_map, List.getElem?_eq_getElem hm] at hg
  simp only [Option.map_some, Option.some.injEq] at hg
  subst hg
  have heq' : L[m].idx = L[i].idx := heq
  have sm := hstep m hm
  obtain ⟨q, hq, hqe⟩ := List.getElem_of_mem (hperm.mem_iff.2 (List.getElem_mem hm))
  rcases Nat.lt_trichotomy q k with h | h | h
  · have := hlt q k hq (by omega) h
    rw [hqe, ← hpe] at this
    unfold RowOf.lt at this
    omega
  · subst h
    have : L[m] = L[p] := by rw [← hqe, hpe]
    rw [this] at sm
    omega
  · rcases Nat.lt_or_ge (k + 1) q with h' | h'
    · have := hlt (k + 1) q hk hq h'
      rw [hqe, ← hie] at this
      unfold RowOf.lt at this
      omega
    · have : q = k + 1 := by omega
      subst this
      have : L[m] = L[i] := by rw [← hqe, hie]
      rw [this] at sm
      omega

theorem extRow_le_lt {c : RxCfg} (hc : c.Ok) {e f : ExtEnt} (he : e.FitsX c) (hf : f.FitsX c)
    (h : extLe (extRow e) (extRow f) = true) (hne : e.step ≠ f.step) : e.lt f := by
  obtain ⟨h1, h2, h3⟩ := hc
  obtain ⟨i, s, o, v⟩ := e
  obtain ⟨i', s', o', v'⟩ := f
  obtain ⟨a1, a2, a3, a4⟩ := he
  obtain ⟨b1, b2, b3, b4⟩ := hf
  have hw : 1 ≤ c.words := by unfold RxCfg.words; omega
  simp only at *
  cases v with
  | nil => simp only [List.length_nil] at a3; omega
  | cons v vs =>
    cases v' with
    | nil => simp only [List.length_nil] at b3; omega
    | cons v' vs' =>
      simp only [extRow, extLe, decide_eq_true_eq] at h
      have := packed_le_lt (c := extW) (e := ⟨i, s, o, v⟩) (f := ⟨i', s', o', v'⟩)
        ⟨lt_of_lt_of_le a1 (Nat.pow_le_pow_right (by decide) h1), lt_of_lt_of_le a2 (Nat.pow_le_pow_right (by decide) h2),
          a4 v (by simp)⟩
        ⟨lt_of_lt_of_le b1 (Nat.pow_le_pow_right (by decide) h1), lt_of_lt_of_le b2 (Nat.pow_le_pow_right (by decide) h2),
          b4 v' (by simp)⟩ h hne
      exact this

theorem extLe_trans (a b d : List Nat) (h1 : extLe a b = true) (h2 : extLe b d = true) : extLe a d = true := by
  cases a <;> cases b <;> cases d <;> simp_all [extLe]
  omega

theorem extLe_total (a b : List Nat) : (extLe a b || extLe b a) = true := by
  cases a <;> cases b <;> simp [extLe]
  omega

end EmpZk
