import Verif.Lemmas.RamExtRun
import Verif.Lemmas.ZkRamHonest
/-! The check of `ZkRamExt` in honest runs. -/
namespace EmpZk

theorem pairs_inj : ∀ (l m : List Nat), l.length = m.length → (∀ v ∈ l, v < 2 ^ 64) → (∀ v ∈ m, v < 2 ^ 64) →
    pairs l = pairs m → l = m
  | [], [], _, _, _, _ => rfl
  | [a], [b], _, _, _, h => by
    simp only [pairs, List.cons.injEq, and_true] at h
    rw [Nat.eq_of_mul_eq_mul_left (Nat.two_pow_pos 64) h]
  | a :: b :: l, c :: d :: m, hl, h1, h2, h => by
    simp only [pairs, List.cons.injEq] at h
    obtain ⟨e1, e2⟩ := addMul_inj (h1 b (by simp)) (h2 d (by simp)) h.1
    have := pairs_inj l m (by simpa using hl) (fun v hv => h1 v (by simp [hv])) (fun v hv => h2 v (by simp [hv])) h.2
    rw [e1, e2, this]
  | [], _ :: _, hl, _, _, _ => by simp at hl
  | _ :: _, [], hl, _, _, _ => by simp at hl
  | [_], _ :: _ :: _, hl, _, _, _ => by simp at hl
  | _ :: _ :: _, [_], hl, _, _, _ => by simp at hl

theorem extRow_inj {c : RxCfg} (hc : c.Ok) {e f : ExtEnt} (he : e.FitsX c) (hf : f.FitsX c) (h : extRow e = extRow f) :
    e = f := by
  obtain ⟨h1, h2, h3⟩ := hc
  obtain ⟨i, s, o, v⟩ := e
  obtain ⟨i', s', o', v'⟩ := f
  obtain ⟨a1, a2, a3, a4⟩ := he
  obtain ⟨b1, b2, b3, b4⟩ := hf
  have hw : 1 ≤ c.words := by unfold RxCfg.words; omega
  simp only at *
  cases v with
  | nil => simp only [List.length_nil] at a3; omega
  | cons v vs =>
    cases v' with
    | nil => simp only [List.length_nil] at b3; omega
    | cons v' vs' =>
      simp only [extRow, List.cons.injEq] at h
      have hle : ∀ {n m x : Nat}, n ≤ m → x < 2 ^ n → x < 2 ^ m :=
        fun hnm hx => lt_of_lt_of_le hx (Nat.pow_le_pow_right (by decide) hnm)
      obtain ⟨g1, g2, g3, g4⟩ := ramPacked_inj (c := extW) (e := ⟨i, s, o, v⟩) (f := ⟨i', s', o', v'⟩)
        ⟨hle h2 a2, a4 v (by simp)⟩ ⟨hle h2 b2, b4 v' (by simp)⟩ h.1
      have g1' : i % 2 ^ 32 = i' % 2 ^ 32 := g1
      rw [Nat.mod_eq_of_lt (hle h1 a1), Nat.mod_eq_of_lt (hle h1 b1)] at g1'
      have := pairs_inj vs vs' (by simp only [List.length_cons] at a3 b3; omega) (fun x hx => a4 x (by simp [hx]))
        (fun x hx => b4 x (by simp [hx])) h.2
      simp only at g2 g3 g4
      rw [g1', g2, g3, g4, this]

/-- The check of a log kept by the invariant. -/
theorem ExtInv.check {c : RxCfg} {st : ExtState} {l : List (Acc (List Nat))} (h : ExtInv c st l) (hc : c.Ok) (h1 : 64 < c.vsz) (h2 : c.vsz < 2 ^ 64)
    (h3 : 3 ≤ st.step) (hlen : st.step ≤ 2 ^ (c.ssz - 1)) :
    ∃ st' chk, extCheck c st = some (st', chk) ∧ chk.cond = extCond c chk.rows ∧ chk.cond = true ∧ chk.rows.Perm st.log ∧
      chk.orig = st.log.map extRow ∧ chk.sorted = chk.rows.map extRow := by
  have hss : 1 ≤ c.ssz := by
    by_contra h0
    have : c.ssz - 1 = 0 := by omega
    rw [this] at hlen
    omega
  have hssz := hc.2.1
  have hw : c.words < 2 ^ 64 := by unfold RxCfg.words; omega
  have hw2 : 2 ≤ c.words := by unfold RxCfg.words; omega
  have hsl : st.step = st.list.length := by rw [h.list, List.length_map, h.step]
  have h64 : st.step < 2 ^ 64 := by
    have : 2 ^ (c.ssz - 1) < 2 ^ 64 := Nat.pow_lt_pow_right (by decide) (by omega)
    omega
  have hp : (st.list.mergeSort extLe).Perm st.list := List.mergeSort_perm _ _
  -- the rows taken apart
  have hex : ∃ S : List ExtEnt, S.Perm st.log ∧ st.list.mergeSort extLe = S.map extRow := by
    have hp' := hp
    conv at hp' => rhs; rw [h.list]
    exact ⟨_, (hp'.map (fun w => (st.log.find? (fun e => decide (extRow e = w))).getD ⟨0, 0, false, []⟩)).trans (by
      rw [List.map_map]
      have : st.log.map ((fun w => (st.log.find? (fun e => decide (extRow e = w))).getD ⟨0, 0, false, []⟩) ∘ extRow) = st.log := by
        conv_rhs => rw [← List.map_id st.log]
        apply List.map_congr_left
        intro e he
        simp only [Function.comp, id]
        cases hf : st.log.find? (fun e' => decide (extRow e' = extRow e)) with
        | none =>
          have := List.find?_eq_none.1 hf e he
          simp at this
        | some x =>
          have h1 := List.find?_some hf
          have h2 := List.mem_of_find?_eq_some hf
          simp only [decide_eq_true_eq] at h1
          exact extRow_inj hc (h.fits x h2) (h.fits e he) h1
      rw [this]), by
      rw [List.map_map]
      conv_lhs => rw [← List.map_id (st.list.mergeSort extLe)]
      apply List.map_congr_left
      intro w hw
      have hw' := hp'.mem_iff.1 hw
      obtain ⟨e, he, rfl⟩ := List.mem_map.1 hw'
      simp only [Function.comp, id]
      cases hf : st.log.find? (fun e' => decide (extRow e' = extRow e)) with
      | none =>
        have := List.find?_eq_none.1 hf e he
        simp at this
      | some x =>
        have h1 := List.find?_some hf
        simp only [decide_eq_true_eq] at h1
        exact h1.symm⟩
  obtain ⟨S, hSp, hSe⟩ := hex
  have hSfit : ∀ e ∈ S, e.FitsX c := fun e he => h.fits e (hSp.mem_iff.1 he)
  have hrows : (List.range st.step).mapM (fun i => ((st.list.mergeSort extLe)[i]?).bind (extUnpack c)) = some S := by
    have hl : S.length = st.step := by rw [hSp.length_eq, h.step]
    have := mapM_range_eq id S
    rw [List.map_id, hl] at this
    rw [← this]
    apply mapM_opt_congr
    intro i hi
    have hi' : i < S.length := by rw [hl]; exact List.mem_range.1 hi
    rw [hSe, List.getElem?_map, List.getElem?_eq_getElem hi']
    simp only [Option.map_some, Option.bind_some, id]
    exact extUnpack_eq hc hw hw2 (hSfit _ (List.getElem_mem hi'))
  obtain ⟨gs, hg, _⟩ := bchGroups_eq (w := 4) (n := st.step) (by decide) (by omega) (by omega) h64
  refine ⟨⟨[], [], [], 0⟩, ⟨extCond c S, S, st.list.mergeSort extLe, st.list⟩, ?_, rfl, ?_, hSp, h.list, hSe⟩
  · unfold extCheck
    simp only [hrows, ← hsl, hg, Option.bind_eq_bind, Option.bind_some]
  · simp only
    rw [extCond_iff hss]
    · refine ext_honest_chain st.log S hSp h.steps ?_ (by rw [h.acc]; exact h.reads.prev)
      have hnd : st.log.Pairwise (fun e f => e.step ≠ f.step) := by
        rw [List.pairwise_iff_getElem]
        intro i j hi hj hij
        rw [h.steps i hi, h.steps j hj]
        omega
      have hndS : S.Pairwise (fun e f => e.step ≠ f.step) := (hSp.symm.pairwise hnd) (fun {_ _} h => h.symm)
      have hsort := List.pairwise_mergeSort (le := extLe) extLe_trans extLe_total st.list
      rw [hSe, List.pairwise_map] at hsort
      have hboth := hsort.and hndS
      refine List.Pairwise.imp_of_mem ?_ hboth
      intro a b ha hb hab
      exact extRow_le_lt hc (hSfit a ha) (hSfit b hb) hab.1 hab.2
    · intro e he
      obtain ⟨i, hi, rfl⟩ := List.getElem_of_mem (hSp.mem_iff.1 he)
      rw [h.steps i hi]
      have := h.step
      omega

end EmpZk
