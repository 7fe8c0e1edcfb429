/-
Lemmas on the products over F_{2^128} (Verif.Model.F2kGate).
-/
import Verif.Model.F2kGate
import Verif.Spec.F2kCommit
import Verif.Lemmas.BoolSound

namespace EmpZk

section
variable {F : Type} [Field F] [BlockField F]

theorem addConst_key (delta : F) (x : F × F) (c : F) :
    f2kAddConstVer delta (keyF delta x) c = keyF delta (f2kAddConstPrv x c) := by
  simp only [f2kAddConstVer, keyF, f2kAddConstPrv]; ring

theorem mul_key (delta : F) (auth : F × F) (v : F) :
    f2kMulVer delta (keyF delta auth) (f2kMulPrv auth v).2 = keyF delta (f2kMulPrv auth v).1 := by
  simp only [f2kMulVer, keyF, f2kMulPrv]
  have := addSelf (auth.1 * delta)
  linear_combination this

theorem mulOut_key (delta : F) (lo hi : Nat → F) :
    mulOutLabel (fun i => keyOf delta (lo i)) (fun i => keyOf delta (hi i)) =
      keyF delta (mulOutLabel (fun i => bit (lsb (lo i))) (fun i => bit (lsb (hi i))), mulOutLabel lo hi) := by
  simp only [mulOutLabel, keyF, keyOf]
  rw [add_mul, Finset.sum_mul, Finset.sum_mul]
  have h1 : ∀ (f : Nat → F) (e : Nat → Nat), ∑ i : Fin 64, (f i + bit (lsb (f i)) * delta) * gX ^ (e i) =
      ∑ i : Fin 64, f i * gX ^ (e i) + ∑ i : Fin 64, bit (lsb (f i)) * gX ^ (e i) * delta := by
    intro f e
    rw [← Finset.sum_add_distrib]
    apply Finset.sum_congr rfl
    intro i _
    ring
  rw [h1 lo (fun i => i), h1 hi (fun i => 64 + i)]
  ring

/-! ### history of compute_mul -/

/-- The buffers of the verifier that belong to those of the prover. -/
def F2kBuf.key (delta : F) (s : F2kBuf (F × F)) : F2kBuf F :=
  ⟨s.left.map (keyF delta), s.rght.map (keyF delta), s.auth.map (keyF delta), s.cnt⟩

/-- The counters run in step and the auth buffer is long enough. -/
def F2kBuf.Inv {α : Type} (sz : Nat) (s : F2kBuf α) : Prop :=
  s.left.length = s.cnt ∧ s.rght.length = s.cnt ∧ s.cnt ≤ sz ∧ sz ≤ s.auth.length

/-- The products of the current batch. -/
def F2kBuf.pending {α : Type} (s : F2kBuf α) : List (α × α × α) := s.left.zip (s.rght.zip (s.auth.take s.cnt))

theorem mapM_range_some {α : Type} (l : List α) (f : Nat → Option α) (h : ∀ i, i < l.length → f i = l[i]?) :
    (List.range l.length).mapM f = some l := by
  induction l using List.reverseRecOn with
  | nil => rfl
  | append_singleton l a ih =>
    rw [List.length_append, List.length_singleton, List.range_succ, List.mapM_append, ih]
    · have : f l.length = some a := by
        rw [h l.length (by simp)]
        simp
      simp [this]
    · intro i hi
      rw [h i (by simp; omega), List.getElem?_append_left hi]

theorem F2kBuf.Inv.batch_eq {α : Type} {sz : Nat} {s : F2kBuf α} (h : s.Inv sz) : s.batch = some s.pending := by
  obtain ⟨h1, h2, h3, h4⟩ := h
  unfold F2kBuf.batch
  rw [if_neg (by omega)]
  have hlen : s.pending.length = s.left.length := by
    simp only [pending, List.length_zip, List.length_take]
    omega
  rw [← hlen]
  apply mapM_range_some
  intro i hi
  have hi1 : i < s.left.length := by omega
  have hi2 : i < s.rght.length := by omega
  have hi3 : i < s.auth.length := by omega
  have e1 : s.left[i]? = some s.left[i] := List.getElem?_eq_getElem hi1
  have e2 : s.rght[i]? = some s.rght[i] := List.getElem?_eq_getElem hi2
  have e3 : s.auth[s.cnt - s.left.length + i]? = some s.auth[i] := by
    rw [show s.cnt - s.left.length + i = i by omega]
    exact List.getElem?_eq_getElem hi3
  have e4 : (s.auth.take s.cnt)[i]? = some s.auth[i] := by
    rw [List.getElem?_take, if_pos (by omega)]
    exact List.getElem?_eq_getElem hi3
  have e3' : s.auth[s.cnt - s.pending.length + i]? = some s.auth[i] := by rw [hlen]; exact e3
  have e5 : s.pending[i]? = some (s.left[i], s.rght[i], s.auth[i]) := by
    simp only [pending, List.zip, List.getElem?_zipWith, e1, e2, e4]
  rw [e5, e1, e2, e3']

theorem F2kBuf.enter_eq {α : Type} {sz : Nat} (hsz : 0 < sz) (fresh : List (List α)) {s : F2kBuf α} (h : s.Inv sz)
    (hf : s.cnt = sz → fresh ≠ []) (hl : ∀ f ∈ fresh, sz ≤ f.length) (a b : α) :
    ∃ s1 fresh1 bt, s.enter sz fresh a b = some (s1, fresh1, bt) ∧
      ∃ s0 : F2kBuf α, s0.Inv sz ∧ s0.cnt < sz ∧ s1 = { s0 with left := s0.left ++ [a], rght := s0.rght ++ [b] } ∧
      ((s.cnt < sz ∧ s0 = s ∧ fresh1 = fresh ∧ bt = none) ∨
       (s.cnt = sz ∧ ∃ f, fresh = f :: fresh1 ∧ s0 = ⟨[], [], f, 0⟩ ∧ bt = some s.pending)) := by
  have hi := h
  obtain ⟨h1, h2, h3, h4⟩ := h
  rcases Nat.lt_or_ge s.cnt sz with hc | hc
  · refine ⟨_, fresh, none, ?_, s, hi, hc, rfl, Or.inl ⟨hc, rfl, rfl, rfl⟩⟩
    unfold F2kBuf.enter
    rw [if_neg (by omega)]
    simp only [Option.bind_eq_bind, Option.bind_some]
    rw [if_neg (by omega)]
  · have he : s.cnt = sz := by omega
    cases fresh with
    | nil => exact absurd rfl (hf he)
    | cons f fs =>
      have hfl := hl f (by simp)
      refine ⟨_, fs, some s.pending, ?_, ⟨[], [], f, 0⟩, ⟨rfl, rfl, Nat.zero_le _, hfl⟩, hsz, rfl,
        Or.inr ⟨he, f, rfl, rfl, rfl⟩⟩
      unfold F2kBuf.enter
      rw [if_pos (by omega), hi.batch_eq]
      simp [he]

theorem pending_push {α : Type} {sz : Nat} {s : F2kBuf α} (h : s.Inv sz) (hc : s.cnt < sz) (a b o : α) :
    F2kBuf.pending ⟨s.left ++ [a], s.rght ++ [b], s.auth.set s.cnt o, s.cnt + 1⟩ = s.pending ++ [(a, b, o)] := by
  obtain ⟨h1, h2, h3, h4⟩ := h
  have ht : (s.auth.set s.cnt o).take (s.cnt + 1) = s.auth.take s.cnt ++ [o] := by
    apply List.ext_getElem?
    intro i
    rw [List.getElem?_take]
    rcases Nat.lt_trichotomy i s.cnt with hi | hi | hi
    · rw [if_pos (by omega), List.getElem?_set_ne (by omega), List.getElem?_append_left (by simp; omega), List.getElem?_take,
        if_pos hi]
    · subst hi
      rw [if_pos (by omega), List.getElem?_set_self (by omega), List.getElem?_append_right (by simp)]
      simp [Nat.min_eq_left (show s.cnt ≤ s.auth.length by omega)]
    · rw [if_neg (by omega), List.getElem?_append_right (by simp; omega)]
      rw [List.getElem?_eq_none]
      simp
      omega
  simp only [F2kBuf.pending, ht]
  rw [List.zip_append (by simp; omega), List.zip_append (by simp; omega)]
  rfl

theorem F2kBuf.Inv.key {sz : Nat} {s : F2kBuf (F × F)} (delta : F) (h : s.Inv sz) : (s.key delta).Inv sz := by
  obtain ⟨h1, h2, h3, h4⟩ := h
  exact ⟨by simpa [F2kBuf.key] using h1, by simpa [F2kBuf.key] using h2, h3, by simpa [F2kBuf.key] using h4⟩

theorem pending_key (delta : F) (s : F2kBuf (F × F)) : (s.key delta).pending = s.pending.map (keyF3 delta) := by
  simp only [F2kBuf.pending, F2kBuf.key, ← List.map_take, List.zip_map]
  rfl

/-- A whole history: what both parties hold, and what is handed to the check. -/
theorem f2kRun_spec (delta : F) {sz : Nat} (hsz : 0 < sz) (calls : List ((F × F) × (F × F) × F)) :
    ∀ (fresh : List (List (F × F))) (s : F2kBuf (F × F)), s.Inv sz → (∀ f ∈ fresh, sz ≤ f.length) →
      s.cnt + calls.length ≤ sz * (1 + fresh.length) →
    ∃ outs ds bts, f2kRunPrv sz fresh s calls = some (outs, ds, bts) ∧ ds.length = calls.length ∧
      outs.map Prod.fst = calls.map (fun c => c.2.2) ∧
      f2kRunVer delta sz (fresh.map (List.map (keyF delta))) (s.key delta)
        ((calls.zip ds).map (fun cd => (keyF delta cd.1.1, keyF delta cd.1.2.1, cd.2))) =
        some (outs.map (keyF delta), bts.map (List.map (keyF3 delta))) ∧
      bts.flatten = s.pending ++ List.zipWith (fun c o => (c.1, c.2.1, o)) calls outs ∧
      (∀ bt ∈ bts, bt ≠ [] ∧ bt.length ≤ sz) := by
  induction calls with
  | nil =>
    intro fresh s hi hl hn
    have hpl : s.pending.length ≤ sz := by
      obtain ⟨h1, h2, h3, h4⟩ := hi
      simp only [F2kBuf.pending, List.length_zip]
      omega
    refine ⟨[], [], if s.pending.isEmpty then [] else [s.pending], ?_, rfl, rfl, ?_, ?_, ?_⟩
    · unfold f2kRunPrv
      rw [hi.batch_eq]
      rfl
    · simp only [List.zip_nil_left, List.map_nil]
      unfold f2kRunVer
      rw [(hi.key delta).batch_eq, pending_key]
      by_cases he : s.pending = []
      · simp [he]
      · simp [he]
    · by_cases he : s.pending = []
      · simp [he]
      · simp [he]
    · intro bt hbt
      by_cases he : s.pending = []
      · simp [he] at hbt
      · simp [he] at hbt
        subst hbt
        exact ⟨he, hpl⟩
  | cons c cs ih =>
    obtain ⟨a, b, v⟩ := c
    intro fresh s hi hl hn
    simp only [List.length_cons] at hn
    have hf : s.cnt = sz → fresh ≠ [] := by
      rintro he rfl
      simp at hn
      omega
    obtain ⟨s1, fresh1, bt, hen, s0, hs0, hlt, rfl, hcase⟩ := F2kBuf.enter_eq hsz fresh hi hf hl a b
    obtain ⟨h1, h2, h3, h4⟩ := hs0
    have hau : s0.auth[s0.cnt]? = some (s0.auth[s0.cnt]'(by omega)) := List.getElem?_eq_getElem (by omega)
    generalize hauth : s0.auth[s0.cnt]'(by omega) = auth at hau
    let s2 : F2kBuf (F × F) := ⟨s0.left ++ [a], s0.rght ++ [b], s0.auth.set s0.cnt (f2kMulPrv auth v).1, s0.cnt + 1⟩
    have hs2 : s2.Inv sz := ⟨by simp [s2, h1], by simp [s2, h2], by simp only [s2]; omega, by simpa [s2] using h4⟩
    have hl1 : ∀ f ∈ fresh1, sz ≤ f.length := by
      rcases hcase with ⟨_, _, rfl, _⟩ | ⟨_, f, rfl, _, _⟩
      · exact hl
      · intro g hg; exact hl g (by simp [hg])
    have hn1 : s2.cnt + cs.length ≤ sz * (1 + fresh1.length) := by
      rcases hcase with ⟨_, rfl, rfl, _⟩ | ⟨he, f, rfl, rfl, _⟩
      · simp only [s2]; omega
      · simp only [s2, List.length_cons] at hn ⊢
        have : sz * (1 + (fresh1.length + 1)) = sz * (1 + fresh1.length) + sz := by ring
        omega
    obtain ⟨outs, ds, bts, hp, hdl, hv, hver, hfl, hb⟩ := ih fresh1 s2 hs2 hl1 hn1
    have hstep : f2kStepPrv sz fresh s a b v = some (s2, fresh1, (f2kMulPrv auth v).1, (f2kMulPrv auth v).2, bt) := by
      unfold f2kStepPrv
      rw [hen]
      simp only [Option.bind_eq_bind, Option.bind_some, hau]
      rfl
    have hbteq : bt.toList.flatten ++ s0.pending = s.pending := by
      rcases hcase with ⟨_, rfl, rfl, rfl⟩ | ⟨he, f, rfl, rfl, rfl⟩
      · simp
      · simp [F2kBuf.pending]
    have hspl : s.pending.length = s.cnt := by
      obtain ⟨g1, g2, g3, g4⟩ := hi
      simp only [F2kBuf.pending, List.length_zip, List.length_take]
      omega
    refine ⟨(f2kMulPrv auth v).1 :: outs, (f2kMulPrv auth v).2 :: ds, bt.toList ++ bts, ?_, by simp [hdl], ?_, ?_, ?_, ?_⟩
    · rw [f2kRunPrv, hstep]
      simp only [Option.bind_eq_bind, Option.bind_some, hp]
    · simp only [List.map_cons, hv]
      rfl
    · simp only [List.zip_cons_cons, List.map_cons]
      have hkf : (s.key delta).cnt = sz → fresh.map (List.map (keyF delta)) ≠ [] := by
        intro he
        have := hf he
        simpa using this
      have hkl : ∀ f ∈ fresh.map (List.map (keyF delta)), sz ≤ f.length := by
        intro f hfm
        obtain ⟨g, hg, rfl⟩ := List.mem_map.1 hfm
        simpa using hl g hg
      obtain ⟨t1, freshk, btk, henk, t0, ht0, htlt, rfl, hcasek⟩ :=
        F2kBuf.enter_eq hsz _ (hi.key delta) hkf hkl (keyF delta a) (keyF delta b)
      have hrel : t0 = s0.key delta ∧ freshk = fresh1.map (List.map (keyF delta)) ∧
          btk = bt.map (List.map (keyF3 delta)) := by
        rcases hcase with ⟨hc, rfl, rfl, rfl⟩ | ⟨he, f, rfl, rfl, rfl⟩
        · rcases hcasek with ⟨_, rfl, rfl, rfl⟩ | ⟨he, _⟩
          · exact ⟨rfl, rfl, rfl⟩
          · exact absurd he (by simp only [F2kBuf.key]; omega)
        · rcases hcasek with ⟨hc, _⟩ | ⟨_, g, hg, rfl, rfl⟩
          · exact absurd hc (by simp only [F2kBuf.key]; omega)
          · simp only [List.map_cons, List.cons.injEq] at hg
            obtain ⟨rfl, rfl⟩ := hg
            refine ⟨rfl, rfl, ?_⟩
            rw [pending_key]
            rfl
      obtain ⟨rfl, rfl, rfl⟩ := hrel
      have hkau : (s0.key delta).auth[(s0.key delta).cnt]? = some (keyF delta auth) := by
        simp only [F2kBuf.key, List.getElem?_map, hau, Option.map_some]
      have hstepv : f2kStepVer delta sz (fresh.map (List.map (keyF delta))) (s.key delta) (keyF delta a) (keyF delta b)
          (f2kMulPrv auth v).2 = some (s2.key delta, fresh1.map (List.map (keyF delta)),
            keyF delta (f2kMulPrv auth v).1, bt.map (List.map (keyF3 delta))) := by
        unfold f2kStepVer
        rw [henk]
        simp only [Option.bind_eq_bind, Option.bind_some, hkau, mul_key]
        simp only [s2, F2kBuf.key, List.map_append, List.map_cons, List.map_nil, List.map_set]
      rw [f2kRunVer, hstepv]
      simp only [Option.bind_eq_bind, Option.bind_some, hver]
      cases bt <;> simp
    · rw [List.flatten_append, hfl, ← hbteq]
      have hp2 : s2.pending = s0.pending ++ [(a, b, (f2kMulPrv auth v).1)] :=
        pending_push ⟨h1, h2, h3, h4⟩ hlt a b _
      rw [hp2]
      simp
    · intro bt' hbt'
      rw [List.mem_append] at hbt'
      rcases hbt' with h | h
      · rcases hcase with ⟨_, rfl, rfl, rfl⟩ | ⟨he, f, rfl, rfl, rfl⟩
        · simp at h
        · simp only [Option.toList_some, List.mem_singleton] at h
          subst h
          refine ⟨?_, by omega⟩
          intro h0
          rw [h0] at hspl
          simp at hspl
          omega
      · exact hb bt' h

end
end EmpZk
