/-
Programs with a read-only memory whose input bits are replaced: the plain session of the replaced instructions is a run of the program with
arbitrary values of the reads, and each check compares the rows that were put in with the contents and the reads.
-/
import Verif.Lemmas.RoProg
import Verif.Lemmas.RamSound
import Verif.Lemmas.BranchPublic
import Verif.Spec.RoTrace

namespace EmpZk

/-! ### growth -/

section
variable {F : Type} [Field F] [BlockField F] [DecidableEq F]

theorem mplainStep_grow (ch : Nat → F) {s s' : MPlain F} {o : MOp} (h : mplainStep ch s o = some s') :
    s.bp.wires <+: s'.bp.wires ∧ s.bp.outs <+: s'.bp.outs ∧ s.fs <+: s'.fs ∧ s.rs <+: s'.rs := by
  cases o <;> simp only [mplainStep, Option.bind_eq_bind, Option.bind_eq_some_iff, Option.map_eq_some_iff, Option.some.injEq] at h
  case bool =>
    obtain ⟨b, hb, rfl⟩ := h
    refine ⟨plainStep_wires_grow hb, ?_, List.prefix_refl _, List.prefix_refl _⟩
    exact (plainRun_grows [_] (by rw [List.foldlM_cons, hb]; rfl)).1
  case pack =>
    obtain ⟨b, _, h⟩ := h
    split at h
    · cases h; simp
    · cases h
  case chal => subst h; simp
  case addc => obtain ⟨a, _, b, _, rfl⟩ := h; simp
  case mul => obtain ⟨a, _, b, _, rfl⟩ := h; simp
  case mulN =>
    obtain ⟨b, _, h⟩ := h
    split at h
    · cases h; simp
    · cases h
  case eq =>
    obtain ⟨a, _, b, _, h⟩ := h
    split at h
    · cases h; simp
    · cases h
  case sync => subst h; simp
  case packAt => obtain ⟨a, _, rfl⟩ := h; simp
  case chals => subst h; simp
  case lin => obtain ⟨a, _, rfl⟩ := h; simp

theorem mplainOps_grow (ch : Nat → F) (ops : List MOp) : ∀ {s s' : MPlain F}, mplainOps ch s ops = some s' →
    s.bp.wires <+: s'.bp.wires ∧ s.bp.outs <+: s'.bp.outs ∧ s.fs <+: s'.fs ∧ s.rs <+: s'.rs := by
  induction ops with
  | nil => intro s s' h; simp only [mplainOps, List.foldlM_nil] at h; cases h; simp
  | cons o ops ih =>
    intro s s' h
    rw [mplainOps_cons, Option.bind_eq_some_iff] at h
    obtain ⟨s1, h1, h2⟩ := h
    obtain ⟨a1, a2, a3, a4⟩ := mplainStep_grow ch h1
    obtain ⟨b1, b2, b3, b4⟩ := ih h2
    exact ⟨a1.trans b1, a2.trans b2, a3.trans b3, a4.trans b4⟩

end

/-! ### the revealed bits -/

theorem roBits_length (c : RoCfg) (rows : List RoEnt) : (roBits c rows).length = rows.length - 1 := by
  induction rows with
  | nil => rfl
  | cons p rows ih =>
    cases rows with
    | nil => rfl
    | cons e l => rw [roBits, List.length_cons, ih]; simp

theorem roBits_all (c : RoCfg) (rows : List RoEnt) : (roBits c rows).all id = roCond c rows := by
  induction rows with
  | nil => rfl
  | cons p rows ih =>
    cases rows with
    | nil => rfl
    | cons e l => rw [roBits, roCond, List.all_cons, ih]; rfl

theorem roBits_get (c : RoCfg) (rows : List RoEnt) : ∀ (i : Nat) (p e : RoEnt), rows[i]? = some p → rows[i + 1]? = some e →
    (roBits c rows)[i]? = some (roCond2 c p e) := by
  induction rows with
  | nil => intro i p e h; simp at h
  | cons p rows ih =>
    cases rows with
    | nil => intro i p e _ h; simp at h
    | cons e l =>
      intro i p' e' h1 h2
      rw [roBits]
      cases i with
      | zero => simp at h1 h2; subst h1 h2; rfl
      | succ i => simp only [List.getElem?_cons_succ] at h1 h2 ⊢; exact ih i p' e' h1 h2

/-- All rounds, from row `k` on: what they reveal. -/
theorem roRounds_any {lib : CmpLib} (hl : lib.Good) {c : RoCfg} {cl : List Bool} {base : Nat} {rows : List RoEnt} (hf : ∀ e ∈ rows, e.Wide c)
    (m : Nat) : ∀ {k : Nat} {o W : List Bool}, k + m + 1 = rows.length → RoRowsAt c base rows W →
    ∃ t, (roRounds lib c base (List.range' k m) W.length).foldlM plainStep ⟨W, o, cl⟩ = some ⟨W ++ t, o ++ (roBits c rows).drop k, cl⟩ := by
  induction m with
  | zero =>
    intro k o W hk _
    refine ⟨[], ?_⟩
    rw [List.drop_of_length_le (by rw [roBits_length]; omega)]
    simp [roRounds]
  | succ m ih =>
    intro k o W hk hr
    have hp : rows[k]? = some (rows[k]'(by omega)) := List.getElem?_eq_getElem _
    have he : rows[k + 1]? = some (rows[k + 1]'(by omega)) := List.getElem?_eq_getElem _
    obtain ⟨t, h1, h2⟩ := roRound_run hl (o := o) (cl := cl) hr hp he (hf _ (List.mem_of_getElem? hp)) (hf _ (List.mem_of_getElem? he))
    obtain ⟨t2, h3⟩ := ih (k := k + 1) (o := o ++ [roCond2 c (rows[k]'(by omega)) (rows[k + 1]'(by omega))]) (by omega) (hr.app t)
    refine ⟨t ++ t2, ?_⟩
    have hkl : k < (roBits c rows).length := by rw [roBits_length]; omega
    have hg := roBits_get c rows k _ _ hp he
    have hd : (roBits c rows).drop k = roCond2 c (rows[k]'(by omega)) (rows[k + 1]'(by omega)) :: (roBits c rows).drop (k + 1) := by
      rw [List.drop_eq_getElem_cons hkl]
      congr 1
      rw [List.getElem?_eq_getElem hkl, Option.some.injEq] at hg
      exact hg
    rw [List.range'_succ, roRounds, h2, List.foldlM_append, h1]
    simp only [Option.bind_eq_bind, Option.bind_some]
    rw [h3, hd]
    simp

/-! ### the extra bit of a row -/

theorem ro_top {c : RoCfg} {n k : Nat} {rows : List RoEnt} {W : List Bool} (h : RoRowsAt c n rows W) {e : RoEnt} (he : rows[k]? = some e)
    (hw : e.Wide c) (ht : W[n + k * roW c + (roW c - 1)]? ≠ some true) : e.idx < 2 ^ c.isz := by
  obtain ⟨_, hi⟩ := h k e he
  obtain ⟨w, hw1, hw2⟩ : ∃ w, (roIdxW c n k)[c.isz]? = some w ∧ w = n + k * roW c + (roW c - 1) := by
    refine ⟨_, by rw [roIdxW, List.getElem?_range' (by omega)], ?_⟩
    rw [roW]; omega
  by_contra hcon
  have hlt := hw.1
  have htb : e.idx.testBit c.isz = true := by
    rw [Nat.testBit_eq_decide_div_mod_eq, decide_eq_true_eq]
    have : e.idx / 2 ^ c.isz = 1 := by
      apply Nat.div_eq_of_lt_le
      · omega
      · rw [pow_succ] at hlt; omega
    rw [this]
  have hx : (bitsOf (c.isz + 1) e.idx)[c.isz]? = some true := by
    simp only [bitsOf, List.getElem?_map, List.getElem?_range (Nat.lt_succ_self c.isz), Option.map_some, htb]
  obtain ⟨w', h1, h2⟩ := pick_get hi hx
  rw [hw1, Option.some.injEq] at h1
  subst h1
  rw [hw2] at h2
  exact ht h2

/-! ### replaced rows -/

theorem roRows_same {c : RoCfg} {n : Nat} (rows : List RoEnt) : ∀ {k : Nat} {ops ops' : List MOp}, roRowsOps c n k rows = some ops →
    List.Forall₂ MOp.same ops ops' → ∃ rows' : List RoEnt, rows'.length = rows.length ∧ (∀ e ∈ rows', e.Wide c) ∧ roRowsOps c n k rows' = some ops' := by
  induction rows with
  | nil =>
    intro k ops ops' h hs
    rw [roRowsOps, Option.some.injEq] at h
    subst h
    cases hs
    exact ⟨[], rfl, by simp, rfl⟩
  | cons e rows ih =>
    intro k ops ops' h hs
    simp only [roRowsOps, Option.bind_eq_bind, Option.bind_eq_some_iff, Option.some.injEq] at h
    obtain ⟨ws, hws, r, hr, rfl⟩ := h
    obtain ⟨a, b, rfl, h1, h2⟩ := same_split hs
    obtain ⟨a2, b2, rfl, h3, h4⟩ := same_split h2
    obtain ⟨v, hv, rfl⟩ := same_inInt h1
    obtain ⟨i, hi, rfl⟩ := same_inInt h3
    cases h4 with
    | @cons _ o' _ l h5 h6 =>
      rw [same_one h5 rfl]
      obtain ⟨rows', r1, r2, r3⟩ := ih hr h6
      refine ⟨⟨i, v⟩ :: rows', by simp [r1], ?_, by simp [roRowsOps, hws, r3]⟩
      intro x hx
      rcases List.mem_cons.1 hx with rfl | hx
      · exact ⟨hi, hv⟩
      · exact r2 x hx

theorem roRowsOps_same {c : RoCfg} {n : Nat} (rows : List RoEnt) : ∀ {rows' : List RoEnt} {k : Nat} {ops : List MOp}, roRowsOps c n k rows = some ops →
    rows'.length = rows.length → ∃ ops', roRowsOps c n k rows' = some ops' ∧ List.Forall₂ MOp.same ops ops' := by
  induction rows with
  | nil =>
    intro rows' k ops h hl
    rw [List.eq_nil_of_length_eq_zero hl]
    exact ⟨ops, h, same_refls _⟩
  | cons e rows ih =>
    intro rows' k ops h hl
    obtain ⟨e', rows', rfl⟩ : ∃ a l, rows' = a :: l := List.exists_cons_of_length_pos (by rw [hl]; simp)
    simp only [roRowsOps, Option.bind_eq_bind, Option.bind_eq_some_iff, Option.some.injEq] at h
    obtain ⟨ws, hws, r, hr, rfl⟩ := h
    obtain ⟨r', hr', hs⟩ := ih (rows' := rows') hr (by simpa using hl)
    refine ⟨inInt c.vsz e'.val ++ (inInt (c.isz + 1) e'.idx ++ MOp.pack ws :: r'), by simp [roRowsOps, hws, hr'], ?_⟩
    exact List.rel_append (R := MOp.same) (inInt_same _ _ _) (List.rel_append (R := MOp.same) (inInt_same _ _ _) (.cons (same_refl _) hs))

theorem roRound_noIn {lib : CmpLib} (hn : lib.NoIn) (c : RoCfg) (base i n : Nat) : ∀ o ∈ (roRound lib c base i n).1, ∀ x, o ≠ .input x := by
  intro o ho x
  simp only [roRound, List.mem_append, List.mem_cons, List.not_mem_nil, or_false] at ho
  rcases ho with ho | ho | ho | rfl | ho | rfl
  · exact hn.lt _ _ _ o ho x
  · exact hn.eq _ _ _ o ho x
  · exact hn.eq _ _ _ o ho x
  · intro h; cases h
  · exact orOps_noIn _ _ _ o ho x
  · intro h; cases h

theorem roRounds_noIn {lib : CmpLib} (hn : lib.NoIn) (c : RoCfg) (base : Nat) (is : List Nat) : ∀ n, ∀ o ∈ roRounds lib c base is n, ∀ x, o ≠ .input x := by
  induction is with
  | nil => intro n o ho; cases ho
  | cons i is ih =>
    intro n o ho x
    simp only [roRounds, List.mem_append] at ho
    rcases ho with ho | ho
    · exact roRound_noIn hn _ _ _ _ o ho x
    · exact ih _ o ho x

theorem accLast_kinds {o : MOp} (h : o.noIn = true ∧ ∀ is, o = .mulN is → is.length = 5) :
    o.accLast.noIn = true ∧ ∀ is, o.accLast = .mulN is → is.length = 5 := by
  cases o with
  | mulN l =>
    cases l with
    | nil => exact h
    | cons a l =>
      refine ⟨rfl, fun is hi => ?_⟩
      have := h.2 _ rfl
      simp only [MOp.accLast, MOp.mulN.injEq] at hi
      subst hi
      simp only [List.length_cons, List.length_append, List.length_nil] at this ⊢
      omega
  | _ => exact h

end EmpZk
