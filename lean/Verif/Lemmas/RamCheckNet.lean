/-
The check of a memory as instructions of a mixed session: the condition circuit, the packed rows, the comparison of the products.
-/
import Verif.Lemmas.RamNet

namespace EmpZk

/-! ### wires of the sorted rows -/

/-- Rows that fit the widths of the sorted rows (one more index bit). -/
def RowOf.Wide (c : RamCfg) (e : RamEnt) : Prop := e.idx < 2 ^ (c.isz + 1) ∧ e.step < 2 ^ c.ssz ∧ e.val < 2 ^ c.vsz

theorem RowOf.Fits.wide {c : RamCfg} {e : RamEnt} (h : e.Fits c) : e.Wide c :=
  ⟨lt_of_lt_of_le h.1 (Nat.pow_le_pow_right (by decide) (by omega)), h.2.1, h.2.2⟩

/-- The wires of the rows hold the bits of the rows. -/
def RowsAt (c : RamCfg) (n : Nat) (rows : List RamEnt) (W : List Bool) : Prop :=
  ∀ (k : Nat) (e : RamEnt), rows[k]? = some e → pick W (rowVal c n k) = some (bitsOf c.vsz e.val) ∧ W[rowOp c n k]? = some e.op ∧
    pick W (rowStep c n k) = some (bitsOf c.ssz e.step) ∧ pick W (rowIdx c n k) = some (bitsOf (c.isz + 1) e.idx)

theorem getElem?_app {α : Type} {W : List α} {i : Nat} {x : α} (h : W[i]? = some x) (t : List α) : (W ++ t)[i]? = some x := by
  rw [List.getElem?_append_left (List.getElem?_eq_some_iff.1 h).1]; exact h

theorem RowsAt.app {c : RamCfg} {n : Nat} {rows : List RamEnt} {W : List Bool} (h : RowsAt c n rows W) (t : List Bool) :
    RowsAt c n rows (W ++ t) := fun k e he => by
  obtain ⟨h1, h2, h3, h4⟩ := h k e he
  exact ⟨pick_append _ h1, getElem?_app h2 _, pick_append _ h3, pick_append _ h4⟩

theorem rowBits_length (c : RamCfg) (e : RamEnt) : (rowBits c e).length = rowW c := by
  simp only [rowBits, List.length_append, bitsOf_length, List.length_cons, rowW]; omega

theorem flatMap_rowBits_length (c : RamCfg) (rows : List RamEnt) : (rows.flatMap (rowBits c)).length = rows.length * rowW c := by
  induction rows with
  | nil => simp
  | cons e rows ih => rw [List.flatMap_cons, List.length_append, ih, rowBits_length, List.length_cons]; ring

theorem rowsAt_flatMap (c : RamCfg) (w : List Bool) (rows : List RamEnt) : RowsAt c w.length rows (w ++ rows.flatMap (rowBits c)) := by
  intro k e he
  obtain ⟨hk, hke⟩ := List.getElem?_eq_some_iff.1 he
  have hsplit : rows = rows.take k ++ e :: rows.drop (k + 1) := by
    rw [← hke, List.getElem_cons_drop, List.take_append_drop]
  have hl : (w ++ (rows.take k).flatMap (rowBits c)).length = w.length + k * rowW c := by
    rw [List.length_append, flatMap_rowBits_length, List.length_take, min_eq_left (by omega)]
  set A := w ++ (rows.take k).flatMap (rowBits c) with hA
  have hW : w ++ rows.flatMap (rowBits c) = A ++ (bitsOf c.vsz e.val ++ (e.op :: (bitsOf c.ssz e.step ++ (bitsOf (c.isz + 1) e.idx ++
      (rows.drop (k + 1)).flatMap (rowBits c))))) := by
    conv_lhs => rw [hsplit]
    rw [List.flatMap_append, List.flatMap_cons, hA]
    simp only [rowBits, List.append_assoc, List.cons_append]
  rw [hW]
  refine ⟨pick_mid _ _ _ hl.symm (bitsOf_length _ _).symm, ?_, ?_, ?_⟩
  · rw [← List.append_assoc, rowOp]
    have : w.length + k * rowW c + c.vsz = (A ++ bitsOf c.vsz e.val).length := by rw [List.length_append, bitsOf_length, hl]
    rw [this, List.getElem?_append_right (le_refl _), Nat.sub_self, List.getElem?_cons_zero]
  · have : A ++ (bitsOf c.vsz e.val ++ (e.op :: (bitsOf c.ssz e.step ++ (bitsOf (c.isz + 1) e.idx ++ (rows.drop (k + 1)).flatMap (rowBits c))))) =
        (A ++ (bitsOf c.vsz e.val ++ [e.op])) ++ (bitsOf c.ssz e.step ++ (bitsOf (c.isz + 1) e.idx ++ (rows.drop (k + 1)).flatMap (rowBits c))) := by
      simp
    rw [this]
    exact pick_mid _ _ _ (by simp only [List.length_append, bitsOf_length, List.length_singleton]; rw [hl]; omega) (bitsOf_length _ _).symm
  · have : A ++ (bitsOf c.vsz e.val ++ (e.op :: (bitsOf c.ssz e.step ++ (bitsOf (c.isz + 1) e.idx ++ (rows.drop (k + 1)).flatMap (rowBits c))))) =
        (A ++ (bitsOf c.vsz e.val ++ (e.op :: bitsOf c.ssz e.step))) ++ (bitsOf (c.isz + 1) e.idx ++ (rows.drop (k + 1)).flatMap (rowBits c)) := by
      simp
    rw [this]
    exact pick_mid _ _ _ (by simp only [List.length_append, bitsOf_length, List.length_cons]; rw [hl]; omega) (bitsOf_length _ _).symm

/-! ### the condition -/

/-- Gates that only add wires. -/
def WRun (o cl : List Bool) (W : List Bool) (ops : List BOp) (W' : List Bool) : Prop :=
  ops.foldlM plainStep ⟨W, o, cl⟩ = some ⟨W', o, cl⟩

theorem WRun.trans {o cl W W1 W2 : List Bool} {a b : List BOp} (h1 : WRun o cl W a W1) (h2 : WRun o cl W1 b W2) : WRun o cl W (a ++ b) W2 := by
  unfold WRun at *
  rw [List.foldlM_append, h1]
  exact h2

theorem wrun_and {o cl W : List Bool} {i j : Nat} {x y : Bool} (hx : W[i]? = some x) (hy : W[j]? = some y) :
    WRun o cl W [.and i j] (W ++ [x && y]) := by
  simp [WRun, plainStep, hx, hy]

theorem wrun_or {o cl W : List Bool} {i j n : Nat} {x y : Bool} (hn : n = W.length) (hx : W[i]? = some x) (hy : W[j]? = some y) :
    WRun o cl W (orOps n i j) (W ++ [x ^^ y, x && y, x || y]) := by
  subst hn
  unfold WRun orOps
  simp only [List.foldlM_cons, List.foldlM_nil, plainStep, hx, hy, Option.bind_eq_bind, Option.bind_some]
  rw [getElem?_app hx, getElem?_app hy]
  simp only [Option.bind_some]
  have e1 : (W ++ [x ^^ y] ++ [x && y])[W.length]? = some (x ^^ y) := getElem?_app List.getElem?_concat_length _
  have e2 : (W ++ [x ^^ y] ++ [x && y])[W.length + 1]? = some (x && y) := by
    have := List.getElem?_concat_length (l := W ++ [x ^^ y]) (a := x && y)
    simpa using this
  rw [e1, e2]
  simp only [Option.bind_some, List.append_assoc, List.cons_append, List.nil_append]
  cases x <;> cases y <;> rfl

theorem last_wire {W t : List Bool} {x : Bool} (h : t.getLast? = some x) : (W ++ t)[W.length + t.length - 1]? = some x := by
  have := List.getLast?_append (l := W) (l' := t)
  rw [h, Option.some_or, List.getLast?_eq_getElem?, List.length_append] at this
  exact this

theorem wrun_eq {lib : CmpLib} (hl : lib.Good) {o cl W : List Bool} {us vs : List Nat} {n w x y : Nat} (hn : n = W.length)
    (lu : us.length = vs.length) (hu : pick W us = some (bitsOf w x)) (hv : pick W vs = some (bitsOf w y)) (hx : x < 2 ^ w) (hy : y < 2 ^ w) :
    ∃ W' t, W' = W ++ t ∧ WRun o cl W (lib.eq n us vs) W' ∧ W'.length = n + (lib.eq n us vs).length ∧ W'[W'.length - 1]? = some (x == y) := by
  subst hn
  obtain ⟨t, h1, h2, h3⟩ := hl.eq ⟨W, o, cl⟩ us vs _ _ lu hu hv
  refine ⟨W ++ t, t, rfl, h1, by rw [List.length_append, h2], ?_⟩
  rw [List.length_append, last_wire h3]
  congr 1
  by_cases hxy : x = y
  · subst hxy; simp
  · rw [decide_eq_false (by rw [bitsOf_eq_iff hx hy]; exact hxy)]; simp [hxy]

theorem wrun_lt {lib : CmpLib} (hl : lib.Good) {o cl W : List Bool} {us vs : List Nat} {n w x y : Nat} (hn : n = W.length)
    (lu : us.length = vs.length) (lw : us.length = w) (h0 : 0 < w) (hu : pick W us = some (bitsOf w x)) (hv : pick W vs = some (bitsOf w y))
    (hx : x < 2 ^ w) (hy : y < 2 ^ w) :
    ∃ W' t, W' = W ++ t ∧ WRun o cl W (lib.lt n us vs) W' ∧ W'.length = n + (lib.lt n us vs).length ∧ W'[W'.length - 1]? = some (ltW w x y) := by
  subst hn
  obtain ⟨t, h1, h2, h3⟩ := hl.lt ⟨W, o, cl⟩ us vs _ _ lu (by omega) hu hv
  refine ⟨W ++ t, t, rfl, h1, by rw [List.length_append, h2], ?_⟩
  rw [List.length_append, last_wire h3, lw, bitsNum_bitsOf, bitsNum_bitsOf, Nat.mod_eq_of_lt hx, Nat.mod_eq_of_lt hy]

/-- One round of the condition. -/
theorem wrun_round {lib : CmpLib} (hl : lib.Good) {c : RamCfg} (hs : 1 ≤ c.ssz) {o cl W : List Bool} {base i cw : Nat} {rows : List RamEnt}
    (hr : RowsAt c base rows W) {p e : RamEnt} (hp : rows[i]? = some p) (he : rows[i + 1]? = some e) (fp : p.Wide c) (fe : e.Wide c) {x : Bool}
    (hx : W[cw]? = some x) :
    ∃ W' t, W' = W ++ t ∧ WRun o cl W (condRound lib c base i W.length cw).1 W' ∧ (condRound lib c base i W.length cw).2.1 = W'.length ∧
      W'[(condRound lib c base i W.length cw).2.2]? = some (x && ramCond2 c p e) := by
  obtain ⟨p1, p2, p3⟩ := fp
  obtain ⟨e1, e2, e3⟩ := fe
  obtain ⟨pv, po, ps, pi⟩ := hr i p hp
  obtain ⟨qv, qo, qs, qi⟩ := hr (i + 1) e he
  obtain ⟨W1, t1, w1, r1, l1, v1⟩ := wrun_eq hl (o := o) (cl := cl) (us := rowIdx c base i)
    (vs := rowIdx c base (i + 1)) rfl (by simp [rowIdx]) pi qi (by omega) (by omega)
  set n1 := W.length + (lib.eq W.length (rowIdx c base i) (rowIdx c base (i + 1))).length with hn1
  obtain ⟨W2, t2, w2, r2, l2, v2⟩ := wrun_lt hl (o := o) (cl := cl) (W := W1) (n := n1) (us := rowIdx c base i) (vs := rowIdx c base (i + 1))
    (w := c.isz + 1) (x := p.idx) (y := e.idx) l1.symm (by simp [rowIdx]) (by simp [rowIdx]) (by omega)
    (by rw [w1]; exact pick_append _ pi) (by rw [w1]; exact pick_append _ qi) (by omega) (by omega)
  set n2 := n1 + (lib.lt n1 (rowIdx c base i) (rowIdx c base (i + 1))).length with hn2
  obtain ⟨W3, t3, w3, r3, l3, v3⟩ := wrun_lt hl (o := o) (cl := cl) (W := W2) (n := n2) (us := rowStep c base i) (vs := rowStep c base (i + 1))
    (w := c.ssz) (x := p.step) (y := e.step) l2.symm (by simp [rowStep]) (by simp [rowStep]) (by omega)
    (by rw [w2, w1, List.append_assoc]; exact pick_append _ ps) (by rw [w2, w1, List.append_assoc]; exact pick_append _ qs) p2 e2
  set n3 := n2 + (lib.lt n2 (rowStep c base i) (rowStep c base (i + 1))).length with hn3
  rw [l1] at v1
  rw [l2] at v2
  rw [l3] at v3
  have a1 : W2[n1 - 1]? = some (p.idx == e.idx) := by rw [w2]; exact getElem?_app v1 _
  have a1' : W3[n1 - 1]? = some (p.idx == e.idx) := by rw [w3]; exact getElem?_app a1 _
  have a2 : W3[n2 - 1]? = some (ltW (c.isz + 1) p.idx e.idx) := by rw [w3]; exact getElem?_app v2 _
  have r4 := wrun_and (o := o) (cl := cl) a1' v3
  set y4 := (p.idx == e.idx && ltW c.ssz p.step e.step) with hy4
  have b4 : (W3 ++ [y4])[n3]? = some y4 := by rw [← l3]; exact List.getElem?_concat_length
  have r5 := wrun_or (o := o) (cl := cl) (W := W3 ++ [y4]) (n := n3 + 1) (by simp [l3]) (getElem?_app a2 [y4]) b4
  set z1 := (ltW (c.isz + 1) p.idx e.idx || y4) with hz1
  set W5 := W3 ++ [y4] ++ [ltW (c.isz + 1) p.idx e.idx ^^ y4, ltW (c.isz + 1) p.idx e.idx && y4, z1] with hW5
  have l5 : W5.length = n3 + 4 := by simp [hW5, l3]
  have b5 : W5[n3 + 3]? = some z1 := by
    have ee : W5 = (W3 ++ [y4] ++ [ltW (c.isz + 1) p.idx e.idx ^^ y4, ltW (c.isz + 1) p.idx e.idx && y4]) ++ [z1] := by simp [hW5]
    rw [ee]
    have ee2 : n3 + 3 = (W3 ++ [y4] ++ [ltW (c.isz + 1) p.idx e.idx ^^ y4, ltW (c.isz + 1) p.idx e.idx && y4]).length := by simp [l3]
    rw [ee2, List.getElem?_concat_length]
  have x5 : W5 = W ++ (t1 ++ (t2 ++ (t3 ++ ([y4] ++ [ltW (c.isz + 1) p.idx e.idx ^^ y4, ltW (c.isz + 1) p.idx e.idx && y4, z1])))) := by
    rw [hW5, w3, w2, w1]; simp only [List.append_assoc]
  have r6 := wrun_and (o := o) (cl := cl) (W := W5) (i := cw) (j := n3 + 3) (x := x) (y := z1) (by rw [x5]; exact getElem?_app hx _) b5
  have l6 : (W5 ++ [x && z1]).length = n3 + 5 := by simp [l5]
  have x6 : ∀ t, W5 ++ t = W ++ (t1 ++ (t2 ++ (t3 ++ ([y4] ++ [ltW (c.isz + 1) p.idx e.idx ^^ y4, ltW (c.isz + 1) p.idx e.idx && y4, z1])) ) ++ t) := by
    intro t; rw [x5]; simp only [List.append_assoc]
  obtain ⟨W7, t7, w7, r7, l7, v7⟩ := wrun_eq hl (o := o) (cl := cl) (W := W5 ++ [x && z1]) (n := n3 + 5) (us := rowVal c base i)
    (vs := rowVal c base (i + 1)) l6.symm (by simp [rowVal])
    (by rw [x6]; exact pick_append _ pv) (by rw [x6]; exact pick_append _ qv) p3 e3
  set n4 := n3 + 5 + (lib.eq (n3 + 5) (rowVal c base i) (rowVal c base (i + 1))).length with hn4
  rw [l7] at v7
  have x7 : ∀ t, W7 ++ t = W5 ++ ([x && z1] ++ t7 ++ t) := by intro t; rw [w7]; simp only [List.append_assoc]
  have hop7 : ∀ t, (W7 ++ t)[rowOp c base (i + 1)]? = some e.op := by intro t; rw [x7, x6]; exact getElem?_app qo _
  have heq7 : ∀ t, (W7 ++ t)[n1 - 1]? = some (p.idx == e.idx) := by
    intro t; rw [x7, hW5, List.append_assoc, List.append_assoc]; exact getElem?_app a1' _
  have hc7 : ∀ t, (W7 ++ t)[n3 + 4]? = some (x && z1) := by
    intro t
    have e7 : W7 ++ t = (W5 ++ [x && z1]) ++ (t7 ++ t) := by rw [w7]; simp only [List.append_assoc]
    rw [e7]
    refine getElem?_app ?_ _
    have := List.getElem?_concat_length (l := W5) (a := x && z1)
    rw [l5] at this
    exact this
  have r8 := wrun_or (o := o) (cl := cl) (W := W7) (n := n4) (i := n4 - 1) (j := rowOp c base (i + 1)) l7.symm v7
    (by have := hop7 []; rwa [List.append_nil] at this)
  set z2 := (p.val == e.val || e.op) with hz2
  set T8 := [p.val == e.val ^^ e.op, p.val == e.val && e.op, z2] with hT8
  have b8 : (W7 ++ T8)[n4 + 2]? = some z2 := by
    have ee : W7 ++ T8 = (W7 ++ [p.val == e.val ^^ e.op, p.val == e.val && e.op]) ++ [z2] := by simp [hT8]
    rw [ee]
    have ee2 : n4 + 2 = (W7 ++ [p.val == e.val ^^ e.op, p.val == e.val && e.op]).length := by simp [l7]
    rw [ee2, List.getElem?_concat_length]
  have r9 := wrun_and (o := o) (cl := cl) (W := W7 ++ T8) (hc7 _) b8
  have l9 : (W7 ++ T8 ++ [(x && z1) && z2]).length = n4 + 4 := by simp [l7, hT8]
  have b9 : (W7 ++ T8 ++ [(x && z1) && z2])[n4 + 3]? = some ((x && z1) && z2) := by
    have ee2 : n4 + 3 = (W7 ++ T8).length := by simp [l7, hT8]
    rw [ee2, List.getElem?_concat_length]
  have r10 := wrun_or (o := o) (cl := cl) (W := W7 ++ T8 ++ [(x && z1) && z2]) (n := n4 + 4) (i := n1 - 1) (j := rowOp c base (i + 1)) l9.symm
    (by rw [List.append_assoc]; exact heq7 _) (by rw [List.append_assoc]; exact hop7 _)
  set z3 := (p.idx == e.idx || e.op) with hz3
  set T10 := [p.idx == e.idx ^^ e.op, p.idx == e.idx && e.op, z3] with hT10
  have b10 : (W7 ++ T8 ++ [(x && z1) && z2] ++ T10)[n4 + 6]? = some z3 := by
    have ee : W7 ++ T8 ++ [(x && z1) && z2] ++ T10 = (W7 ++ T8 ++ [(x && z1) && z2] ++ [p.idx == e.idx ^^ e.op, p.idx == e.idx && e.op]) ++ [z3] := by
      simp [hT10]
    rw [ee]
    have ee2 : n4 + 6 = (W7 ++ T8 ++ [(x && z1) && z2] ++ [p.idx == e.idx ^^ e.op, p.idx == e.idx && e.op]).length := by simp [l7, hT8]
    rw [ee2, List.getElem?_concat_length]
  have r11 := wrun_and (o := o) (cl := cl) (W := W7 ++ T8 ++ [(x && z1) && z2] ++ T10) (getElem?_app b9 T10) b10
  have hlen : (W7 ++ T8 ++ [(x && z1) && z2] ++ T10 ++ [((x && z1) && z2) && z3]).length = n4 + 8 := by simp [l7, hT8, hT10]
  obtain ⟨tt, htt⟩ : W <+: W7 ++ T8 ++ [(x && z1) && z2] ++ T10 ++ [((x && z1) && z2) && z3] := by
    have q5 : W <+: W5 := by rw [x5]; exact List.prefix_append _ _
    have q7 : W5 <+: W7 := by rw [w7, List.append_assoc]; exact List.prefix_append _ _
    refine (q5.trans q7).trans ?_
    simp only [List.append_assoc]
    exact List.prefix_append _ _
  refine ⟨W7 ++ T8 ++ [(x && z1) && z2] ++ T10 ++ [((x && z1) && z2) && z3], tt, htt.symm, ?_, hlen.symm, ?_⟩
  · show WRun o cl W (lib.eq W.length (rowIdx c base i) (rowIdx c base (i + 1)) ++ (lib.lt n1 (rowIdx c base i) (rowIdx c base (i + 1)) ++
      (lib.lt n2 (rowStep c base i) (rowStep c base (i + 1)) ++ ([BOp.and (n1 - 1) (n3 - 1)] ++ (orOps (n3 + 1) (n2 - 1) n3 ++ ([BOp.and cw (n3 + 3)] ++
        (lib.eq (n3 + 5) (rowVal c base i) (rowVal c base (i + 1)) ++ (orOps n4 (n4 - 1) (rowOp c base (i + 1)) ++ ([BOp.and (n3 + 4) (n4 + 2)] ++
          (orOps (n4 + 4) (n1 - 1) (rowOp c base (i + 1)) ++ [BOp.and (n4 + 3) (n4 + 6)])))))))))) _
    exact r1.trans (r2.trans (r3.trans (r4.trans (r5.trans (r6.trans (r7.trans (r8.trans (r9.trans (r10.trans r11)))))))))
  · show _[n4 + 7]? = _
    have ee2 : n4 + 7 = (W7 ++ T8 ++ [(x && z1) && z2] ++ T10).length := by simp [l7, hT8, hT10]
    rw [ee2, List.getElem?_concat_length]
    simp only [ramCond2, hz1, hz2, hz3, hy4, Bool.and_assoc]

/-- The condition on all neighbouring rows. -/
def pairsOk (c : RamCfg) (rows : List RamEnt) (i : Nat) : Bool :=
  match rows[i]?, rows[i + 1]? with
  | some p, some e => ramCond2 c p e
  | _, _ => false

theorem ramCond_pairs (c : RamCfg) (rows : List RamEnt) : ramCond c rows = (List.range (rows.length - 1)).all (pairsOk c rows) := by
  induction rows with
  | nil => rfl
  | cons p rows ih =>
    cases rows with
    | nil => rfl
    | cons e l =>
      rw [ramCond, ih]
      show _ = (List.range (l.length + 1)).all _
      rw [List.range_succ_eq_map, List.all_cons, List.all_map]
      rfl

/-- All rounds. -/
theorem wrun_rounds {lib : CmpLib} (hl : lib.Good) {c : RamCfg} (hs : 1 ≤ c.ssz) {o cl : List Bool} {base : Nat} {rows : List RamEnt}
    (hf : ∀ e ∈ rows, e.Wide c) (is : List Nat) : ∀ {W : List Bool} {cw : Nat} {x : Bool}, RowsAt c base rows W → (∀ i ∈ is, i + 1 < rows.length) →
    W[cw]? = some x →
    ∃ W' t, W' = W ++ t ∧ WRun o cl W (condRounds lib c base is W.length cw).1 W' ∧
      W'[(condRounds lib c base is W.length cw).2]? = some (x && is.all (pairsOk c rows)) := by
  induction is with
  | nil => intro W cw x _ _ hx; exact ⟨W, [], (List.append_nil _).symm, rfl, by simp only [condRounds, List.all_nil, Bool.and_true]; exact hx⟩
  | cons i is ih =>
    intro W cw x hr hi hx
    have h1 := hi i (by simp)
    have hp : rows[i]? = some (rows[i]'(by omega)) := List.getElem?_eq_getElem _
    have he : rows[i + 1]? = some rows[i + 1] := List.getElem?_eq_getElem _
    obtain ⟨W1, t1, w1, r1, l1, v1⟩ := wrun_round hl hs (o := o) (cl := cl) hr hp he (hf _ (List.getElem_mem _)) (hf _ (List.getElem_mem _)) hx
    obtain ⟨W2, t2, w2, r2, v2⟩ := ih (W := W1) (by rw [w1]; exact hr.app _) (fun j hj => hi j (by simp [hj])) v1
    rw [← l1] at r2 v2
    refine ⟨W2, t1 ++ t2, by rw [w2, w1, List.append_assoc], r1.trans r2, ?_⟩
    show W2[_]? = _
    rw [List.all_cons, ← Bool.and_assoc]
    have : pairsOk c rows i = ramCond2 c (rows[i]'(by omega)) rows[i + 1] := by simp only [pairsOk, hp, he]
    rw [this]
    exact v2

/-! ### the packed rows -/

section
variable {F : Type} [Field F] [BlockField F] [DecidableEq F]

theorem mplain_packs {c : RamCfg} (hc : c.Ok) {n : Nat} {rows : List RamEnt} (hf : ∀ e ∈ rows, e.Wide c) (ks : List Nat) : ∀ {s : MPlain F},
    RowsAt c n rows s.bp.wires → (∀ k ∈ ks, k < rows.length) →
    ∃ es ps, pick rows ks = some es ∧
      ks.mapM (fun k => packWires c (rowIdx c n k) (rowVal c n k) (rowStep c n k) (rowOp c n k)) = some ps ∧
      ∀ ch, mplainOps ch s (ps.map MOp.pack) = some { s with fs := s.fs ++ es.map (fun e => wordF (ramPacked c e)) } := by
  induction ks with
  | nil => intro s _ _; exact ⟨[], [], rfl, rfl, fun ch => by simp [mplainOps]⟩
  | cons k ks ih =>
    intro s hr hk
    have hlt := hk k (by simp)
    have he : rows[k]? = some rows[k] := List.getElem?_eq_getElem _
    obtain ⟨f1, f2, f3⟩ := hf rows[k] (List.getElem_mem _)
    obtain ⟨q1, q2, q3, q4⟩ := hr k _ he
    obtain ⟨ws, k1, k2⟩ := mplain_pack hc q4 q1 q3 q2 (by simp [rowIdx]) (by simp [rowVal]) (by simp [rowStep])
    rw [bitsNum_bitsOf, bitsNum_bitsOf, bitsNum_bitsOf, Nat.mod_eq_of_lt f2, Nat.mod_eq_of_lt f3,
      Nat.mod_eq_of_lt f1] at k2
    obtain ⟨es, ps, l1, l2, l3⟩ := ih (s := { s with fs := s.fs ++ [wordF (ramPacked c rows[k])] }) hr (fun j hj => hk j (by simp [hj]))
    refine ⟨rows[k] :: es, ws :: ps, ?_, ?_, fun ch => ?_⟩
    · rw [pick_cons, he, l1]; rfl
    · rw [List.mapM_cons, k1, l2]; rfl
    · rw [List.map_cons, mplainOps_cons, k2]
      show mplainOps ch _ _ = _
      rw [l3]
      simp

/-! ### the whole check -/

/-- `check` on plain values. -/
theorem rsim_check {lib : CmpLib} (hl : lib.Good) {c : RamCfg} (hc : c.Ok) {g : RNet} {u : UPlain} {s : MPlain F} (h : RSim c g u s)
    (h3 : 3 ≤ u.log.length) (hlen : u.log.length ≤ 2 ^ (c.ssz - 1)) :
    ∃ (ops : List MOp) (t : List Bool) (ok : Bool) (rows : List RamEnt), checkGen lib c g = some ops ∧ mixMuls ops = 2 * ((u.log.length - 1) % 4) ∧ rows.Perm g.ram.log ∧
      (ok = true ↔ rows.IsChain RowOf.Adj) ∧ (WrittenFirst u.log → ok = true) ∧
      ∀ ch, ∃ fs', mplainOps ch s ops = some ⟨⟨u.bp.wires ++ t, u.bp.outs ++ [ok], u.bp.claims⟩, fs', [ch 0]⟩ := by
  have hst := h.inv.step_eq
  obtain ⟨hc1, hc2, hc3⟩ := hc
  have hc : c.Ok := ⟨hc1, hc2, hc3⟩
  have hss : 1 ≤ c.ssz := by
    by_contra h0
    have : c.ssz - 1 = 0 := by omega
    rw [this] at hlen
    omega
  have h64 : g.ram.step < 2 ^ 64 := by
    have : 2 ^ (c.ssz - 1) < 2 ^ 64 := Nat.pow_lt_pow_right (by decide) (by omega)
    omega
  obtain ⟨st', chk, k1, k2, k3, k4, k5, k6, k7, k8⟩ := h.inv.check hc (by omega) (by omega)
  have hfit : ∀ e ∈ chk.rows, e.Wide c := fun e he => (h.inv.fits e (k3.mem_iff.1 he)).wide
  have hrl : chk.rows.length = g.ram.step := by rw [k3.length_eq, h.inv.step]
  have hn : g.bits.length = s.bp.wires.length := by rw [h.bits, h.bp]
  -- inputs
  set W1 := s.bp.wires ++ chk.rows.flatMap (rowBits c) with hW1
  have lW1 : W1.length = g.bits.length + g.ram.step * rowW c := by rw [hW1, List.length_append, flatMap_rowBits_length, hrl, hn]
  have hrows : RowsAt c g.bits.length chk.rows W1 := by rw [hn]; exact rowsAt_flatMap _ _ _
  -- condition
  obtain ⟨W2, t2, w2, r2, v2⟩ := wrun_rounds hl hss (o := s.bp.outs) (cl := s.bp.claims) (base := g.bits.length) hfit (List.range (g.ram.step - 1))
    (W := W1 ++ [true]) (cw := g.bits.length + g.ram.step * rowW c) (x := true) (hrows.app _)
    (by intro i hi; rw [List.mem_range] at hi; omega) (by rw [← lW1]; exact List.getElem?_concat_length)
  rw [Bool.true_and, ← hrl, ← ramCond_pairs, ← k2, hrl] at v2
  have lW1' : (W1 ++ [true]).length = g.bits.length + g.ram.step * rowW c + 1 := by rw [List.length_append, lW1]; rfl
  rw [lW1'] at r2 v2
  set q := condRounds lib c g.bits.length (List.range (g.ram.step - 1)) (g.bits.length + g.ram.step * rowW c + 1) (g.bits.length + g.ram.step * rowW c)
    with hq
  -- packs
  obtain ⟨es, ps, p1, p2, p3⟩ := mplain_packs hc (n := g.bits.length) hfit (List.range g.ram.step)
    (s := (⟨⟨W2, s.bp.outs ++ [chk.cond], s.bp.claims⟩, s.fs, s.rs⟩ : MPlain F))
    (by show RowsAt _ _ _ W2; rw [w2]; exact (hrows.app _).app _) (by intro k hk; rw [List.mem_range] at hk; omega)
  have hes : es = chk.rows := by
    have := pick_range' [] chk.rows
    rw [List.nil_append, List.length_nil, ← List.range_eq_range', hrl, p1, Option.some.injEq] at this
    exact this
  subst hes
  -- set equality
  have hmac : g.macs.length = g.ram.step := by
    have := pick_length h.macs
    rw [List.length_map, ← h.inv.step] at this
    exact this.symm
  have hset := fun ch => mplain_setEq ch (s := (⟨⟨W2, s.bp.outs ++ [chk.cond], s.bp.claims⟩, s.fs ++ chk.rows.map (fun e => wordF (ramPacked c e)), s.rs⟩
    : MPlain F)) (as := List.range' g.nf g.ram.step) (bs := g.macs) (us := chk.rows.map (fun e => wordF (ramPacked c e)))
    (vs := g.ram.log.map (fun e => wordF (ramPacked c e))) (step := g.ram.step)
    (by
      have := pick_range' s.fs (chk.rows.map (fun e => (wordF (ramPacked c e) : F)))
      rw [List.length_map, hrl, ← h.nf] at this
      exact this)
    (pick_append _ h.macs) (by simp) hmac (by omega) h64
  obtain ⟨se, _, hse, _⟩ := hset (fun _ => 0)
  have hperm : (chk.rows.map (fun e => (wordF (ramPacked c e) : F))).Perm (g.ram.log.map (fun e => wordF (ramPacked c e))) := k3.map _
  simp only [List.length_append, List.length_map, hrl, h.rs, List.length_nil, ← h.nf] at hse
  obtain ⟨c1, c2⟩ := setEqOps_counts (by simp) hmac (by omega) h64 hse
  refine ⟨(chk.rows.flatMap (rowBits c)).map (fun b => MOp.bool (.input b)) ++ (MOp.bool (.pub true) :: (q.1.map MOp.bool ++
    (MOp.bool (.reveal q.2) :: MOp.sync :: (ps.map MOp.pack ++ se)))), chk.rows.flatMap (rowBits c) ++ ([true] ++ t2), chk.cond, chk.rows, ?_, ?_, k3, k7, k8, fun ch => ?_⟩
  · simp only [checkGen, k1, Option.bind_eq_bind, Option.bind_some, p2, hse, ← hq]
  · have e1 : mixMuls ((chk.rows.flatMap (rowBits c)).map (fun b => MOp.bool (.input b))) = 0 := by
      have : (chk.rows.flatMap (rowBits c)).map (fun b => MOp.bool (.input b)) = ((chk.rows.flatMap (rowBits c)).map BOp.input).map MOp.bool := by
        rw [List.map_map]; rfl
      rw [this, mixMuls_bools]
    have e2 : mixMuls (ps.map MOp.pack) = 0 := by
      rw [mixMuls, List.countP_map, List.countP_eq_zero]; intro o _; simp [MOp.isMul]
    have e3 : ∀ (o : MOp) l, o.isMul = false → mixMuls (o :: l) = mixMuls l := by
      intro o l ho; simp [mixMuls, ho]
    rw [mixMuls_append, e1, e3 _ _ rfl, mixMuls_append, mixMuls_bools, e3 _ _ rfl, e3 _ _ rfl, mixMuls_append, e2, c1, hst]
    omega
  · obtain ⟨se', t', hse', hrun⟩ := hset ch
    simp only [List.length_append, List.length_map, hrl, h.rs, List.length_nil, ← h.nf] at hse'
    rw [hse, Option.some.injEq] at hse'
    subst hse'
    rw [if_pos (prodAt_perm _ hperm)] at hrun
    refine ⟨s.fs ++ chk.rows.map (fun e => wordF (ramPacked c e)) ++ t', ?_⟩
    have e1 : (chk.rows.flatMap (rowBits c)).map (fun b => MOp.bool (.input b)) = ((chk.rows.flatMap (rowBits c)).map BOp.input).map MOp.bool := by
      rw [List.map_map]; rfl
    rw [mplainOps_append, e1, mplain_bools, plain_inputs, Option.map_some, Option.bind_some, mplainOps_cons]
    simp only [mplainStep, plainStep, Option.map_some, Option.bind_some]
    rw [mplainOps_append, mplain_bools]
    have r2' : q.1.foldlM plainStep { wires := s.bp.wires ++ chk.rows.flatMap (rowBits c) ++ [true], outs := s.bp.outs, claims := s.bp.claims } = _ := r2
    rw [r2', Option.map_some, Option.bind_some, mplainOps_cons]
    simp only [mplainStep, plainStep, v2, Option.bind_eq_bind, Option.map_some, Option.bind_some]
    rw [mplainOps_cons]
    simp only [mplainStep, Option.bind_some]
    rw [mplainOps_append, p3, Option.bind_some, hrun]
    simp only [h.rs, List.nil_append, List.length_nil, h.bp, w2, hW1, List.append_assoc]

end
end EmpZk
