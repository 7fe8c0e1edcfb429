/-
The check of a memory with several words per cell as instructions of a mixed session: the condition circuit, the packed rows, their
combinations, the comparison of the products.
-/
import Verif.Lemmas.RamCheckNet
import Verif.Lemmas.ExtNet

namespace EmpZk

/-! ### wires of the sorted rows -/

/-- The wires of the rows hold the bits of the rows. -/
def XRowsAt (c : RxCfg) (n : Nat) (rows : List ExtEnt) (W : List Bool) : Prop :=
  ∀ (k : Nat) (e : ExtEnt), rows[k]? = some e → (xRowVal c n k).mapM (pick W) = some (e.val.map (bitsOf 64)) ∧ W[xRowOp c n k]? = some e.op ∧
    pick W (xRowStep c n k) = some (bitsOf c.ssz e.step) ∧ pick W (xRowIdx c n k) = some (bitsOf c.isz e.idx)

theorem XRowsAt.app {c : RxCfg} {n : Nat} {rows : List ExtEnt} {W : List Bool} (h : XRowsAt c n rows W) (t : List Bool) :
    XRowsAt c n rows (W ++ t) := fun k e he => by
  obtain ⟨h1, h2, h3, h4⟩ := h k e he
  exact ⟨mapM_pick_append _ h1, getElem?_app h2 _, pick_append _ h3, pick_append _ h4⟩

theorem xRowBits_length {c : RxCfg} {e : ExtEnt} (h : e.val.length = c.words) : (xRowBits c e).length = xRowW c := by
  simp only [xRowBits, List.length_append, bitsOf_length, List.length_cons, xRowW, flatMap_bits64_length, h]; omega

theorem flatMap_xRowBits_length {c : RxCfg} : ∀ (rows : List ExtEnt), (∀ e ∈ rows, e.val.length = c.words) →
    (rows.flatMap (xRowBits c)).length = rows.length * xRowW c := by
  intro rows
  induction rows with
  | nil => simp
  | cons e rows ih =>
    intro h
    rw [List.flatMap_cons, List.length_append, ih (fun f hf => h f (by simp [hf])), xRowBits_length (h e (by simp)), List.length_cons]; ring

theorem xRowsAt_flatMap {c : RxCfg} (w : List Bool) (rows : List ExtEnt) (hv : ∀ e ∈ rows, e.val.length = c.words) :
    XRowsAt c w.length rows (w ++ rows.flatMap (xRowBits c)) := by
  intro k e he
  obtain ⟨hk, hke⟩ := List.getElem?_eq_some_iff.1 he
  have hev : e.val.length = c.words := hv e (by rw [← hke]; exact List.getElem_mem _)
  have hsplit : rows = rows.take k ++ e :: rows.drop (k + 1) := by
    rw [← hke, List.getElem_cons_drop, List.take_append_drop]
  have hl : (w ++ (rows.take k).flatMap (xRowBits c)).length = w.length + k * xRowW c := by
    rw [List.length_append, flatMap_xRowBits_length _ (fun f hf => hv f (List.mem_of_mem_take hf)), List.length_take, Nat.min_eq_left (by omega)]
  set A := w ++ (rows.take k).flatMap (xRowBits c) with hA
  set R := (rows.drop (k + 1)).flatMap (xRowBits c) with hR
  have hW : w ++ rows.flatMap (xRowBits c) = A ++ (e.val.flatMap (bitsOf 64) ++ (e.op :: (bitsOf c.ssz e.step ++ (bitsOf c.isz e.idx ++ R)))) := by
    conv_lhs => rw [hsplit]
    rw [List.flatMap_append, List.flatMap_cons, hA]
    simp only [xRowBits, List.append_assoc, List.cons_append, hR]
  have hlv : (e.val.flatMap (bitsOf 64)).length = 64 * c.words := by rw [flatMap_bits64_length, hev]
  rw [hW]
  refine ⟨?_, ?_, ?_, ?_⟩
  · rw [xRowVal, ← hl, ← hev]
    exact pick_words _ _ _
  · rw [← List.append_assoc, xRowOp]
    have : w.length + k * xRowW c + 64 * c.words = (A ++ e.val.flatMap (bitsOf 64)).length := by rw [List.length_append, hlv, hl]
    rw [this, List.getElem?_append_right (le_refl _), Nat.sub_self, List.getElem?_cons_zero]
  · have : A ++ (e.val.flatMap (bitsOf 64) ++ (e.op :: (bitsOf c.ssz e.step ++ (bitsOf c.isz e.idx ++ R)))) =
        (A ++ (e.val.flatMap (bitsOf 64) ++ [e.op])) ++ (bitsOf c.ssz e.step ++ (bitsOf c.isz e.idx ++ R)) := by
      simp
    rw [this]
    exact pick_mid _ _ _ (by simp only [List.length_append, hlv, List.length_singleton]; rw [hl]; omega) (bitsOf_length _ _).symm
  · have : A ++ (e.val.flatMap (bitsOf 64) ++ (e.op :: (bitsOf c.ssz e.step ++ (bitsOf c.isz e.idx ++ R)))) =
        (A ++ (e.val.flatMap (bitsOf 64) ++ (e.op :: bitsOf c.ssz e.step))) ++ (bitsOf c.isz e.idx ++ R) := by
      simp
    rw [this]
    exact pick_mid _ _ _ (by simp only [List.length_append, bitsOf_length, List.length_cons, hlv]; rw [hl]; omega) (bitsOf_length _ _).symm

/-! ### the condition -/

theorem wrun_not {o cl W : List Bool} {i : Nat} {x : Bool} (hx : W[i]? = some x) : WRun o cl W [.not i] (W ++ [!x]) := by
  simp [WRun, plainStep, hx]

/-- The comparison of the further words. -/
theorem wrun_valEq {lib : CmpLib} (hl : lib.Good) {o cl : List Bool} : ∀ (us vs : List (List Nat)) (xs ys : List Nat) (W : List Bool) (acc : Nat)
    (x : Bool), us.mapM (pick W) = some (xs.map (bitsOf 64)) → vs.mapM (pick W) = some (ys.map (bitsOf 64)) → us.length = vs.length →
    (∀ u ∈ us, u.length = 64) → (∀ v ∈ vs, v.length = 64) → (∀ v ∈ xs, v < 2 ^ 64) → (∀ v ∈ ys, v < 2 ^ 64) → W[acc]? = some x →
    ∃ W' t, W' = W ++ t ∧ WRun o cl W (xValEq lib W.length acc (us.zip vs)).1 W' ∧ (xValEq lib W.length acc (us.zip vs)).2.1 = W'.length ∧
      W'[(xValEq lib W.length acc (us.zip vs)).2.2]? = some (x && (xs == ys)) := by
  intro us
  induction us with
  | nil =>
    intro vs xs ys W acc x hu hv hlen _ _ _ _ hx
    cases vs with
    | nil =>
      rw [List.mapM_nil, Option.pure_def, Option.some.injEq] at hu hv
      have h1 : xs = [] := List.map_eq_nil_iff.1 hu.symm
      have h2 : ys = [] := List.map_eq_nil_iff.1 hv.symm
      subst h1 h2
      exact ⟨W, [], (List.append_nil _).symm, rfl, rfl, by simpa [xValEq] using hx⟩
    | cons => simp at hlen
  | cons u us ih =>
    intro vs xs ys W acc x hu hv hlen lu lv fx fy hx
    cases vs with
    | nil => simp at hlen
    | cons v vs =>
      rw [List.mapM_cons] at hu hv
      simp only [Option.bind_eq_bind, Option.bind_eq_some_iff, Option.pure_def, Option.some.injEq] at hu hv
      obtain ⟨a, h1, as, h2, h3⟩ := hu
      obtain ⟨b, g1, bs, g2, g3⟩ := hv
      cases xs with
      | nil => simp at h3
      | cons p xs =>
        cases ys with
        | nil => simp at g3
        | cons q ys =>
          rw [List.map_cons, List.cons.injEq] at h3 g3
          obtain ⟨rfl, rfl⟩ := h3
          obtain ⟨rfl, rfl⟩ := g3
          obtain ⟨W1, t1, w1, r1, l1, v1⟩ := wrun_eq hl (o := o) (cl := cl) (us := u) (vs := v) rfl
            (by rw [lu u (by simp), lv v (by simp)]) h1 g1 (fx p (by simp)) (fy q (by simp))
          set n1 := W.length + (lib.eq W.length u v).length with hn1
          rw [l1] at v1
          have r2 := wrun_and (o := o) (cl := cl) (W := W1) (i := acc) (j := n1 - 1) (by rw [w1]; exact getElem?_app hx _) v1
          have b2 : (W1 ++ [x && (p == q)])[n1]? = some (x && (p == q)) := by rw [← l1]; exact List.getElem?_concat_length
          have l2 : (W1 ++ [x && (p == q)]).length = n1 + 1 := by rw [List.length_append, l1]; rfl
          have x2 : W1 ++ [x && (p == q)] = W ++ (t1 ++ [x && (p == q)]) := by rw [w1, List.append_assoc]
          obtain ⟨W3, t3, w3, r3, l3, v3⟩ := ih vs xs ys (W1 ++ [x && (p == q)]) n1 (x && (p == q))
            (by rw [x2]; exact mapM_pick_append _ h2) (by rw [x2]; exact mapM_pick_append _ g2) (by simpa using hlen)
            (fun w hw => lu w (by simp [hw])) (fun w hw => lv w (by simp [hw])) (fun w hw => fx w (by simp [hw])) (fun w hw => fy w (by simp [hw])) b2
          rw [l2] at r3 l3 v3
          refine ⟨W3, t1 ++ [x && (p == q)] ++ t3, by rw [w3, x2]; simp only [List.append_assoc], ?_, l3, ?_⟩
          · show WRun o cl W (lib.eq W.length u v ++ ([BOp.and acc (n1 - 1)] ++ (xValEq lib (n1 + 1) n1 (us.zip vs)).1)) W3
            exact r1.trans (r2.trans r3)
          · show W3[(xValEq lib (n1 + 1) n1 (us.zip vs)).2.2]? = _
            rw [v3]
            congr 1
            show _ = (x && ((p == q) && (xs == ys)))
            rw [Bool.and_assoc]

theorem zipFst_words {W : List Bool} {n k : Nat} {xs : List Nat} (hk : 1 ≤ k) (h : (wordWires n k).mapM (pick W) = some (xs.map (bitsOf 64))) :
    ∃ u0 us x0 xs', wordWires n k = u0 :: us ∧ xs = x0 :: xs' ∧ u0.length = 64 ∧ (∀ u ∈ us, u.length = 64) ∧ us.length = k - 1 ∧
      pick W u0 = some (bitsOf 64 x0) ∧ us.mapM (pick W) = some (xs'.map (bitsOf 64)) := by
  have hlen : (wordWires n k).length = k := by simp [wordWires]
  obtain ⟨u0, us, hu⟩ : ∃ u l, wordWires n k = u :: l := List.exists_cons_of_length_pos (by omega)
  have hall : ∀ u ∈ wordWires n k, u.length = 64 := by
    intro w hw
    simp only [wordWires, List.mem_map] at hw
    obtain ⟨j, _, rfl⟩ := hw
    simp
  rw [hu] at h hall hlen
  rw [List.mapM_cons] at h
  simp only [Option.bind_eq_bind, Option.bind_eq_some_iff, Option.pure_def, Option.some.injEq] at h
  obtain ⟨a, h1, as, h2, h3⟩ := h
  cases xs with
  | nil => simp at h3
  | cons x0 xs' =>
    rw [List.map_cons, List.cons.injEq] at h3
    obtain ⟨rfl, rfl⟩ := h3
    exact ⟨u0, us, x0, xs', hu, rfl, hall u0 (by simp), fun u hu' => hall u (by simp [hu']), by simp only [List.length_cons] at hlen; omega, h1, h2⟩

/-- One round of the condition. -/
theorem wrun_xround {lib : CmpLib} (hl : lib.Good) {c : RxCfg} (hw : 1 ≤ c.words) (hs : 1 ≤ c.ssz) {o cl W : List Bool} {base i cw : Nat}
    {rows : List ExtEnt} (hr : XRowsAt c base rows W) {p e : ExtEnt} (hp : rows[i]? = some p) (he : rows[i + 1]? = some e) (fp : p.FitsX c)
    (fe : e.FitsX c) {x : Bool} (hx : W[cw]? = some x) :
    ∃ r W' t, xRound lib c base i W.length cw = some r ∧ W' = W ++ t ∧ WRun o cl W r.1 W' ∧ r.2.1 = W'.length ∧
      W'[r.2.2]? = some (x && extCond2 c p e) := by
  obtain ⟨p1, p2, p3, p4⟩ := fp
  obtain ⟨e1, e2, e3, e4⟩ := fe
  obtain ⟨pv, po, ps, pi⟩ := hr i p hp
  obtain ⟨qv, qo, qs, qi⟩ := hr (i + 1) e he
  rw [xRowVal] at pv qv
  obtain ⟨u0, us, x0, xs, hu, hxs, lu0, lus, lu, pu0, pus⟩ := zipFst_words hw pv
  obtain ⟨v0, vs, y0, ys, hv, hys, lv0, lvs, lv, pv0, pvs⟩ := zipFst_words hw qv
  obtain ⟨W1, t1, w1, r1, l1, a1⟩ := wrun_eq hl (o := o) (cl := cl) (us := xRowIdx c base i)
    (vs := xRowIdx c base (i + 1)) rfl (by simp [xRowIdx]) pi qi p1 e1
  set n1 := W.length + (lib.eq W.length (xRowIdx c base i) (xRowIdx c base (i + 1))).length with hn1
  rw [l1] at a1
  have r2 := wrun_not (o := o) (cl := cl) a1
  have l2 : (W1 ++ [!(p.idx == e.idx)]).length = n1 + 1 := by rw [List.length_append, l1]; rfl
  set neq := !(p.idx == e.idx) with hneq
  have x2 : ∀ t, W1 ++ [neq] ++ t = W ++ (t1 ++ [neq] ++ t) := by intro t; rw [w1]; simp only [List.append_assoc]
  have x2' : W1 ++ [neq] = W ++ (t1 ++ [neq]) := by rw [w1, List.append_assoc]
  have b2 : (W1 ++ [neq])[n1]? = some neq := by rw [← l1]; exact List.getElem?_concat_length
  obtain ⟨W3, t3, w3, r3, l3, a3⟩ := wrun_lt hl (o := o) (cl := cl) (W := W1 ++ [neq]) (n := n1 + 1) (us := xRowStep c base i)
    (vs := xRowStep c base (i + 1)) (w := c.ssz) (x := p.step) (y := e.step) l2.symm (by simp [xRowStep]) (by simp [xRowStep]) (by omega)
    (by rw [x2']; exact pick_append _ ps) (by rw [x2']; exact pick_append _ qs) p2 e2
  set n2 := n1 + 1 + (lib.lt (n1 + 1) (xRowStep c base i) (xRowStep c base (i + 1))).length with hn2
  rw [l3] at a3
  have x3 : W3 = W ++ (t1 ++ [neq] ++ t3) := by rw [w3, x2]
  obtain ⟨W4, t4, w4, r4, l4, a4⟩ := wrun_eq hl (o := o) (cl := cl) (W := W3) (n := n2) (us := u0) (vs := v0) l3.symm (by rw [lu0, lv0])
    (by rw [x3]; exact pick_append _ pu0) (by rw [x3]; exact pick_append _ pv0) (p4 x0 (by rw [hxs]; simp)) (e4 y0 (by rw [hys]; simp))
  set n3 := n2 + (lib.eq n2 u0 v0).length with hn3
  rw [l4] at a4
  have x4 : W4 = W ++ (t1 ++ [neq] ++ t3 ++ t4) := by rw [w4, x3]; simp only [List.append_assoc]
  obtain ⟨W5, t5, w5, r5, l5, a5⟩ := wrun_valEq hl (o := o) (cl := cl) us vs xs ys W4 (n3 - 1) (x0 == y0)
    (by rw [x4]; exact mapM_pick_append _ pus) (by rw [x4]; exact mapM_pick_append _ pvs) (by omega) lus lvs
    (fun v hv => p4 v (by rw [hxs]; simp [hv])) (fun v hv => e4 v (by rw [hys]; simp [hv])) a4
  rw [l4] at r5 l5 a5
  set q := xValEq lib n3 (n3 - 1) (us.zip vs) with hq
  set n4 := q.2.1 with hn4
  set veq := (x0 == y0 && xs == ys) with hveq
  have hveq' : veq = (p.val == e.val) := by rw [hxs, hys]; rfl
  have x5 : ∀ t, W5 ++ t = W ++ (t1 ++ [neq] ++ t3 ++ t4 ++ t5 ++ t) := by intro t; rw [w5, x4]; simp only [List.append_assoc]
  set less := ltW c.ssz p.step e.step with hless
  have b5n : ∀ t, (W5 ++ t)[n1]? = some neq := by
    intro t
    have : W5 ++ t = (W1 ++ [neq]) ++ (t3 ++ t4 ++ t5 ++ t) := by rw [w5, w4, w3]; simp only [List.append_assoc]
    rw [this]; exact getElem?_app b2 _
  have b5l : ∀ t, (W5 ++ t)[n2 - 1]? = some less := by
    intro t
    have : W5 ++ t = W3 ++ (t4 ++ t5 ++ t) := by rw [w5, w4]; simp only [List.append_assoc]
    rw [this]; exact getElem?_app a3 _
  have b5o : ∀ t, (W5 ++ t)[xRowOp c base (i + 1)]? = some e.op := by intro t; rw [x5]; exact getElem?_app qo _
  have b5c : ∀ t, (W5 ++ t)[cw]? = some x := by intro t; rw [x5]; exact getElem?_app hx _
  have b5v : ∀ t, (W5 ++ t)[q.2.2]? = some veq := fun t => getElem?_app a5 _
  -- the gates after the comparisons
  have at_ : ∀ (l : List Bool) (y : Bool) (r : List Bool), (W5 ++ (l ++ y :: r))[n4 + l.length]? = some y := by
    intro l y r
    have : W5 ++ (l ++ y :: r) = (W5 ++ l) ++ y :: r := by simp
    rw [this, l5, ← List.length_append, List.getElem?_append_right (le_refl _), Nat.sub_self, List.getElem?_cons_zero]
  have g1 := wrun_not (o := o) (cl := cl) (by have := b5n []; rwa [List.append_nil] at this)
  have g2 := wrun_and (o := o) (cl := cl) (W := W5 ++ [!neq]) (i := n4) (j := n2 - 1) (at_ [] _ []) (b5l _)
  have g3 := wrun_not (o := o) (cl := cl) (W := W5 ++ [!neq] ++ [!neq && less]) (i := xRowOp c base (i + 1)) (x := e.op)
    (by rw [List.append_assoc]; exact b5o _)
  have g4 := wrun_and (o := o) (cl := cl) (W := W5 ++ [!neq] ++ [!neq && less] ++ [!e.op]) (i := n4 + 2) (j := q.2.2) (x := !e.op) (y := veq)
    (by rw [List.append_assoc, List.append_assoc]; exact at_ [!neq, !neq && less] _ []) (by rw [List.append_assoc, List.append_assoc]; exact b5v _)
  set y4 := (!e.op && veq) with hy4
  have g5 := wrun_or (o := o) (cl := cl) (W := W5 ++ [!neq] ++ [!neq && less] ++ [!e.op] ++ [y4]) (n := n4 + 4) (i := n4 + 3)
    (j := xRowOp c base (i + 1)) (x := y4) (y := e.op) (by simp [l5])
    (by rw [List.append_assoc, List.append_assoc, List.append_assoc]; exact at_ [!neq, !neq && less, !e.op] _ [])
    (by rw [List.append_assoc, List.append_assoc, List.append_assoc]; exact b5o _)
  set z1 := (y4 || e.op) with hz1
  have g6 := wrun_and (o := o) (cl := cl) (W := W5 ++ [!neq] ++ [!neq && less] ++ [!e.op] ++ [y4] ++ [y4 ^^ e.op, y4 && e.op, z1]) (i := n4 + 1)
    (j := n4 + 6) (x := !neq && less) (y := z1)
    (by simp only [List.append_assoc]; exact at_ [!neq] _ _)
    (by simp only [List.append_assoc]; exact at_ [!neq, !neq && less, !e.op, y4, y4 ^^ e.op, y4 && e.op] _ [])
  set y6 := ((!neq && less) && z1) with hy6
  have g7 := wrun_or (o := o) (cl := cl) (W := W5 ++ [!neq] ++ [!neq && less] ++ [!e.op] ++ [y4] ++ [y4 ^^ e.op, y4 && e.op, z1] ++ [y6]) (n := n4 + 8)
    (i := n1) (j := n4 + 7) (x := neq) (y := y6) (by simp [l5])
    (by simp only [List.append_assoc]; exact b5n _)
    (by simp only [List.append_assoc]; exact at_ [!neq, !neq && less, !e.op, y4, y4 ^^ e.op, y4 && e.op, z1] _ [])
  set z2 := (neq || y6) with hz2
  have g8 := wrun_and (o := o) (cl := cl) (W := W5 ++ [!neq] ++ [!neq && less] ++ [!e.op] ++ [y4] ++ [y4 ^^ e.op, y4 && e.op, z1] ++ [y6] ++
    [neq ^^ y6, neq && y6, z2]) (i := cw) (j := n4 + 10) (x := x) (y := z2)
    (by simp only [List.append_assoc]; exact b5c _)
    (by simp only [List.append_assoc]; exact at_ [!neq, !neq && less, !e.op, y4, y4 ^^ e.op, y4 && e.op, z1, y6, neq ^^ y6, neq && y6] _ [])
  set WF := W5 ++ [!neq] ++ [!neq && less] ++ [!e.op] ++ [y4] ++ [y4 ^^ e.op, y4 && e.op, z1] ++ [y6] ++ [neq ^^ y6, neq && y6, z2] ++ [x && z2]
    with hWF
  have xF : WF = W5 ++ ([!neq, !neq && less, !e.op, y4, y4 ^^ e.op, y4 && e.op, z1, y6, neq ^^ y6, neq && y6, z2] ++ [x && z2]) := by
    rw [hWF]; simp only [List.append_assoc, List.cons_append, List.nil_append]
  refine ⟨(lib.eq W.length (xRowIdx c base i) (xRowIdx c base (i + 1)) ++ (BOp.not (n1 - 1) :: (lib.lt (n1 + 1) (xRowStep c base i) (xRowStep c base (i + 1)) ++
      (lib.eq n2 u0 v0 ++ (q.1 ++ (BOp.not n1 :: BOp.and n4 (n2 - 1) :: BOp.not (xRowOp c base (i + 1)) :: BOp.and (n4 + 2) q.2.2 ::
      (orOps (n4 + 4) (n4 + 3) (xRowOp c base (i + 1)) ++ (BOp.and (n4 + 1) (n4 + 6) :: (orOps (n4 + 8) n1 (n4 + 7) ++ [BOp.and cw (n4 + 10)])))))))),
      n4 + 12, n4 + 11), WF, t1 ++ [neq] ++ t3 ++ t4 ++ t5 ++ ([!neq, !neq && less, !e.op, y4, y4 ^^ e.op, y4 && e.op, z1, y6, neq ^^ y6, neq && y6, z2] ++ [x && z2]),
    ?_, by rw [xF, x5], ?_, ?_, ?_⟩
  · simp only [xRound, xRowVal, hu, hv, List.getElem?_cons_zero, Option.bind_eq_bind, Option.bind_some, List.tail_cons]
    rfl
  · show WRun o cl W (lib.eq W.length (xRowIdx c base i) (xRowIdx c base (i + 1)) ++ ([BOp.not (n1 - 1)] ++ (lib.lt (n1 + 1) (xRowStep c base i) (xRowStep c base (i + 1)) ++
      (lib.eq n2 u0 v0 ++ (q.1 ++ ([BOp.not n1] ++ ([BOp.and n4 (n2 - 1)] ++ ([BOp.not (xRowOp c base (i + 1))] ++ ([BOp.and (n4 + 2) q.2.2] ++
      (orOps (n4 + 4) (n4 + 3) (xRowOp c base (i + 1)) ++ ([BOp.and (n4 + 1) (n4 + 6)] ++ (orOps (n4 + 8) n1 (n4 + 7) ++ [BOp.and cw (n4 + 10)])))))))))))) WF
    exact r1.trans (r2.trans (r3.trans (r4.trans (r5.trans (g1.trans (g2.trans (g3.trans (g4.trans (g5.trans (g6.trans (g7.trans g8)))))))))))
  · show n4 + 12 = WF.length
    rw [xF, List.length_append, ← l5]; rfl
  · show WF[n4 + 11]? = _
    rw [xF]
    have := at_ [!neq, !neq && less, !e.op, y4, y4 ^^ e.op, y4 && e.op, z1, y6, neq ^^ y6, neq && y6, z2] (x && z2) []
    rw [show n4 + 11 = n4 + [!neq, !neq && less, !e.op, y4, y4 ^^ e.op, y4 && e.op, z1, y6, neq ^^ y6, neq && y6, z2].length from rfl, this]
    rw [hz2, hy6, hz1, hy4, hveq', hneq, hless]
    rfl

/-- The condition on all neighbouring rows. -/
def xPairsOk (c : RxCfg) (rows : List ExtEnt) (i : Nat) : Bool :=
  match rows[i]?, rows[i + 1]? with
  | some p, some e => extCond2 c p e
  | _, _ => false

theorem extCond_pairs (c : RxCfg) (rows : List ExtEnt) : extCond c rows = (List.range (rows.length - 1)).all (xPairsOk c rows) := by
  induction rows with
  | nil => rfl
  | cons p rows ih =>
    cases rows with
    | nil => rfl
    | cons e l =>
      rw [extCond, ih]
      show _ = (List.range (l.length + 1)).all _
      rw [List.range_succ_eq_map, List.all_cons, List.all_map]
      rfl

/-- All rounds. -/
theorem wrun_xrounds {lib : CmpLib} (hl : lib.Good) {c : RxCfg} (hw : 1 ≤ c.words) (hs : 1 ≤ c.ssz) {o cl : List Bool} {base : Nat} {rows : List ExtEnt}
    (hf : ∀ e ∈ rows, e.FitsX c) (is : List Nat) : ∀ {W : List Bool} {cw : Nat} {x : Bool}, XRowsAt c base rows W → (∀ i ∈ is, i + 1 < rows.length) →
    W[cw]? = some x →
    ∃ r W' t, xRounds lib c base is W.length cw = some r ∧ W' = W ++ t ∧ WRun o cl W r.1 W' ∧ W'[r.2]? = some (x && is.all (xPairsOk c rows)) := by
  induction is with
  | nil => intro W cw x _ _ hx; exact ⟨([], cw), W, [], rfl, (List.append_nil _).symm, rfl, by simp only [List.all_nil, Bool.and_true]; exact hx⟩
  | cons i is ih =>
    intro W cw x hr hi hx
    have h1 := hi i (by simp)
    have hp : rows[i]? = some (rows[i]'(by omega)) := List.getElem?_eq_getElem _
    have he : rows[i + 1]? = some rows[i + 1] := List.getElem?_eq_getElem _
    obtain ⟨a, W1, t1, k1, w1, r1, l1, v1⟩ := wrun_xround hl hw hs (o := o) (cl := cl) hr hp he (hf _ (List.getElem_mem _)) (hf _ (List.getElem_mem _)) hx
    obtain ⟨b, W2, t2, k2, w2, r2, v2⟩ := ih (W := W1) (by rw [w1]; exact hr.app _) (fun j hj => hi j (by simp [hj])) v1
    rw [← l1] at k2
    refine ⟨(a.1 ++ b.1, b.2), W2, t1 ++ t2, ?_, by rw [w2, w1, List.append_assoc], r1.trans r2, ?_⟩
    · simp only [xRounds, k1, k2, Option.bind_eq_bind, Option.bind_some]
    · rw [List.all_cons, ← Bool.and_assoc]
      have : xPairsOk c rows i = extCond2 c (rows[i]'(by omega)) rows[i + 1] := by simp only [xPairsOk, hp, he]
      rw [this]
      exact v2

/-! ### the packed rows and their combinations -/

theorem extRow_length {c : RxCfg} (hw : 1 ≤ c.words) {e : ExtEnt} (h : e.val.length = c.words) : (extRow e).length = c.words / 2 + 1 := by
  rcases e with ⟨i, s, o, v⟩
  cases v with
  | nil => simp only [List.length_nil] at h; omega
  | cons a l =>
    simp only [List.length_cons] at h
    simp only [extRow, List.length_cons, pairs_length]
    omega

theorem xLin_eq : ∀ (b : List Nat) (j : Nat), xLin j b.length b = some ((List.range' j b.length).zip b) := by
  intro b
  induction b with
  | nil => intro j; rfl
  | cons i b ih => intro j; simp only [List.length_cons, xLin, ih, Option.map_some]; rfl

theorem xLins_eq {k : Nat} (bs : List (List Nat)) (h : ∀ b ∈ bs, b.length = k) :
    (List.range bs.length).mapM (fun i => (bs[i]?).bind (xLin 0 k)) = some (bs.map (fun b => (List.range k).zip b)) := by
  rw [← mapM_range_eq]
  apply mapM_opt_congr
  intro i hi
  have hi' : i < bs.length := List.mem_range.1 hi
  have hb := h _ (List.getElem_mem hi')
  rw [List.getElem?_eq_getElem hi', Option.bind_some, Option.map_some, List.range_eq_range']
  conv_lhs => rw [← hb]
  rw [xLin_eq, hb]

section
variable {F : Type} [Field F] [BlockField F] [DecidableEq F]

theorem mplain_xpacks {c : RxCfg} (hc : c.Ok) {n : Nat} {rows : List ExtEnt} (hf : ∀ e ∈ rows, e.FitsX c) (ks : List Nat) : ∀ {s : MPlain F},
    XRowsAt c n rows s.bp.wires → (∀ k ∈ ks, k < rows.length) →
    ∃ es ps, pick rows ks = some es ∧
      ks.mapM (fun k => xPack (xRowIdx c n k) (xRowVal c n k) (xRowStep c n k) (xRowOp c n k)) = some ps ∧
      ∀ ch, mplainOps ch s (ps.flatten.map MOp.packAt) = some { s with fs := s.fs ++ (es.map (fun e => (extRow e).map wordF)).flatten } := by
  induction ks with
  | nil => intro s _ _; exact ⟨[], [], rfl, rfl, fun ch => by simp [mplainOps]⟩
  | cons k ks ih =>
    intro s hr hk
    have hlt := hk k (by simp)
    have he : rows[k]? = some rows[k] := List.getElem?_eq_getElem _
    obtain ⟨f1, f2, f3, f4⟩ := hf rows[k] (List.getElem_mem _)
    obtain ⟨q1, q2, q3, q4⟩ := hr k _ he
    obtain ⟨c1, c2, c3⟩ := hc
    obtain ⟨ws, k1, _, k2⟩ := mplain_xpack q4 q1 q3 q2 (by simp only [xRowVal, wordWires, List.length_map, List.length_range, RxCfg.words]; omega)
      (by simpa [xRowIdx] using c1)
      (by
        intro v hv
        simp only [xRowVal, wordWires, List.mem_map] at hv
        obtain ⟨j, _, rfl⟩ := hv
        simp)
      (by simpa [xRowStep] using c2)
    rw [bitsNum_bitsOf, bitsNum_bitsOf, Nat.mod_eq_of_lt f2, Nat.mod_eq_of_lt f1, map_bitsNum_bits64 f4] at k2
    obtain ⟨es, ps, l1, l2, l3⟩ := ih (s := { s with fs := s.fs ++ (extRow rows[k]).map wordF }) hr (fun j hj => hk j (by simp [hj]))
    refine ⟨rows[k] :: es, ws :: ps, ?_, ?_, fun ch => ?_⟩
    · rw [pick_cons, he, l1]; rfl
    · rw [List.mapM_cons, k1, l2]; rfl
    · rw [List.flatten_cons, List.map_append, mplainOps_append, k2]
      show mplainOps ch _ _ = _
      rw [l3]
      simp

theorem mplain_lins (ch : Nat → F) {k : Nat} : ∀ (bs : List (List Nat)) (xs : List (List F)) (s : MPlain F), s.rs.length = k →
    bs.mapM (pick s.fs) = some xs → (∀ b ∈ bs, b.length = k) →
    mplainOps ch s ((bs.map (fun b => (List.range k).zip b)).map MOp.lin) = some { s with fs := s.fs ++ xs.map (rowDot s.rs) } := by
  intro bs
  induction bs with
  | nil => intro xs s _ h _; rw [List.mapM_nil] at h; cases h; simp [mplainOps]
  | cons b bs ih =>
    intro xs s hk h hb
    rw [List.mapM_cons] at h
    simp only [Option.bind_eq_bind, Option.bind_eq_some_iff, Option.pure_def, Option.some.injEq] at h
    obtain ⟨x, h1, y, h2, rfl⟩ := h
    have hbl := hb b (by simp)
    have e1 : linVal s ((List.range k).zip b) = some (rowDot s.rs x) := by
      rw [linVal, List.map_fst_zip (by simp [hbl]), List.map_snd_zip (by simp [hbl]), h1]
      have := pick_range' [] s.rs
      rw [List.nil_append, List.length_nil, ← List.range_eq_range', hk] at this
      rw [this]
      rfl
    rw [List.map_cons, List.map_cons, mplainOps_cons]
    simp only [mplainStep, e1, Option.bind_eq_bind, Option.bind_some]
    have h4 := ih y { s with fs := s.fs ++ [rowDot s.rs x] } hk (mapM_pick_append _ h2) (fun b hb' => hb b (by simp [hb']))
    rw [h4]
    simp

omit [Field F] [BlockField F] [DecidableEq F] in
theorem mixMuls_lins (l : List (List (Nat × Nat))) : mixMuls (l.map MOp.lin) = 0 := by
  rw [mixMuls, List.countP_map, List.countP_eq_zero]; intro o _; simp [MOp.isMul]

/-! ### the whole check -/

/-- `check` on plain values. -/
theorem xsim_check {lib : CmpLib} (hl : lib.Good) {c : RxCfg} (hc : c.Ok) (hv1 : 64 < c.vsz) (hv2 : c.vsz < 2 ^ 64) {g : XNet} {u : XPlain}
    {s : MPlain F} (h : XSim c g u s) (h3 : 3 ≤ u.log.length) (hlen : u.log.length ≤ 2 ^ (c.ssz - 1)) :
    ∃ (ops : List MOp) (t : List Bool), xCheckGen lib c g = some ops ∧ mixMuls ops = 2 * ((u.log.length - 1) % 4) ∧
      ∀ ch, ∃ fs' rs', mplainOps ch s ops = some ⟨⟨u.bp.wires ++ t, u.bp.outs ++ [true], u.bp.claims⟩, fs', rs'⟩ := by
  have hst := h.inv.step_eq
  have hw : 1 ≤ c.words := by unfold RxCfg.words; omega
  have hss : 1 ≤ c.ssz := by
    by_contra h0
    have : c.ssz - 1 = 0 := by omega
    rw [this] at hlen
    omega
  have h64 : g.st.step < 2 ^ 64 := by
    have := hc.2.1
    have : 2 ^ (c.ssz - 1) < 2 ^ 64 := Nat.pow_lt_pow_right (by decide) (by omega)
    omega
  obtain ⟨st', chk, k1, k2, k3, k4, k5, k6⟩ := h.inv.check hc hv1 hv2 (by omega) (by omega)
  have hfit : ∀ e ∈ chk.rows, e.FitsX c := fun e he => h.inv.fits e (k4.mem_iff.1 he)
  have hfv : ∀ e ∈ chk.rows, e.val.length = c.words := fun e he => (hfit e he).2.2.1
  have hrl : chk.rows.length = g.st.step := by rw [k4.length_eq, h.inv.step]
  have hn : g.bits.length = s.bp.wires.length := by rw [h.bits, h.bp]
  -- inputs
  set W1 := s.bp.wires ++ chk.rows.flatMap (xRowBits c) with hW1
  have lW1 : W1.length = g.bits.length + g.st.step * xRowW c := by rw [hW1, List.length_append, flatMap_xRowBits_length _ hfv, hrl, hn]
  have hrows : XRowsAt c g.bits.length chk.rows W1 := by rw [hn]; exact xRowsAt_flatMap _ _ hfv
  -- condition
  obtain ⟨q, W2, t2, hq, w2, r2, v2⟩ := wrun_xrounds hl hw hss (o := s.bp.outs) (cl := s.bp.claims) (base := g.bits.length) hfit
    (List.range (g.st.step - 1)) (W := W1 ++ [true]) (cw := g.bits.length + g.st.step * xRowW c) (x := true) (hrows.app _)
    (by intro i hi; rw [List.mem_range] at hi; omega) (by rw [← lW1]; exact List.getElem?_concat_length)
  rw [Bool.true_and, ← hrl, ← extCond_pairs, ← k2, k3] at v2
  have lW1' : (W1 ++ [true]).length = g.bits.length + g.st.step * xRowW c + 1 := by rw [List.length_append, lW1]; rfl
  rw [lW1'] at hq
  -- packs
  obtain ⟨es, ps, p1, p2, p3⟩ := mplain_xpacks hc (n := g.bits.length) hfit (List.range g.st.step)
    (s := (⟨⟨W2, s.bp.outs ++ [true], s.bp.claims⟩, s.fs, s.rs⟩ : MPlain F))
    (by show XRowsAt _ _ _ W2; rw [w2]; exact (hrows.app _).app _) (by intro k hk; rw [List.mem_range] at hk; omega)
  have hes : es = chk.rows := by
    have := pick_range' [] chk.rows
    rw [List.nil_append, List.length_nil, ← List.range_eq_range', hrl, p1, Option.some.injEq] at this
    exact this
  subst hes
  -- combinations
  set bz := c.words / 2 + 1 with hbz
  have hbz' : (c.words + 2) / 2 = bz := by omega
  set X : List (List F) := chk.rows.map (fun e => (extRow e).map wordF) with hX
  set Y : List (List F) := g.st.log.map (fun e => (extRow e).map wordF) with hY
  have hXl : X.length = g.st.step := by rw [hX, List.length_map, hrl]
  have hYl : Y.length = g.st.step := by rw [hY, List.length_map, h.inv.step]
  have hXb : ∀ x ∈ X, x.length = bz := by
    intro x hx
    obtain ⟨e, he, rfl⟩ := List.mem_map.1 hx
    rw [List.length_map, extRow_length hw (hfv e he)]
  have hYb : ∀ x ∈ Y, x.length = bz := by
    intro x hx
    obtain ⟨e, he, rfl⟩ := List.mem_map.1 hx
    rw [List.length_map, extRow_length hw (h.inv.fits e he).2.2.1]
  have hperm : X.Perm Y := k4.map _
  have hmacs : g.macs.mapM (pick s.fs) = some Y := h.macs
  clear_value X Y
  have hmac : g.macs.length = g.st.step := by rw [← mapM_len hmacs, hYl]
  have hmb : ∀ b ∈ g.macs, b.length = bz := mapM_pick_lens hmacs hYb
  set sorted := (List.range g.st.step).map (fun k => List.range' (g.nf + k * bz) bz) with hsorted
  have hsl : sorted.length = g.st.step := by rw [hsorted, List.length_map, List.length_range]
  have hsb : ∀ b ∈ sorted, b.length = bz := by
    intro b hb
    obtain ⟨k, _, rfl⟩ := List.mem_map.1 hb
    simp
  have hla := xLins_eq g.macs hmb
  have hlb := xLins_eq sorted hsb
  rw [hmac] at hla
  rw [hsl] at hlb
  have hflat : X.flatten.length = g.st.step * bz := by
    rw [List.length_flatten, List.map_congr_left (g := fun _ => bz) hXb, List.map_const', List.sum_replicate, hXl]; rfl
  have hchals : ∀ ch : Nat → F, ((List.range bz).map (fun i => ch (s.rs.length + i))).length = bz := by intro ch; simp
  have hset := fun ch : Nat → F => mplain_setEq ch
    (s := (⟨⟨W2, s.bp.outs ++ [true], s.bp.claims⟩, s.fs ++ X.flatten ++ Y.map (rowDot ((List.range bz).map (fun i => ch (s.rs.length + i)))) ++
      X.map (rowDot ((List.range bz).map (fun i => ch (s.rs.length + i)))), s.rs ++ (List.range bz).map (fun i => ch (s.rs.length + i))⟩ : MPlain F))
    (as := List.range' (g.nf + g.st.step * bz + g.st.step) g.st.step) (bs := List.range' (g.nf + g.st.step * bz) g.st.step)
    (us := X.map (rowDot ((List.range bz).map (fun i => ch (s.rs.length + i))))) (vs := Y.map (rowDot ((List.range bz).map (fun i => ch (s.rs.length + i)))))
    (step := g.st.step)
    (by
      have := pick_range' (s.fs ++ X.flatten ++ Y.map (rowDot ((List.range bz).map (fun i => ch (s.rs.length + i)))))
        (X.map (rowDot ((List.range bz).map (fun i => ch (s.rs.length + i)))))
      rw [List.length_append, List.length_append, hflat, List.length_map, List.length_map, hXl, hYl, ← h.nf] at this
      exact this)
    (by
      have := pick_range' (s.fs ++ X.flatten) (Y.map (rowDot ((List.range bz).map (fun i => ch (s.rs.length + i)))))
      rw [List.length_append, hflat, List.length_map, hYl, ← h.nf] at this
      exact pick_append _ this) (by simp) (by simp) (by omega) h64
  obtain ⟨se, _, hse, _⟩ := hset (fun _ => 0)
  simp only [List.length_append, List.length_map, hflat, hXl, hYl, h.rs, List.length_nil, ← h.nf, List.length_range, Nat.zero_add] at hse
  obtain ⟨c1, c2⟩ := setEqOps_counts (by simp) (by simp) (by omega) h64 hse
  refine ⟨(chk.rows.flatMap (xRowBits c)).map (fun b => MOp.bool (.input b)) ++ (MOp.bool (.pub true) :: (q.1.map MOp.bool ++
    (MOp.bool (.reveal q.2) :: MOp.sync :: (ps.flatten.map MOp.packAt ++ (MOp.chals bz ::
      ((g.macs.map (fun b => (List.range bz).zip b)).map MOp.lin ++ ((sorted.map (fun b => (List.range bz).zip b)).map MOp.lin ++ se))))))),
    chk.rows.flatMap (xRowBits c) ++ ([true] ++ t2), ?_, ?_, fun ch => ?_⟩
  · simp only [xCheckGen, k1, Option.bind_eq_bind, Option.bind_some, hq, p2, hbz', ← hbz, hla, ← hsorted, hlb, hse, k3]
    rfl
  · have e1 : mixMuls ((chk.rows.flatMap (xRowBits c)).map (fun b => MOp.bool (.input b))) = 0 := by
      have : (chk.rows.flatMap (xRowBits c)).map (fun b => MOp.bool (.input b)) = ((chk.rows.flatMap (xRowBits c)).map BOp.input).map MOp.bool := by
        rw [List.map_map]; rfl
      rw [this, mixMuls_bools]
    rw [mixMuls_append, e1, mixMuls_cons_false _ _ rfl, mixMuls_append, mixMuls_bools, mixMuls_cons_false _ _ rfl, mixMuls_cons_false _ _ rfl,
      mixMuls_append, mixMuls_packAts, mixMuls_cons_false _ _ rfl, mixMuls_append, mixMuls_lins, mixMuls_append, mixMuls_lins, c1, hst]
    omega
  · obtain ⟨se', t', hse', hrun⟩ := hset ch
    set R := (List.range bz).map (fun i => ch (s.rs.length + i)) with hR
    simp only [List.length_append, List.length_map, hflat, hXl, hYl, h.rs, List.length_nil, ← h.nf, hchals, Nat.zero_add] at hse'
    rw [hR, List.length_map, List.length_range, hse, Option.some.injEq] at hse'
    subst hse'
    rw [if_pos (prodAt_perm _ (hperm.map _))] at hrun
    have hR' : s.rs ++ R = R := by rw [h.rs, List.nil_append]
    refine ⟨s.fs ++ X.flatten ++ Y.map (rowDot R) ++ X.map (rowDot R) ++ t', s.rs ++ R ++ [ch (s.rs ++ R).length], ?_⟩
    have e1 : (chk.rows.flatMap (xRowBits c)).map (fun b => MOp.bool (.input b)) = ((chk.rows.flatMap (xRowBits c)).map BOp.input).map MOp.bool := by
      rw [List.map_map]; rfl
    rw [mplainOps_append, e1, mplain_bools, plain_inputs, Option.map_some, Option.bind_some, mplainOps_cons]
    simp only [mplainStep, plainStep, Option.map_some, Option.bind_some]
    rw [mplainOps_append, mplain_bools]
    have r2' : q.1.foldlM plainStep { wires := s.bp.wires ++ chk.rows.flatMap (xRowBits c) ++ [true], outs := s.bp.outs, claims := s.bp.claims } = _ := r2
    rw [r2', Option.map_some, Option.bind_some, mplainOps_cons]
    simp only [mplainStep, plainStep, v2, Option.bind_eq_bind, Option.map_some, Option.bind_some]
    rw [mplainOps_cons]
    simp only [mplainStep, Option.bind_some]
    rw [mplainOps_append, p3, Option.bind_some, mplainOps_cons]
    simp only [mplainStep, Option.bind_some]
    have m1 := mplain_lins ch (k := bz) g.macs Y (⟨⟨W2, s.bp.outs ++ [true], s.bp.claims⟩, s.fs ++ X.flatten, s.rs ++ R⟩ : MPlain F)
      (by rw [hR']; exact hchals ch) (mapM_pick_append _ hmacs) hmb
    have m2 := mplain_lins ch (k := bz) sorted X (⟨⟨W2, s.bp.outs ++ [true], s.bp.claims⟩, s.fs ++ X.flatten ++ Y.map (rowDot (s.rs ++ R)), s.rs ++ R⟩ : MPlain F)
      (by rw [hR']; exact hchals ch)
      (by
        have := pick_blocks (k := bz) X s.fs (Y.map (rowDot (s.rs ++ R))) hXb
        rw [hXl, ← h.nf, ← hsorted] at this
        rw [List.append_assoc]
        exact this) hsb
    rw [mplainOps_append, m1, Option.bind_some, mplainOps_append, m2, Option.bind_some]
    simp only [hR'] at hrun ⊢
    rw [hrun]
    simp only [h.bp, w2, hW1, List.append_assoc]

end
end EmpZk
