/-
A program with a read-only memory as a mixed session: its instructions do on plain values what the program says.
-/
import Verif.Lemmas.RamCheckNet
import Verif.Lemmas.RoRam
import Verif.Spec.RoNet

namespace EmpZk

/-! ### wires of the program and wires of the session -/

theorem pick_app {α : Type} (l : List α) (g h : List Nat) : pick l (g ++ h) = (pick l g).bind (fun x => (pick l h).map (fun y => x ++ y)) := by
  induction g with
  | nil => rw [List.nil_append, pick_nil, Option.bind_some]; cases pick l h <;> rfl
  | cons i g ih =>
    rw [List.cons_append, pick_cons, pick_cons, ih]
    cases l[i]? with
    | none => rfl
    | some a =>
      simp only [Option.bind_some]
      cases pick l g with
      | none => rfl
      | some r => simp only [Option.bind_some, Option.map_some]; cases pick l h <;> rfl

theorem pick_get {α : Type} {W : List α} {uw : List Nat} {U : List α} (h : pick W uw = some U) {i : Nat} {x : α} (hx : U[i]? = some x) :
    ∃ w, uw[i]? = some w ∧ W[w]? = some x := by
  induction uw generalizing U i with
  | nil => rw [pick_nil] at h; cases h; simp at hx
  | cons w uw ih =>
    rw [pick_cons] at h
    simp only [Option.bind_eq_some_iff, Option.map_eq_some_iff] at h
    obtain ⟨a, ha, r, hr, rfl⟩ := h
    cases i with
    | zero => simp only [List.getElem?_cons_zero, Option.some.injEq] at hx; subst hx; exact ⟨w, rfl, ha⟩
    | succ i => simp only [List.getElem?_cons_succ] at hx ⊢; exact ih hr hx

theorem lookupPairs_pick {α : Type} {W : List α} {uw : List Nat} {U : List α} (h : pick W uw = some U) (l : List (Nat × Nat)) :
    ∀ {r : List (α × α)}, lookupPairs U l = some r → ∃ l', lookupPairs uw l = some l' ∧ lookupPairs W l' = some r := by
  induction l with
  | nil => intro r hr; exact ⟨[], rfl, hr⟩
  | cons p l ih =>
    intro r hr
    simp only [lookupPairs, Option.bind_eq_bind, Option.bind_eq_some_iff, Option.some.injEq] at hr
    obtain ⟨a, ha, b, hb, q, hq, rfl⟩ := hr
    obtain ⟨w1, h1, h2⟩ := pick_get h ha
    obtain ⟨w2, h3, h4⟩ := pick_get h hb
    obtain ⟨l', h5, h6⟩ := ih hq
    exact ⟨(w1, w2) :: l', by simp [lookupPairs, h1, h3, h5], by simp [lookupPairs, h2, h4, h6]⟩

theorem lookupTerms_pick {κ α : Type} {W : List α} {uw : List Nat} {U : List α} (h : pick W uw = some U) (l : List (κ × Nat × Nat)) :
    ∀ {r : List (κ × α × α)}, lookupTerms U l = some r → ∃ l', lookupTerms uw l = some l' ∧ lookupTerms W l' = some r := by
  induction l with
  | nil => intro r hr; exact ⟨[], rfl, hr⟩
  | cons p l ih =>
    intro r hr
    simp only [lookupTerms, Option.bind_eq_bind, Option.bind_eq_some_iff, Option.some.injEq] at hr
    obtain ⟨a, ha, b, hb, q, hq, rfl⟩ := hr
    obtain ⟨w1, h1, h2⟩ := pick_get h ha
    obtain ⟨w2, h3, h4⟩ := pick_get h hb
    obtain ⟨l', h5, h6⟩ := ih hq
    exact ⟨(p.1, w1, w2) :: l', by simp [lookupTerms, h1, h3, h5], by simp [lookupTerms, h2, h4, h6]⟩

theorem lookup_pick {α : Type} {W : List α} {uw : List Nat} {U : List α} (h : pick W uw = some U) (s : PolyStmt Nat) {r : PolyStmt α}
    (hr : s.lookup U = some r) : ∃ s', s.lookup uw = some s' ∧ s'.lookup W = some r := by
  cases s with
  | deg2 c t =>
    simp only [PolyStmt.lookup, Option.bind_eq_bind, Option.bind_eq_some_iff, Option.some.injEq] at hr
    obtain ⟨q, hq, rfl⟩ := hr
    obtain ⟨l', h1, h2⟩ := lookupTerms_pick h _ hq
    exact ⟨.deg2 c l', by simp [PolyStmt.lookup, h1], by simp [PolyStmt.lookup, h2]⟩
  | inner c t =>
    simp only [PolyStmt.lookup, Option.bind_eq_bind, Option.bind_eq_some_iff, Option.some.injEq] at hr
    obtain ⟨q, hq, rfl⟩ := hr
    obtain ⟨l', h1, h2⟩ := lookupPairs_pick h _ hq
    exact ⟨.inner c l', by simp [PolyStmt.lookup, h1], by simp [PolyStmt.lookup, h2]⟩
  | innerEq t t' =>
    simp only [PolyStmt.lookup, Option.bind_eq_bind, Option.bind_eq_some_iff, Option.some.injEq] at hr
    obtain ⟨q, hq, q', hq', rfl⟩ := hr
    obtain ⟨l', h1, h2⟩ := lookupPairs_pick h _ hq
    obtain ⟨l2, h3, h4⟩ := lookupPairs_pick h _ hq'
    exact ⟨.innerEq l' l2, by simp [PolyStmt.lookup, h1, h3], by simp [PolyStmt.lookup, h2, h4]⟩
  | innerEqOne t t' i j =>
    simp only [PolyStmt.lookup, Option.bind_eq_bind, Option.bind_eq_some_iff, Option.some.injEq] at hr
    obtain ⟨q, hq, q', hq', a, ha, b, hb, rfl⟩ := hr
    obtain ⟨l', h1, h2⟩ := lookupPairs_pick h _ hq
    obtain ⟨l2, h3, h4⟩ := lookupPairs_pick h _ hq'
    obtain ⟨w1, h5, h6⟩ := pick_get h ha
    obtain ⟨w2, h7, h8⟩ := pick_get h hb
    exact ⟨.innerEqOne l' l2 w1 w2, by simp [PolyStmt.lookup, h1, h3, h5, h7], by simp [PolyStmt.lookup, h2, h4, h6, h8]⟩
  | multiOne t i j =>
    simp only [PolyStmt.lookup, Option.bind_eq_bind, Option.bind_eq_some_iff, Option.some.injEq] at hr
    obtain ⟨q, hq, a, ha, b, hb, rfl⟩ := hr
    obtain ⟨l', h1, h2⟩ := lookupPairs_pick h _ hq
    obtain ⟨w1, h5, h6⟩ := pick_get h ha
    obtain ⟨w2, h7, h8⟩ := pick_get h hb
    exact ⟨.multiOne l' w1 w2, by simp [PolyStmt.lookup, h1, h5, h7], by simp [PolyStmt.lookup, h2, h6, h8]⟩

theorem pick_snoc {α : Type} {W : List α} {uw : List Nat} {U : List α} (h : pick W uw = some U) (t : List α) :
    pick (W ++ t) (uw ++ List.range' W.length t.length) = some (U ++ t) :=
  pick_append_idx (pick_append _ h) (pick_range' W t)

/-- An instruction of the program and the renamed instruction do the same. -/
theorem rename_step {W : List Bool} {uw : List Nat} {u u' : Plain} (h : pick W uw = some u.wires) {o : BOp} (ho : plainStep u o = some u') :
    ∃ o' t os cs, o.rename uw = some o' ∧ u' = ⟨u.wires ++ t, u.outs ++ os, u.claims ++ cs⟩ ∧
      ∀ outs claims, plainStep ⟨W, outs, claims⟩ o' = some ⟨W ++ t, outs ++ os, claims ++ cs⟩ := by
  cases o with
  | input b =>
    simp only [plainStep, Option.some.injEq] at ho
    exact ⟨.input b, [b], [], [], rfl, by rw [← ho]; simp, fun outs claims => by simp [plainStep]⟩
  | pub b =>
    simp only [plainStep, Option.some.injEq] at ho
    exact ⟨.pub b, [b], [], [], rfl, by rw [← ho]; simp, fun outs claims => by simp [plainStep]⟩
  | xor i j =>
    simp only [plainStep, Option.bind_eq_bind, Option.bind_eq_some_iff, Option.some.injEq] at ho
    obtain ⟨a, ha, b, hb, rfl⟩ := ho
    obtain ⟨w1, h1, h2⟩ := pick_get h ha
    obtain ⟨w2, h3, h4⟩ := pick_get h hb
    exact ⟨.xor w1 w2, [a ^^ b], [], [], by simp [BOp.rename, h1, h3], by simp, fun outs claims => by simp [plainStep, h2, h4]⟩
  | not i =>
    simp only [plainStep, Option.bind_eq_bind, Option.bind_eq_some_iff, Option.some.injEq] at ho
    obtain ⟨a, ha, rfl⟩ := ho
    obtain ⟨w1, h1, h2⟩ := pick_get h ha
    exact ⟨.not w1, [!a], [], [], by simp [BOp.rename, h1], by simp, fun outs claims => by simp [plainStep, h2]⟩
  | and i j =>
    simp only [plainStep, Option.bind_eq_bind, Option.bind_eq_some_iff, Option.some.injEq] at ho
    obtain ⟨a, ha, b, hb, rfl⟩ := ho
    obtain ⟨w1, h1, h2⟩ := pick_get h ha
    obtain ⟨w2, h3, h4⟩ := pick_get h hb
    exact ⟨.and w1 w2, [a && b], [], [], by simp [BOp.rename, h1, h3], by simp, fun outs claims => by simp [plainStep, h2, h4]⟩
  | reveal i =>
    simp only [plainStep, Option.bind_eq_bind, Option.bind_eq_some_iff, Option.some.injEq] at ho
    obtain ⟨a, ha, rfl⟩ := ho
    obtain ⟨w1, h1, h2⟩ := pick_get h ha
    exact ⟨.reveal w1, [], [a], [], by simp [BOp.rename, h1], by simp, fun outs claims => by simp [plainStep, h2]⟩
  | poly s =>
    simp only [plainStep, Option.bind_eq_bind, Option.bind_eq_some_iff, Option.some.injEq] at ho
    obtain ⟨p, hp, rfl⟩ := ho
    obtain ⟨s', h1, h2⟩ := lookup_pick h s hp
    exact ⟨.poly s', [], [], [p.eval], by simp [BOp.rename, h1], by simp, fun outs claims => by simp [plainStep, h2]⟩

/-- The wires do not depend on the outputs so far. -/
theorem fold_wires (ops : List BOp) : ∀ {b b' : Plain} (outs claims : List Bool), ops.foldlM plainStep b = some b' →
    ∃ b2, ops.foldlM plainStep ⟨b.wires, outs, claims⟩ = some b2 ∧ b2.wires = b'.wires := by
  induction ops with
  | nil => intro b b' outs claims h; rw [List.foldlM_nil] at h; cases h; exact ⟨_, rfl, rfl⟩
  | cons o ops ih =>
    intro b b' outs claims h
    rw [List.foldlM_cons] at h
    simp only [Option.bind_eq_bind, Option.bind_eq_some_iff] at h
    obtain ⟨b1, h1, h2⟩ := h
    obtain ⟨b3, h3, h4⟩ := plainStep_wires outs claims h1
    obtain ⟨b5, h5, h6⟩ := ih b3.outs b3.claims h2
    refine ⟨b5, ?_, h6⟩
    rw [List.foldlM_cons, h3]
    show ops.foldlM plainStep b3 = _
    rw [← h5, ← h4]

/-! ### the rows and the condition -/

/-- The wires of the rows hold the bits of the rows. -/
def RoRowsAt (c : RoCfg) (n : Nat) (rows : List RoEnt) (W : List Bool) : Prop :=
  ∀ (k : Nat) (e : RoEnt), rows[k]? = some e → pick W (roValW c n k) = some (bitsOf c.vsz e.val) ∧
    pick W (roIdxW c n k) = some (bitsOf (c.isz + 1) e.idx)

theorem RoRowsAt.app {c : RoCfg} {n : Nat} {rows : List RoEnt} {W : List Bool} (h : RoRowsAt c n rows W) (t : List Bool) :
    RoRowsAt c n rows (W ++ t) := fun k e he => ⟨pick_append _ (h k e he).1, pick_append _ (h k e he).2⟩

theorem roRowBits_length (c : RoCfg) (e : RoEnt) : (roRowBits c e).length = roW c := by
  simp only [roRowBits, List.length_append, bitsOf_length, roW]

theorem flatMap_roRowBits_length (c : RoCfg) (rows : List RoEnt) : (rows.flatMap (roRowBits c)).length = rows.length * roW c := by
  induction rows with
  | nil => simp
  | cons e rows ih => rw [List.flatMap_cons, List.length_append, ih, roRowBits_length, List.length_cons]; ring

theorem roRowsAt_flatMap (c : RoCfg) (w : List Bool) (rows : List RoEnt) : RoRowsAt c w.length rows (w ++ rows.flatMap (roRowBits c)) := by
  intro k e he
  obtain ⟨hk, hke⟩ := List.getElem?_eq_some_iff.1 he
  have hsplit : rows = rows.take k ++ e :: rows.drop (k + 1) := by
    rw [← hke, List.getElem_cons_drop, List.take_append_drop]
  have hl : (w ++ (rows.take k).flatMap (roRowBits c)).length = w.length + k * roW c := by
    rw [List.length_append, flatMap_roRowBits_length, List.length_take, Nat.min_eq_left (by omega)]
  have hW : w ++ rows.flatMap (roRowBits c) = w ++ (rows.take k).flatMap (roRowBits c) ++ (bitsOf c.vsz e.val ++ (bitsOf (c.isz + 1) e.idx ++
      (rows.drop (k + 1)).flatMap (roRowBits c))) := by
    conv_lhs => rw [hsplit]
    simp only [List.flatMap_append, List.flatMap_cons, roRowBits, List.append_assoc]
  rw [hW]
  refine ⟨pick_mid _ _ _ hl.symm (bitsOf_length _ _).symm, ?_⟩
  rw [← List.append_assoc]
  exact pick_mid _ _ _ (by rw [List.length_append, hl, bitsOf_length]) (bitsOf_length _ _).symm

/-- One round opens whether the two rows are in order. -/
theorem roRound_run {lib : CmpLib} (hl : lib.Good) {c : RoCfg} {o cl W : List Bool} {base i : Nat} {rows : List RoEnt}
    (hr : RoRowsAt c base rows W) {p e : RoEnt} (hp : rows[i]? = some p) (he : rows[i + 1]? = some e) (fp : p.idx < 2 ^ (c.isz + 1) ∧ p.val < 2 ^ c.vsz) (fe : e.idx < 2 ^ (c.isz + 1) ∧ e.val < 2 ^ c.vsz) :
    ∃ t, (roRound lib c base i W.length).1.foldlM plainStep ⟨W, o, cl⟩ = some ⟨W ++ t, o ++ [roCond2 c p e], cl⟩ ∧
      (roRound lib c base i W.length).2 = (W ++ t).length := by
  obtain ⟨p1, p2⟩ := fp
  obtain ⟨e1, e2⟩ := fe
  obtain ⟨pv, pi⟩ := hr i p hp
  obtain ⟨qv, qi⟩ := hr (i + 1) e he
  obtain ⟨W1, t1, w1, r1, l1, v1⟩ := wrun_lt hl (o := o) (cl := cl) (W := W) (us := roIdxW c base i) (vs := roIdxW c base (i + 1))
    (w := c.isz + 1) (x := p.idx) (y := e.idx) rfl (by simp [roIdxW]) (by simp [roIdxW]) (by omega) pi qi (by omega) (by omega)
  set n1 := W.length + (lib.lt W.length (roIdxW c base i) (roIdxW c base (i + 1))).length with hn1
  obtain ⟨W2, t2, w2, r2, l2, v2⟩ := wrun_eq hl (o := o) (cl := cl) (W := W1) (n := n1) (us := roIdxW c base i) (vs := roIdxW c base (i + 1))
    (w := c.isz + 1) (x := p.idx) (y := e.idx) l1.symm (by simp [roIdxW])
    (by rw [w1]; exact pick_append _ pi) (by rw [w1]; exact pick_append _ qi) (by omega) (by omega)
  set n2 := n1 + (lib.eq n1 (roIdxW c base i) (roIdxW c base (i + 1))).length with hn2
  obtain ⟨W3, t3, w3, r3, l3, v3⟩ := wrun_eq hl (o := o) (cl := cl) (W := W2) (n := n2) (us := roValW c base i) (vs := roValW c base (i + 1))
    (w := c.vsz) (x := p.val) (y := e.val) l2.symm (by simp [roValW])
    (by rw [w2, w1, List.append_assoc]; exact pick_append _ pv) (by rw [w2, w1, List.append_assoc]; exact pick_append _ qv) p2 e2
  set n3 := n2 + (lib.eq n2 (roValW c base i) (roValW c base (i + 1))).length with hn3
  rw [l1] at v1
  rw [l2] at v2
  rw [l3] at v3
  have a2 : W3[n2 - 1]? = some (p.idx == e.idx) := by rw [w3]; exact getElem?_app v2 _
  have a1 : W3[n1 - 1]? = some (ltW (c.isz + 1) p.idx e.idx) := by rw [w3, w2, List.append_assoc]; exact getElem?_app v1 _
  have r4 := wrun_and (o := o) (cl := cl) a2 v3
  set y4 := (p.idx == e.idx && p.val == e.val) with hy4
  have b4 : (W3 ++ [y4])[n3]? = some y4 := by rw [← l3]; exact List.getElem?_concat_length
  have r5 := wrun_or (o := o) (cl := cl) (W := W3 ++ [y4]) (n := n3 + 1) (by simp [l3]) (getElem?_app a1 [y4]) b4
  set z1 := (ltW (c.isz + 1) p.idx e.idx || y4) with hz1
  set W5 := W3 ++ [y4] ++ [ltW (c.isz + 1) p.idx e.idx ^^ y4, ltW (c.isz + 1) p.idx e.idx && y4, z1] with hW5
  have l5 : W5.length = n3 + 4 := by simp [hW5, l3]
  have b5 : W5[n3 + 3]? = some z1 := by
    have ee : W5 = (W3 ++ [y4] ++ [ltW (c.isz + 1) p.idx e.idx ^^ y4, ltW (c.isz + 1) p.idx e.idx && y4]) ++ [z1] := by simp [hW5]
    rw [ee]
    have ee2 : n3 + 3 = (W3 ++ [y4] ++ [ltW (c.isz + 1) p.idx e.idx ^^ y4, ltW (c.isz + 1) p.idx e.idx && y4]).length := by simp [l3]
    rw [ee2, List.getElem?_concat_length]
  have x5 : W5 = W ++ (t1 ++ (t2 ++ (t3 ++ ([y4] ++ [ltW (c.isz + 1) p.idx e.idx ^^ y4, ltW (c.isz + 1) p.idx e.idx && y4, z1])))) := by
    rw [hW5, w3, w2, w1]; simp only [List.append_assoc]
  refine ⟨_, ?_, by rw [← x5, l5]; rfl⟩
  rw [← x5]
  have hrun : WRun o cl W (lib.lt W.length (roIdxW c base i) (roIdxW c base (i + 1)) ++ (lib.eq n1 (roIdxW c base i) (roIdxW c base (i + 1)) ++
      (lib.eq n2 (roValW c base i) (roValW c base (i + 1)) ++ ([BOp.and (n2 - 1) (n3 - 1)] ++ orOps (n3 + 1) (n1 - 1) n3)))) W5 :=
    r1.trans (r2.trans (r3.trans (r4.trans r5)))
  have hops : (roRound lib c base i W.length).1 = (lib.lt W.length (roIdxW c base i) (roIdxW c base (i + 1)) ++
      (lib.eq n1 (roIdxW c base i) (roIdxW c base (i + 1)) ++ (lib.eq n2 (roValW c base i) (roValW c base (i + 1)) ++
        ([BOp.and (n2 - 1) (n3 - 1)] ++ orOps (n3 + 1) (n1 - 1) n3)))) ++ [BOp.reveal (n3 + 3)] := by
    simp only [roRound, List.append_assoc, List.cons_append, List.nil_append, ← hn1, ← hn2, ← hn3]
  unfold WRun at hrun
  rw [hops, List.foldlM_append, hrun]
  simp only [Option.bind_eq_bind, Option.bind_some, List.foldlM_cons, List.foldlM_nil, plainStep, b5]
  simp only [roCond2, hz1, hy4]
  rfl

theorem RoEnt.Fits.wide' {c : RoCfg} {e : RoEnt} (h : e.Fits c) : e.idx < 2 ^ (c.isz + 1) ∧ e.val < 2 ^ c.vsz :=
  ⟨lt_of_lt_of_le h.1 (Nat.pow_le_pow_right (by decide) (by omega)), h.2⟩

/-- All rounds. -/
theorem roRounds_run {lib : CmpLib} (hl : lib.Good) {c : RoCfg} {cl : List Bool} {base : Nat} {rows : List RoEnt} (hf : ∀ e ∈ rows, e.Fits c)
    (is : List Nat) : ∀ {o W : List Bool}, RoRowsAt c base rows W →
    (∀ i ∈ is, ∃ p e, rows[i]? = some p ∧ rows[i + 1]? = some e ∧ roCond2 c p e = true) →
    ∃ t, (roRounds lib c base is W.length).foldlM plainStep ⟨W, o, cl⟩ = some ⟨W ++ t, o ++ List.replicate is.length true, cl⟩ := by
  induction is with
  | nil => intro o W _ _; exact ⟨[], by simp [roRounds]⟩
  | cons i is ih =>
    intro o W hr hi
    obtain ⟨p, e, hp, he, hc⟩ := hi i (by simp)
    obtain ⟨t, h1, h2⟩ := roRound_run hl (o := o) (cl := cl) hr hp he (hf _ (List.mem_of_getElem? hp)).wide' (hf _ (List.mem_of_getElem? he)).wide'
    obtain ⟨t2, h3⟩ := ih (o := o ++ [roCond2 c p e]) (hr.app t) (fun j hj => hi j (by simp [hj]))
    refine ⟨t ++ t2, ?_⟩
    rw [roRounds, h2, List.foldlM_append, h1]
    simp only [Option.bind_eq_bind, Option.bind_some]
    rw [h3, hc]
    simp [List.replicate_succ]

theorem roCond_pairs {c : RoCfg} {rows : List RoEnt} (h : roCond c rows = true) : ∀ i, i + 1 < rows.length →
    ∃ p e, rows[i]? = some p ∧ rows[i + 1]? = some e ∧ roCond2 c p e = true := by
  induction rows with
  | nil => intro i hi; simp at hi
  | cons p rows ih =>
    cases rows with
    | nil => intro i hi; simp at hi
    | cons e l =>
      rw [roCond, Bool.and_eq_true] at h
      intro i hi
      cases i with
      | zero => exact ⟨p, e, rfl, rfl, h.1⟩
      | succ i =>
        simp only [List.length_cons] at hi
        exact ih h.2 i (by simp only [List.length_cons]; omega)

section
variable {F : Type} [Field F] [BlockField F]

theorem packList_roRow {c : RoCfg} (hc : c.Ok) (e : RoEnt) :
    (packList (bitsOf c.vsz e.val ++ bitsOf c.isz e.idx) : F) = wordF (roPacked c e) := by
  rw [wordF_roPacked hc, packList_eq, List.map_append, innFrom_append]
  simp only [bitsOf, List.map_map, List.length_map, List.length_range]
  rw [innFrom_map, innFrom_map]
  simp only [Function.comp_apply, Nat.zero_add]

variable [DecidableEq F]

/-- Packing the wires of a row. -/
theorem mplain_roPack {c : RoCfg} (hc : c.Ok) {s : MPlain F} {ix vs : List Nat} {ib vb : List Bool}
    (hi : pick s.bp.wires ix = some ib) (hv : pick s.bp.wires vs = some vb) (li : c.isz ≤ ix.length) (lv : c.vsz ≤ vs.length) (ch : Nat → F) :
    mplainStep ch s (.pack (vs.take c.vsz ++ ix.take c.isz)) = some { s with fs := s.fs ++ [wordF (roPacked c ⟨bitsNum ib, bitsNum vb⟩)] } := by
  have h1 := pick_length hi
  have h2 := pick_length hv
  obtain ⟨c1, c2⟩ := hc
  simp only [mplainStep, pick_append_idx (pick_take _ hv) (pick_take _ hi), Option.bind_eq_bind, Option.bind_some]
  rw [if_pos (by simp only [List.length_append, List.length_take]; omega), take_bitsNum (by omega), take_bitsNum (by omega),
    ← packList_roRow ⟨c1, c2⟩]

/-- The sorted rows. -/
theorem roRowsOps_run {c : RoCfg} (hc : c.Ok) {n : Nat} (es : List RoEnt) : ∀ (k : Nat), (∀ e ∈ es, e.idx < 2 ^ (c.isz + 1) ∧ e.val < 2 ^ c.vsz) →
    ∃ ops, roRowsOps c n k es = some ops ∧ ∀ (ch : Nat → F) (s : MPlain F), s.bp.wires.length = n + k * roW c →
      mplainOps ch s ops = some ⟨{ s.bp with wires := s.bp.wires ++ es.flatMap (roRowBits c) }, s.fs ++ es.map (fun e => wordF (roPacked c e)), s.rs⟩ := by
  induction es with
  | nil => intro k _; exact ⟨[], rfl, fun ch s _ => by simp [mplainOps]⟩
  | cons e es ih =>
    intro k hf
    obtain ⟨ops, h1, h2⟩ := ih (k + 1) (fun e he => hf e (by simp [he]))
    obtain ⟨f1, f2⟩ := hf e (by simp)
    have hpw : roPackWires c (roIdxW c n k) (roValW c n k) = some ((roValW c n k).take c.vsz ++ (roIdxW c n k).take c.isz) := by
      rw [roPackWires, if_pos ⟨by simp [roIdxW], by simp [roValW]⟩]
    refine ⟨_, by simp only [roRowsOps, hpw, h1, Option.bind_eq_bind, Option.bind_some]; rfl, fun ch s hs => ?_⟩
    rw [mplainOps_append, mplain_inInt, Option.bind_some, mplainOps_append, mplain_inInt, Option.bind_some, mplainOps_cons]
    have hp := mplain_roPack hc (s := (⟨{ s.bp with wires := s.bp.wires ++ bitsOf c.vsz e.val ++ bitsOf (c.isz + 1) e.idx }, s.fs, s.rs⟩ : MPlain F))
      (ix := roIdxW c n k) (vs := roValW c n k) (ib := bitsOf (c.isz + 1) e.idx) (vb := bitsOf c.vsz e.val)
      (by
        have := pick_mid (s.bp.wires ++ bitsOf c.vsz e.val) (bitsOf (c.isz + 1) e.idx) [] (n := n + k * roW c + c.vsz) (k := c.isz + 1)
          (by rw [List.length_append, bitsOf_length, hs]) (bitsOf_length _ _).symm
        rw [List.append_nil] at this
        exact this)
      (by
        show pick (s.bp.wires ++ bitsOf c.vsz e.val ++ bitsOf (c.isz + 1) e.idx) _ = _
        rw [List.append_assoc]
        exact pick_mid _ _ _ hs.symm (bitsOf_length _ _).symm)
      (by simp [roIdxW]) (by simp [roValW]) ch
    simp only at hp
    rw [hp, Option.bind_some, h2]
    · rw [bitsNum_bitsOf, bitsNum_bitsOf, Nat.mod_eq_of_lt f2, Nat.mod_eq_of_lt f1]
      simp only [List.append_assoc, List.flatMap_cons, roRowBits, List.map_cons, List.cons_append, List.nil_append]
    · simp only [List.length_append, bitsOf_length, hs, roW]; ring

/-! ### the products -/

theorem mplainStep_accLast (ch : Nat → F) (s : MPlain F) (o : MOp) : mplainStep ch s o.accLast = mplainStep ch s o := by
  cases o <;> try rfl
  rename_i is
  cases is with
  | nil => rfl
  | cons a l =>
    simp only [MOp.accLast, mplainStep, Option.bind_eq_bind]
    rw [pick_app, pick_cons, pick_cons, pick_nil]
    cases s.fs[a]? with
    | none => cases pick s.fs l <;> rfl
    | some x =>
      cases pick s.fs l with
      | none => rfl
      | some xs =>
        simp only [Option.bind_some, Option.map_some, List.length_append, List.length_cons, List.length_nil, List.prod_append, List.prod_cons,
          List.prod_nil, mul_one, Nat.zero_add, mul_comm]

theorem mplainOps_accLast (ch : Nat → F) (ops : List MOp) : ∀ s : MPlain F, mplainOps ch s (ops.map MOp.accLast) = mplainOps ch s ops := by
  induction ops with
  | nil => intro s; rfl
  | cons o ops ih =>
    intro s
    rw [List.map_cons, mplainOps_cons, mplainOps_cons, mplainStep_accLast]
    congr 1
    funext s'
    exact ih s'

theorem mplainStep_makes (ch : Nat → F) {s s' : MPlain F} {o : MOp} (h : mplainStep ch s o = some s') :
    s'.fs.length = s.fs.length + (if o.makes then 1 else 0) := by
  cases o <;> simp only [mplainStep, Option.bind_eq_bind, Option.bind_eq_some_iff, Option.map_eq_some_iff, Option.some.injEq] at h
  case bool => obtain ⟨b, _, rfl⟩ := h; rfl
  case pack =>
    obtain ⟨b, _, h⟩ := h
    split at h
    · cases h; simp [MOp.makes]
    · cases h
  case chal => subst h; rfl
  case addc => obtain ⟨a, _, b, _, rfl⟩ := h; simp [MOp.makes]
  case mul => obtain ⟨a, _, b, _, rfl⟩ := h; simp [MOp.makes]
  case mulN =>
    obtain ⟨b, _, h⟩ := h
    split at h
    · cases h; simp [MOp.makes]
    · cases h
  case eq =>
    obtain ⟨a, _, b, _, h⟩ := h
    split at h
    · cases h; rfl
    · cases h
  case sync => subst h; rfl
  case packAt => obtain ⟨a, _, rfl⟩ := h; simp [MOp.makes]
  case chals => subst h; rfl
  case lin => obtain ⟨a, _, rfl⟩ := h; simp [MOp.makes]

theorem mplainOps_makes (ch : Nat → F) (ops : List MOp) : ∀ {s s' : MPlain F}, mplainOps ch s ops = some s' →
    s'.fs.length = s.fs.length + ops.countP MOp.makes := by
  induction ops with
  | nil => intro s s' h; simp only [mplainOps, List.foldlM_nil] at h; cases h; simp
  | cons o ops ih =>
    intro s s' h
    rw [mplainOps_cons, Option.bind_eq_some_iff] at h
    obtain ⟨s1, h1, h2⟩ := h
    rw [ih h2, mplainStep_makes ch h1, List.countP_cons]
    omega

omit [Field F] [BlockField F] [DecidableEq F] in
theorem chainOps_some (xs : List Nat) (k : Nat) (gs : List (List Nat)) : ∀ (n acc : Nat), (∀ i ∈ gs.flatten, i < xs.length) →
    ∃ r, chainOps xs k n acc gs = some r := by
  induction gs with
  | nil => intro n acc _; exact ⟨_, rfl⟩
  | cons g gs ih =>
    intro n acc hi
    obtain ⟨ws, hw, _⟩ := pick_some xs g (fun i h => hi i (by simp [h]))
    obtain ⟨r, hr⟩ := ih (n + g.length + 1) (n + g.length) (fun i h => hi i (by rw [List.flatten_cons]; exact List.mem_append_right _ h))
    exact ⟨_, by simp only [chainOps, hw, hr, Option.bind_eq_bind, Option.bind_some]; rfl⟩

omit [Field F] [BlockField F] [DecidableEq F] in
theorem setEqOps_some {n k step : Nat} {as bs : List Nat} (hsa : as.length = step) (hsb : bs.length = step) (h3 : 3 ≤ step) (h64 : step < 2 ^ 64) :
    ∃ ops, setEqOps n k step as bs = some ops := by
  obtain ⟨gs, hgs, hfl, _⟩ := bchGroups_eq (w := 4) (n := step) (by decide) (by omega) (by omega) h64
  have hin : ∀ i ∈ gs.flatten, i < step := by
    intro i hi
    rw [hfl] at hi
    have := List.mem_range'_1.1 hi
    omega
  obtain ⟨r1, h1⟩ := chainOps_some as k gs (n + 1) n (by rw [hsa]; exact hin)
  obtain ⟨r2, h2⟩ := chainOps_some bs k gs (r1.2.1 + 1) r1.2.1 (by rw [hsb]; exact hin)
  have ha : as[0]? = some (as[0]'(by omega)) := List.getElem?_eq_getElem _
  have hb : bs[0]? = some (bs[0]'(by omega)) := List.getElem?_eq_getElem _
  exact ⟨_, by simp only [setEqOps, hsa, hsb, hgs, ha, hb, h1, h2, Option.bind_eq_bind, Option.bind_some]; rfl⟩

end
end EmpZk
