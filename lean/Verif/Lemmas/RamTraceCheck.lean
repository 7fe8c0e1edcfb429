/-
The check of a memory with rows the prover chooses.
-/
import Verif.Lemmas.RamTrace
import Verif.Lemmas.EmpLib
import Verif.Lemmas.ArithBatch

namespace EmpZk

theorem empEqOps_noIn (l : List (Nat × Nat)) : ∀ n acc, ∀ o ∈ empEqOps n acc l, ∀ b, o ≠ .input b := by
  induction l with
  | nil => intro n acc o ho; cases ho
  | cons p l ih =>
    intro n acc o ho b
    simp only [empEqOps, List.mem_append, List.mem_cons, List.not_mem_nil, or_false] at ho
    rcases ho with (rfl | rfl | rfl) | ho
    · intro h; cases h
    · intro h; cases h
    · intro h; cases h
    · exact ih _ _ o ho b

theorem empSubOps_noIn (l : List (Nat × Nat)) : ∀ n br, ∀ o ∈ empSubOps n br l, ∀ b, o ≠ .input b := by
  induction l with
  | nil => intro n br o ho; cases ho
  | cons p l ih =>
    intro n br o ho b
    cases l with
    | nil =>
      simp only [empSubOps, List.mem_cons, List.not_mem_nil, or_false] at ho
      rcases ho with rfl | rfl | rfl | rfl <;> (intro h; cases h)
    | cons q l =>
      simp only [empSubOps, List.mem_append, List.mem_cons, List.not_mem_nil, or_false] at ho
      rcases ho with (rfl | rfl | rfl | rfl | rfl) | ho
      · intro h; cases h
      · intro h; cases h
      · intro h; cases h
      · intro h; cases h
      · intro h; cases h
      · exact ih _ _ o ho b

theorem empLib_noIn : empLib.NoIn where
  eq := by
    intro n us vs o ho b
    simp only [empLib, List.mem_cons] at ho
    rcases ho with rfl | ho
    · intro h; cases h
    · exact empEqOps_noIn _ _ _ o ho b
  lt := by
    intro n us vs o ho b
    simp only [empLib, List.mem_cons] at ho
    rcases ho with rfl | ho
    · intro h; cases h
    · exact empSubOps_noIn _ _ _ o ho b

theorem orOps_noIn (n a b : Nat) : ∀ o ∈ orOps n a b, ∀ x, o ≠ .input x := by
  intro o ho x
  simp only [orOps, List.mem_cons, List.not_mem_nil, or_false] at ho
  rcases ho with rfl | rfl | rfl <;> (intro h; cases h)

theorem condRound_noIn {lib : CmpLib} (hn : lib.NoIn) (c : RamCfg) (base i n cw : Nat) : ∀ o ∈ (condRound lib c base i n cw).1, ∀ x, o ≠ .input x := by
  intro o ho x
  simp only [condRound, List.mem_append, List.mem_cons, List.not_mem_nil, or_false] at ho
  rcases ho with ho | ho | ho | rfl | ho | rfl | ho | ho | rfl | ho | rfl
  · exact hn.eq _ _ _ o ho x
  · exact hn.lt _ _ _ o ho x
  · exact hn.lt _ _ _ o ho x
  · intro h; cases h
  · exact orOps_noIn _ _ _ o ho x
  · intro h; cases h
  · exact hn.eq _ _ _ o ho x
  · exact orOps_noIn _ _ _ o ho x
  · intro h; cases h
  · exact orOps_noIn _ _ _ o ho x
  · intro h; cases h

theorem condRounds_noIn {lib : CmpLib} (hn : lib.NoIn) (c : RamCfg) (base : Nat) (is : List Nat) : ∀ n cw, ∀ o ∈ (condRounds lib c base is n cw).1, ∀ x, o ≠ .input x := by
  induction is with
  | nil => intro n cw o ho; cases ho
  | cons i is ih =>
    intro n cw o ho x
    simp only [condRounds, List.mem_append] at ho
    rcases ho with ho | ho
    · exact condRound_noIn hn _ _ _ _ _ o ho x
    · exact ih _ _ o ho x

/-! ### the comparison of the products -/

theorem chainOps_kinds (xs : List Nat) (k : Nat) (gs : List (List Nat)) : ∀ {n acc : Nat} {r : List MOp × Nat × Nat},
    (∀ g ∈ gs, g.length = 4 ∨ g.length = 1) → chainOps xs k n acc gs = some r →
    ∀ o ∈ r.1, o.noIn = true ∧ ∀ is, o = .mulN is → is.length = 5 := by
  induction gs with
  | nil => intro n acc r _ h; rw [chainOps, Option.some.injEq] at h; subst h; intro o ho; cases ho
  | cons g gs ih =>
    intro n acc r hg h
    simp only [chainOps, Option.bind_eq_bind, Option.bind_eq_some_iff, Option.some.injEq] at h
    obtain ⟨ws, _, q, hq, rfl⟩ := h
    intro o ho
    rw [List.mem_append, List.mem_cons] at ho
    rcases ho with ho | rfl | ho
    · obtain ⟨i, _, rfl⟩ := List.mem_map.1 ho
      exact ⟨rfl, fun is h => by cases h⟩
    · split
      · exact ⟨rfl, fun is h => by cases h⟩
      · rename_i hne
        refine ⟨rfl, fun is h => ?_⟩
        have h4 := hg g (by simp)
        cases h
        simp only [List.length_cons, List.length_range']
        omega
    · exact ih (fun x hx => hg x (by simp [hx])) hq o ho

theorem setEqOps_kinds {n k step : Nat} {as bs : List Nat} {ops : List MOp} (hsa : as.length = step) (hsb : bs.length = step) (h3 : 3 ≤ step)
    (h64 : step < 2 ^ 64) (h : setEqOps n k step as bs = some ops) : ∀ o ∈ ops, o.noIn = true ∧ ∀ is, o = .mulN is → is.length = 5 := by
  simp only [setEqOps, Option.bind_eq_bind, Option.bind_eq_some_iff, Option.some.injEq, hsa, hsb] at h
  obtain ⟨ga, hga, gb, hgb, a0, _, b0, _, q1, hq1, q2, hq2, rfl⟩ := h
  obtain ⟨gs, hgs, _, hlen⟩ := bchGroups_eq (w := 4) (n := step) (by decide) (by omega) (by omega) h64
  rw [hgs, Option.some.injEq] at hga hgb
  subst hga hgb
  intro o ho
  simp only [List.mem_cons, List.mem_append, List.not_mem_nil, or_false] at ho
  rcases ho with rfl | rfl | ho | rfl | ho | rfl
  · exact ⟨rfl, fun is h => by cases h⟩
  · exact ⟨rfl, fun is h => by cases h⟩
  · exact chainOps_kinds _ _ _ hlen hq1 o ho
  · exact ⟨rfl, fun is h => by cases h⟩
  · exact chainOps_kinds _ _ _ hlen hq2 o ho
  · exact ⟨rfl, fun is h => by cases h⟩

/-! ### rows from bits -/

theorem rows_of_bits (c : RamCfg) (m : Nat) : ∀ (bs : List Bool), bs.length = m * rowW c →
    ∃ rows : List RamEnt, rows.length = m ∧ rows.flatMap (rowBits c) = bs ∧ ∀ e ∈ rows, e.Wide c := by
  induction m with
  | zero =>
    intro bs h
    rw [Nat.zero_mul] at h
    exact ⟨[], rfl, (List.eq_nil_of_length_eq_zero h).symm, fun e he => by cases he⟩
  | succ m ih =>
    intro bs h
    have hw : rowW c = c.vsz + (1 + (c.ssz + (c.isz + 1))) := rfl
    rw [Nat.succ_mul] at h
    obtain ⟨rows, r1, r2, r3⟩ := ih (bs.drop (rowW c)) (by rw [List.length_drop, h]; omega)
    have full : ∀ l : List Bool, ∀ k, l.length = k → l = bitsOf k (bitsNum l) := by
      intro l k hk
      rw [← take_bitsNum (by omega), List.take_of_length_le (by omega)]
    set A := bs.take c.vsz with hA
    set B := bs.drop c.vsz with hB
    have lA : A.length = c.vsz := by rw [hA, List.length_take]; omega
    have lB : B.length = m * rowW c + (1 + (c.ssz + (c.isz + 1))) := by rw [hB, List.length_drop, h]; omega
    obtain ⟨o, B', hB'⟩ : ∃ o B', B = o :: B' := List.exists_cons_of_length_pos (by omega)
    have lB' : B'.length = m * rowW c + (c.ssz + (c.isz + 1)) := by rw [hB'] at lB; simp only [List.length_cons] at lB; omega
    set S := B'.take c.ssz with hS
    set I := (B'.drop c.ssz).take (c.isz + 1) with hI
    have lS : S.length = c.ssz := by rw [hS, List.length_take]; omega
    have lI : I.length = c.isz + 1 := by rw [hI, List.length_take, List.length_drop]; omega
    have hsplit : bs = A ++ (o :: (S ++ (I ++ bs.drop (rowW c)))) := by
      have e1 : bs = A ++ B := (List.take_append_drop _ _).symm
      have e2 : B' = S ++ B'.drop c.ssz := (List.take_append_drop _ _).symm
      have e3 : B'.drop c.ssz = I ++ (B'.drop c.ssz).drop (c.isz + 1) := (List.take_append_drop _ _).symm
      have e4 : (B'.drop c.ssz).drop (c.isz + 1) = bs.drop (rowW c) := by
        have : B' = B.drop 1 := by rw [hB']; rfl
        rw [this, hB, List.drop_drop, List.drop_drop, List.drop_drop, hw]
      rw [← e4, ← e3, ← e2, ← hB', ← e1]
    refine ⟨⟨bitsNum I, bitsNum S, o, bitsNum A⟩ :: rows, by rw [List.length_cons, r1], ?_, ?_⟩
    · rw [List.flatMap_cons, r2, rowBits]
      simp only []
      rw [← full A _ lA, ← full S _ lS, ← full I _ lI]
      conv_rhs => rw [hsplit]
      simp only [List.append_assoc, List.cons_append]
    · intro e he
      rcases List.mem_cons.1 he with rfl | he
      · exact ⟨lI ▸ bitsNum_lt I, lS ▸ bitsNum_lt S, lA ▸ bitsNum_lt A⟩
      · exact r3 e he

/-! ### the whole check -/

section
variable {F : Type} [Field F] [BlockField F] [DecidableEq F]

/-- The instructions of a check are the bits of the rows, then instructions without inputs; with any rows, the check goes through exactly when
the products agree at the challenge, and it reveals the condition of the rows. -/
theorem csim_check {lib : CmpLib} (hl : lib.Good) (hno : lib.NoIn) {c : RamCfg} (hc : c.Ok) {g : RNet} {u : UPlain} {s : MPlain F} (h : CSim c g u s)
    (h3 : 3 ≤ u.log.length) (hlen : u.log.length ≤ 2 ^ (c.ssz - 1)) {ops : List MOp} (hgen : checkGen lib c g = some ops) :
    ∃ (bits : List Bool) (rest : List MOp), bits.length = u.log.length * rowW c ∧ ops = (bits.map BOp.input).map MOp.bool ++ rest ∧
      (∀ o ∈ rest, o.noIn = true ∧ ∀ is, o = .mulN is → is.length = 5) ∧
      ∀ rows : List RamEnt, rows.length = u.log.length → (∀ e ∈ rows, e.Wide c) → ∃ t, ∀ ch : Nat → F, ∃ fs',
        mplainOps ch s (((rows.flatMap (rowBits c)).map BOp.input).map MOp.bool ++ rest) =
          if prodAt (ch 0) (rows.map (fun e => wordF (ramPacked c e))) = prodAt (ch 0) ((rowsOfLog u.log).map (fun e => wordF (ramPacked c e))) then
            some ⟨⟨u.bp.wires ++ (rows.flatMap (rowBits c) ++ t), u.bp.outs ++ [ramCond c rows], u.bp.claims⟩,
              (rowsOfLog u.log).map (fun e => wordF (ramPacked c e)) ++ (rows.map (fun e => wordF (ramPacked c e)) ++ fs'), [ch 0]⟩
          else none := by
  have hss : 1 ≤ c.ssz := by
    by_contra h0
    have : c.ssz - 1 = 0 := by omega
    rw [this] at hlen
    omega
  have h64 : u.log.length < 2 ^ 64 := by
    obtain ⟨hc1, hc2, hc3⟩ := hc
    have : 2 ^ (c.ssz - 1) < 2 ^ 64 := Nat.pow_lt_pow_right (by decide) (by omega)
    omega
  have hn : g.bits.length = s.bp.wires.length := by rw [h.bits, h.bp]
  simp only [checkGen, Option.bind_eq_bind, Option.bind_eq_some_iff, Option.some.injEq, Prod.exists, h.step] at hgen
  obtain ⟨st', chk, hchk, ps, hps, se, hse, rfl⟩ := hgen
  have hcl : chk.rows.length = u.log.length := by
    simp only [ramCheck, Option.bind_eq_bind, Option.bind_eq_some_iff, Option.some.injEq, Prod.mk.injEq] at hchk
    obtain ⟨rows, hr, _, _, _, rfl⟩ := hchk
    have := mapM_opt_length hr
    simpa [h.step] using this
  have hmacl : g.macs.length = u.log.length := by rw [h.macs, List.length_range]
  refine ⟨chk.rows.flatMap (rowBits c), _, by rw [flatMap_rowBits_length, hcl], by rw [List.map_map]; rfl, ?_, ?_⟩
  · intro o ho
    rw [List.mem_cons, List.mem_append, List.mem_cons, List.mem_cons, List.mem_append] at ho
    rcases ho with rfl | ho | rfl | rfl | ho | ho
    · exact ⟨rfl, fun is h => by cases h⟩
    · obtain ⟨b, hb, rfl⟩ := List.mem_map.1 ho
      refine ⟨?_, fun is h => by cases h⟩
      have := condRounds_noIn hno _ _ _ _ _ b hb
      cases b with
      | input x => exact absurd rfl (this x)
      | _ => rfl
    · exact ⟨rfl, fun is h => by cases h⟩
    · exact ⟨rfl, fun is h => by cases h⟩
    · obtain ⟨b, hb, rfl⟩ := List.mem_map.1 ho
      exact ⟨rfl, fun is h => by cases h⟩
    · exact setEqOps_kinds (by simp) hmacl h3 h64 hse o ho
  · intro rows hrl hfit
    set W1 := s.bp.wires ++ rows.flatMap (rowBits c) with hW1
    have lW1 : W1.length = g.bits.length + u.log.length * rowW c := by rw [hW1, List.length_append, flatMap_rowBits_length, hrl, hn]
    have hrows : RowsAt c g.bits.length rows W1 := by rw [hn]; exact rowsAt_flatMap _ _ _
    obtain ⟨W2, t2, w2, r2, v2⟩ := wrun_rounds hl hss (o := s.bp.outs) (cl := s.bp.claims) (base := g.bits.length) hfit (List.range (u.log.length - 1))
      (W := W1 ++ [true]) (cw := g.bits.length + u.log.length * rowW c) (x := true) (hrows.app _)
      (by intro i hi; rw [List.mem_range] at hi; omega) (by rw [← lW1]; exact List.getElem?_concat_length)
    rw [Bool.true_and, ← hrl, ← ramCond_pairs, hrl] at v2
    have lW1' : (W1 ++ [true]).length = g.bits.length + u.log.length * rowW c + 1 := by rw [List.length_append, lW1]; rfl
    rw [lW1'] at r2 v2
    set q := condRounds lib c g.bits.length (List.range (u.log.length - 1)) (g.bits.length + u.log.length * rowW c + 1) (g.bits.length + u.log.length * rowW c)
      with hq
    obtain ⟨es, ps', p1, p2, p3⟩ := mplain_packs hc (n := g.bits.length) hfit (List.range u.log.length)
      (s := (⟨⟨W2, s.bp.outs ++ [ramCond c rows], s.bp.claims⟩, s.fs, s.rs⟩ : MPlain F))
      (by show RowsAt _ _ _ W2; rw [w2]; exact (hrows.app _).app _) (by intro k hk; rw [List.mem_range] at hk; omega)
    rw [hps, Option.some.injEq] at p2
    subst p2
    have hes : es = rows := by
      have := pick_range' [] rows
      rw [List.nil_append, List.length_nil, ← List.range_eq_range', hrl, p1, Option.some.injEq] at this
      exact this
    subst hes
    have hset := fun ch => mplain_setEq ch (s := (⟨⟨W2, s.bp.outs ++ [ramCond c es], s.bp.claims⟩, s.fs ++ es.map (fun e => wordF (ramPacked c e)), s.rs⟩
      : MPlain F)) (as := List.range' g.nf u.log.length) (bs := g.macs) (us := es.map (fun e => wordF (ramPacked c e)))
      (vs := (rowsOfLog u.log).map (fun e => wordF (ramPacked c e))) (step := u.log.length)
      (by
        have := pick_range' s.fs (es.map (fun e => (wordF (ramPacked c e) : F)))
        rw [List.length_map, hrl, h.fs, List.length_map, rowsOfLog_length] at this
        rw [h.fs, h.nf]
        exact this)
      (by
        rw [h.fs, h.macs]
        have := pick_range' ([] : List F) ((rowsOfLog u.log).map (fun e => wordF (ramPacked c e)))
        rw [List.nil_append, List.length_nil, List.length_map, rowsOfLog_length, ← List.range_eq_range'] at this
        exact pick_append _ this) (by simp) hmacl h3 h64
    refine ⟨[true] ++ t2, fun ch => ?_⟩
    obtain ⟨se', t', hse', hrun⟩ := hset ch
    simp only [List.length_append, List.length_map, hrl, h.rs, List.length_nil, h.fs, rowsOfLog_length] at hse'
    rw [h.nf] at hse hse'
    rw [hse', Option.some.injEq] at hse
    subst hse
    refine ⟨t', ?_⟩
    rw [mplainOps_append, mplain_bools, plain_inputs, Option.map_some, Option.bind_some, mplainOps_cons]
    simp only [mplainStep, plainStep, Option.map_some, Option.bind_some]
    rw [mplainOps_append, mplain_bools]
    have r2' : q.1.foldlM plainStep { wires := s.bp.wires ++ es.flatMap (rowBits c) ++ [true], outs := s.bp.outs, claims := s.bp.claims } = _ := r2
    rw [r2', Option.map_some, Option.bind_some, mplainOps_cons]
    simp only [mplainStep, plainStep, v2, Option.bind_eq_bind, Option.map_some, Option.bind_some]
    rw [mplainOps_cons]
    simp only [mplainStep, Option.bind_some]
    rw [mplainOps_append, p3, Option.bind_some, hrun]
    simp only [h.rs, List.nil_append, List.length_nil, h.bp, w2, hW1, List.append_assoc, h.fs]

/-- The other direction: replaced instructions of a check come from some rows. -/
theorem check_rows {c : RamCfg} {m : Nat} {bits : List Bool} {rest ops' : List MOp} (hb : bits.length = m * rowW c)
    (hrest : ∀ o ∈ rest, o.noIn = true) (hs : List.Forall₂ MOp.same ((bits.map BOp.input).map MOp.bool ++ rest) ops') :
    ∃ rows : List RamEnt, rows.length = m ∧ (∀ e ∈ rows, e.Wide c) ∧
      ops' = ((rows.flatMap (rowBits c)).map BOp.input).map MOp.bool ++ rest := by
  obtain ⟨a, b, rfl, h1, h2⟩ := same_split hs
  rw [same_eq h2 hrest]
  obtain ⟨k, rfl, hk⟩ := same_bools h1
  obtain ⟨ds, hd, rfl⟩ := same_inputs_bits hk
  obtain ⟨rows, r1, r2, r3⟩ := rows_of_bits c m ds (by omega)
  exact ⟨rows, r1, r3, by rw [r2]⟩

end
end EmpZk
