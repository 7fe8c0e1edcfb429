/-
The check of a memory of several words per cell, when the prover commits to any sorted rows.
-/
import Verif.Lemmas.ExtTrace

namespace EmpZk

theorem xValEq_noIn {lib : CmpLib} (hn : lib.NoIn) : ∀ (l : List (List Nat × List Nat)) (n acc : Nat), ∀ o ∈ (xValEq lib n acc l).1, ∀ x, o ≠ .input x := by
  intro l
  induction l with
  | nil => intro n acc o ho; cases ho
  | cons p l ih =>
    obtain ⟨a, b⟩ := p
    intro n acc o ho x
    simp only [xValEq, List.mem_append, List.mem_cons] at ho
    rcases ho with ho | rfl | ho
    · exact hn.eq _ _ _ o ho x
    · intro h; cases h
    · exact ih _ _ o ho x

theorem xRound_noIn {lib : CmpLib} (hn : lib.NoIn) {c : RxCfg} {base i n cw : Nat} {r : List BOp × Nat × Nat} (h : xRound lib c base i n cw = some r) :
    ∀ o ∈ r.1, ∀ x, o ≠ .input x := by
  simp only [xRound, Option.bind_eq_bind, Option.bind_eq_some_iff, Option.some.injEq] at h
  obtain ⟨u0, _, v0, _, rfl⟩ := h
  intro o ho x
  simp only [List.mem_append, List.mem_cons, List.not_mem_nil, or_false] at ho
  rcases ho with ho | rfl | ho | ho | ho | rfl | rfl | rfl | rfl | ho | rfl | ho | rfl
  · exact hn.eq _ _ _ o ho x
  · intro h; cases h
  · exact hn.lt _ _ _ o ho x
  · exact hn.eq _ _ _ o ho x
  · exact xValEq_noIn hn _ _ _ o ho x
  · intro h; cases h
  · intro h; cases h
  · intro h; cases h
  · intro h; cases h
  · exact orOps_noIn _ _ _ o ho x
  · intro h; cases h
  · exact orOps_noIn _ _ _ o ho x
  · intro h; cases h

theorem xRounds_noIn {lib : CmpLib} (hn : lib.NoIn) {c : RxCfg} {base : Nat} (is : List Nat) : ∀ {n cw : Nat} {r : List BOp × Nat},
    xRounds lib c base is n cw = some r → ∀ o ∈ r.1, ∀ x, o ≠ .input x := by
  induction is with
  | nil => intro n cw r h; simp only [xRounds, Option.some.injEq] at h; subst h; intro o ho; cases ho
  | cons i is ih =>
    intro n cw r h
    simp only [xRounds, Option.bind_eq_bind, Option.bind_eq_some_iff, Option.some.injEq] at h
    obtain ⟨a, h1, b, h2, rfl⟩ := h
    intro o ho x
    rcases List.mem_append.1 ho with ho | ho
    · exact xRound_noIn hn h1 o ho x
    · exact ih h2 o ho x

theorem mapM_some_mem {α β : Type} {f : α → Option β} : ∀ {l : List α} {r : List β} {y : β}, l.mapM f = some r → y ∈ r → ∃ x ∈ l, f x = some y := by
  intro l
  induction l with
  | nil => intro r y h hy; rw [List.mapM_nil] at h; cases h; cases hy
  | cons a l ih =>
    intro r y h hy
    rw [List.mapM_cons] at h
    simp only [Option.bind_eq_bind, Option.bind_eq_some_iff, Option.pure_def, Option.some.injEq] at h
    obtain ⟨b, h1, bs, h2, rfl⟩ := h
    rcases List.mem_cons.1 hy with rfl | hy
    · exact ⟨a, by simp, h1⟩
    · obtain ⟨x, hx, hf⟩ := ih h2 hy
      exact ⟨x, by simp [hx], hf⟩

/-! ### rows from bits -/

theorem words_of_bits (k : Nat) : ∀ (bs : List Bool), bs.length = 64 * k →
    ∃ vs : List Nat, vs.length = k ∧ vs.flatMap (bitsOf 64) = bs ∧ ∀ v ∈ vs, v < 2 ^ 64 := by
  induction k with
  | zero => intro bs h; exact ⟨[], rfl, (List.eq_nil_of_length_eq_zero (by omega)).symm, by simp⟩
  | succ k ih =>
    intro bs h
    obtain ⟨vs, h1, h2, h3⟩ := ih (bs.drop 64) (by rw [List.length_drop]; omega)
    have hl : (bs.take 64).length = 64 := by rw [List.length_take]; omega
    refine ⟨bitsNum (bs.take 64) :: vs, by simp [h1], ?_, ?_⟩
    · have full : bitsOf 64 (bitsNum (bs.take 64)) = bs.take 64 := by
        rw [← take_bitsNum (by omega), List.take_of_length_le (by omega)]
      rw [List.flatMap_cons, h2, full, List.take_append_drop]
    · intro v hv
      rcases List.mem_cons.1 hv with rfl | hv
      · have := bitsNum_lt (bs.take 64)
        rwa [hl] at this
      · exact h3 v hv

theorem xrows_of_bits (c : RxCfg) (m : Nat) : ∀ (bs : List Bool), bs.length = m * xRowW c →
    ∃ rows : List ExtEnt, rows.length = m ∧ rows.flatMap (xRowBits c) = bs ∧ ∀ e ∈ rows, e.FitsX c := by
  induction m with
  | zero =>
    intro bs h
    rw [Nat.zero_mul] at h
    exact ⟨[], rfl, (List.eq_nil_of_length_eq_zero h).symm, fun e he => by cases he⟩
  | succ m ih =>
    intro bs h
    have hw : xRowW c = 64 * c.words + (1 + (c.ssz + c.isz)) := rfl
    rw [Nat.succ_mul] at h
    obtain ⟨rows, r1, r2, r3⟩ := ih (bs.drop (xRowW c)) (by rw [List.length_drop, h]; omega)
    have full : ∀ l : List Bool, ∀ k, l.length = k → l = bitsOf k (bitsNum l) := by
      intro l k hk
      rw [← take_bitsNum (by omega), List.take_of_length_le (by omega)]
    set A := bs.take (64 * c.words) with hA
    set B := bs.drop (64 * c.words) with hB
    have lA : A.length = 64 * c.words := by rw [hA, List.length_take]; omega
    have lB : B.length = m * xRowW c + (1 + (c.ssz + c.isz)) := by rw [hB, List.length_drop, h]; omega
    obtain ⟨o, B', hB'⟩ : ∃ o B', B = o :: B' := List.exists_cons_of_length_pos (by omega)
    have lB' : B'.length = m * xRowW c + (c.ssz + c.isz) := by rw [hB'] at lB; simp only [List.length_cons] at lB; omega
    set S := B'.take c.ssz with hS
    set I := (B'.drop c.ssz).take c.isz with hI
    have lS : S.length = c.ssz := by rw [hS, List.length_take]; omega
    have lI : I.length = c.isz := by rw [hI, List.length_take, List.length_drop]; omega
    have hsplit : bs = A ++ (o :: (S ++ (I ++ bs.drop (xRowW c)))) := by
      have e1 : bs = A ++ B := (List.take_append_drop _ _).symm
      have e2 : B' = S ++ B'.drop c.ssz := (List.take_append_drop _ _).symm
      have e3 : B'.drop c.ssz = I ++ (B'.drop c.ssz).drop c.isz := (List.take_append_drop _ _).symm
      have e4 : (B'.drop c.ssz).drop c.isz = bs.drop (xRowW c) := by
        have : B' = B.drop 1 := by rw [hB']; rfl
        rw [this, hB, List.drop_drop, List.drop_drop, List.drop_drop, hw]
      rw [← e4, ← e3, ← e2, ← hB', ← e1]
    obtain ⟨vs, v1, v2, v3⟩ := words_of_bits c.words A lA
    refine ⟨⟨bitsNum I, bitsNum S, o, vs⟩ :: rows, by rw [List.length_cons, r1], ?_, ?_⟩
    · rw [List.flatMap_cons, r2, xRowBits]
      simp only []
      rw [v2, ← full S _ lS, ← full I _ lI]
      conv_rhs => rw [hsplit]
      simp only [List.append_assoc, List.cons_append]
    · intro e he
      rcases List.mem_cons.1 he with rfl | he
      · exact ⟨lI ▸ bitsNum_lt I, lS ▸ bitsNum_lt S, v1, v3⟩
      · exact r3 e he

/-- Replaced instructions of a check come from some rows. -/
theorem xcheck_rows {c : RxCfg} {m : Nat} {bits : List Bool} {rest ops' : List MOp} (hb : bits.length = m * xRowW c)
    (hrest : ∀ o ∈ rest, o.noIn = true) (hs : List.Forall₂ MOp.same ((bits.map BOp.input).map MOp.bool ++ rest) ops') :
    ∃ rows : List ExtEnt, rows.length = m ∧ (∀ e ∈ rows, e.FitsX c) ∧
      ops' = ((rows.flatMap (xRowBits c)).map BOp.input).map MOp.bool ++ rest := by
  obtain ⟨a, b, rfl, h1, h2⟩ := same_split hs
  rw [same_eq h2 hrest]
  obtain ⟨k, rfl, hk⟩ := same_bools h1
  obtain ⟨ds, hd, rfl⟩ := same_inputs_bits hk
  obtain ⟨rows, r1, r2, r3⟩ := xrows_of_bits c m ds (by omega)
  exact ⟨rows, r1, r3, by rw [r2]⟩

theorem extUnpackLoop_length {row : List Nat} {n : Nat} (h2 : 2 ≤ n) (hn : n < 2 ^ 64) : ∀ (fuel j : Nat) {vs : List Nat}, j % 2 = 1 →
    extUnpackLoop row n (n % 2 == 0) fuel j = some vs → vs.length = n - j := by
  have hN : (n + 2 ^ 64 - 2) % 2 ^ 64 = n - 2 := by omega
  intro fuel
  induction fuel with
  | zero => intro j vs _ h; cases h
  | succ fuel ih =>
    intro j vs hj h
    rw [extUnpackLoop, hN] at h
    by_cases hlt : j < n - 2
    · rw [if_pos hlt] at h
      simp only [Option.bind_eq_bind, Option.bind_eq_some_iff] at h
      obtain ⟨w, _, h⟩ := h
      rw [if_pos (by omega)] at h
      simp only [Option.bind_eq_some_iff, Option.some.injEq] at h
      obtain ⟨rest, hr, rfl⟩ := h
      have := ih (j + 2) (by omega) hr
      simp only [List.length_cons, this]
      omega
    · rw [if_neg hlt] at h
      simp only [Option.bind_eq_bind, Option.bind_eq_some_iff] at h
      obtain ⟨w, _, h⟩ := h
      by_cases hd : n % 2 = 0
      · rw [if_pos (by simp [hd])] at h
        by_cases hjn : j < n
        · rw [if_pos hjn, Option.some.injEq] at h
          subst h
          simp only [List.length_singleton]; omega
        · rw [if_neg hjn] at h; cases h
      · rw [if_neg (by simp; omega)] at h
        by_cases hjn : j + 1 < n
        · rw [if_pos hjn, Option.some.injEq] at h
          subst h
          simp only [List.length_cons, List.length_nil]; omega
        · rw [if_neg hjn] at h; cases h

theorem extUnpack_length {c : RxCfg} (h1 : 64 < c.vsz) (h2 : c.vsz < 2 ^ 64) {row : List Nat} {e : ExtEnt} (h : extUnpack c row = some e) :
    e.val.length = c.words := by
  simp only [extUnpack, Option.bind_eq_bind, Option.bind_eq_some_iff, Option.some.injEq] at h
  obtain ⟨w0, _, rest, hr, rfl⟩ := h
  have hw : 2 ≤ c.words := by unfold RxCfg.words; omega
  have hw2 : c.words < 2 ^ 64 := by unfold RxCfg.words; omega
  have := extUnpackLoop_length hw hw2 _ 1 rfl hr
  simp only [List.length_cons, this]; omega

section
variable {F : Type} [Field F] [BlockField F] [DecidableEq F]

omit [DecidableEq F] in
theorem rowBlocks_lens {c : RxCfg} (hw : 1 ≤ c.words) {rows : List ExtEnt} (h : ∀ e ∈ rows, e.val.length = c.words) :
    ∀ x ∈ (rowBlocks rows : List (List F)), x.length = c.words / 2 + 1 := by
  intro x hx
  obtain ⟨e, he, rfl⟩ := List.mem_map.1 hx
  rw [List.length_map, extRow_length hw (h e he)]

omit [DecidableEq F] in
theorem rowBlocks_length (rows : List ExtEnt) : (rowBlocks rows : List (List F)).length = rows.length := by simp [rowBlocks]

omit [Field F] [BlockField F] [DecidableEq F] in
theorem flatten_lens {k : Nat} {X : List (List F)} (h : ∀ x ∈ X, x.length = k) : X.flatten.length = X.length * k := by
  rw [List.length_flatten, List.map_congr_left (g := fun _ => k) h, List.map_const', List.sum_replicate]; rfl

omit [Field F] [BlockField F] [DecidableEq F] in
theorem blocksOf_flatten {k : Nat} : ∀ (X : List (List F)) (r : List F), (∀ x ∈ X, x.length = k) → blocksOf k X.length (X.flatten ++ r) = X := by
  intro X
  induction X with
  | nil => intro r _; rfl
  | cons x X ih =>
    intro r h
    have hx := h x (by simp)
    rw [blocksOf, List.length_cons, List.range_succ_eq_map, List.map_cons, List.map_map, Nat.zero_mul, List.drop_zero]
    congr 1
    · rw [List.flatten_cons, List.append_assoc, List.take_left' hx]
    · have e := ih r (fun y hy => h y (by simp [hy]))
      rw [blocksOf] at e
      conv_rhs => rw [← e]
      apply List.map_congr_left
      intro i _
      simp only [Function.comp_apply, List.flatten_cons, List.append_assoc]
      rw [Nat.succ_mul, Nat.add_comm, ← List.drop_drop, List.drop_left' hx]

/-- The instructions of a check are the bits of the rows, then instructions without inputs; with any rows, the check goes through exactly when
the products of the combined blocks agree at the challenge, and it reveals the condition of the rows. -/
theorem xcsim_check {lib : CmpLib} (hl : lib.Good) (hno : lib.NoIn) {c : RxCfg} (hc : c.Ok) (hv1 : 64 < c.vsz) (hv2 : c.vsz < 2 ^ 64) {g : XNet}
    {u : XPlain} {s : MPlain F} (h : XCSim c g u s) (h3 : 3 ≤ u.log.length) (hlen : u.log.length ≤ 2 ^ (c.ssz - 1)) {ops : List MOp}
    (hgen : xCheckGen lib c g = some ops) :
    ∃ (bits : List Bool) (rest : List MOp), bits.length = u.log.length * xRowW c ∧ ops = (bits.map BOp.input).map MOp.bool ++ rest ∧
      (∀ o ∈ rest, o.noIn = true ∧ ∀ is, o = .mulN is → is.length = 5) ∧
      ∀ rows : List ExtEnt, rows.length = u.log.length → (∀ e ∈ rows, e.FitsX c) → ∃ t, ∀ (ch : Nat → F) (R : List F),
        R = (List.range (c.words / 2 + 1)).map ch → ∃ fs',
        mplainOps ch s (((rows.flatMap (xRowBits c)).map BOp.input).map MOp.bool ++ rest) =
          if prodAt (ch (c.words / 2 + 1)) ((rowBlocks rows).map (rowDot R)) =
              prodAt (ch (c.words / 2 + 1)) ((rowBlocks (xrowsOfLog u.log)).map (rowDot R)) then
            some ⟨⟨u.bp.wires ++ (rows.flatMap (xRowBits c) ++ t), u.bp.outs ++ [extCond c rows], u.bp.claims⟩,
              (rowBlocks (xrowsOfLog u.log)).flatten ++ ((rowBlocks rows).flatten ++ fs'), R ++ [ch (c.words / 2 + 1)]⟩
          else none := by
  have hw : 1 ≤ c.words := by unfold RxCfg.words; omega
  have hss : 1 ≤ c.ssz := by
    by_contra h0
    have : c.ssz - 1 = 0 := by omega
    rw [this] at hlen
    omega
  have h64 : u.log.length < 2 ^ 64 := by
    have := hc.2.1
    have : 2 ^ (c.ssz - 1) < 2 ^ 64 := Nat.pow_lt_pow_right (by decide) (by omega)
    omega
  have hn : g.bits.length = s.bp.wires.length := by rw [h.bits, h.bp]
  set m := u.log.length with hm
  set bz := c.words / 2 + 1 with hbz
  have hbz' : (c.words + 2) / 2 = bz := by omega
  set Y : List (List F) := rowBlocks (xrowsOfLog u.log) with hY
  have hYl : Y.length = m := by rw [hY, rowBlocks_length, xrowsOfLog_length]
  have hYb : ∀ x ∈ Y, x.length = bz := by
    apply rowBlocks_lens hw
    intro e he
    obtain ⟨i, hi, rfl⟩ := List.getElem_of_mem he
    rw [xrowsOfLog_length] at hi
    have := (h.fits u.log[i] (List.getElem_mem hi)).2.1
    simpa [xrowsOfLog] using this
  have hmacs : g.macs.mapM (pick s.fs) = some Y := h.macs
  have hmac : g.macs.length = m := by rw [← mapM_len hmacs, hYl]
  have hmb : ∀ b ∈ g.macs, b.length = bz := mapM_pick_lens hmacs hYb
  set sorted := (List.range m).map (fun k => List.range' (g.nf + k * bz) bz) with hsorted
  have hsl : sorted.length = m := by rw [hsorted, List.length_map, List.length_range]
  have hsb : ∀ b ∈ sorted, b.length = bz := by
    intro b hb
    obtain ⟨k, _, rfl⟩ := List.mem_map.1 hb
    simp
  have hla := xLins_eq g.macs hmb
  have hlb := xLins_eq sorted hsb
  rw [hmac] at hla
  rw [hsl] at hlb
  simp only [xCheckGen, Option.bind_eq_bind, Option.bind_eq_some_iff, Prod.exists, h.step, hbz', ← hbz, ← hm, ← hsorted, hla, hlb,
    Option.bind_some] at hgen
  obtain ⟨st', chk, hchk, q1, q2, hq, hgen⟩ := hgen
  split at hgen
  · cases hgen
  simp only [Option.bind_eq_some_iff, Option.some.injEq] at hgen
  obtain ⟨ps, hps, se, hse, rfl⟩ := hgen
  obtain ⟨q, hqq⟩ : ∃ q : List BOp × Nat, (q1, q2) = q := ⟨_, rfl⟩
  rw [hqq] at hq
  have hq1 : q1 = q.1 := by rw [← hqq]
  have hq2 : q2 = q.2 := by rw [← hqq]
  subst hq1 hq2
  have hcl : chk.rows.length = m ∧ ∀ e ∈ chk.rows, e.val.length = c.words := by
    simp only [extCheck, Option.bind_eq_bind, Option.bind_eq_some_iff, Option.some.injEq, Prod.mk.injEq] at hchk
    obtain ⟨rows, hr, _, _, _, rfl⟩ := hchk
    refine ⟨?_, ?_⟩
    · have := mapM_len hr
      simpa [h.step] using this
    · intro e he
      obtain ⟨i, _, hi⟩ := mapM_some_mem hr he
      simp only [Option.bind_eq_some_iff] at hi
      obtain ⟨row, _, hrow⟩ := hi
      exact extUnpack_length hv1 hv2 hrow
  refine ⟨chk.rows.flatMap (xRowBits c), _, by rw [flatMap_xRowBits_length _ hcl.2, hcl.1],
    by rw [show (chk.rows.flatMap (xRowBits c)).map (fun b => MOp.bool (.input b)) = ((chk.rows.flatMap (xRowBits c)).map BOp.input).map MOp.bool from by
      rw [List.map_map]; rfl], ?_, ?_⟩
  · intro o ho
    simp only [List.mem_cons, List.mem_append] at ho
    rcases ho with rfl | ho | rfl | rfl | ho | rfl | ho | ho | ho
    · exact ⟨rfl, fun is h => by cases h⟩
    · obtain ⟨b, hb, rfl⟩ := List.mem_map.1 ho
      refine ⟨?_, fun is h => by cases h⟩
      have := xRounds_noIn hno _ hq b hb
      cases b with
      | input x => exact absurd rfl (this x)
      | _ => rfl
    · exact ⟨rfl, fun is h => by cases h⟩
    · exact ⟨rfl, fun is h => by cases h⟩
    · obtain ⟨b, hb, rfl⟩ := List.mem_map.1 ho
      exact ⟨rfl, fun is h => by cases h⟩
    · exact ⟨rfl, fun is h => by cases h⟩
    · obtain ⟨b, hb, rfl⟩ := List.mem_map.1 ho
      exact ⟨rfl, fun is h => by cases h⟩
    · obtain ⟨b, hb, rfl⟩ := List.mem_map.1 ho
      exact ⟨rfl, fun is h => by cases h⟩
    · exact setEqOps_kinds (by simp) (by simp) h3 h64 hse o ho
  · intro rows hrl hfit
    have hfv : ∀ e ∈ rows, e.val.length = c.words := fun e he => (hfit e he).2.2.1
    set X : List (List F) := rowBlocks rows with hX
    have hXl : X.length = m := by rw [hX, rowBlocks_length, hrl]
    have hXb : ∀ x ∈ X, x.length = bz := rowBlocks_lens hw hfv
    set W1 := s.bp.wires ++ rows.flatMap (xRowBits c) with hW1
    have lW1 : W1.length = g.bits.length + m * xRowW c := by rw [hW1, List.length_append, flatMap_xRowBits_length _ hfv, hrl, hn]
    have hrows : XRowsAt c g.bits.length rows W1 := by rw [hn]; exact xRowsAt_flatMap _ _ hfv
    obtain ⟨q', W2, t2, hq', w2, r2, v2⟩ := wrun_xrounds hl hw hss (o := s.bp.outs) (cl := s.bp.claims) (base := g.bits.length) hfit
      (List.range (m - 1)) (W := W1 ++ [true]) (cw := g.bits.length + m * xRowW c) (x := true) (hrows.app _)
      (by intro i hi; rw [List.mem_range] at hi; omega) (by rw [← lW1]; exact List.getElem?_concat_length)
    rw [Bool.true_and, ← hrl, ← extCond_pairs] at v2
    have lW1' : (W1 ++ [true]).length = g.bits.length + m * xRowW c + 1 := by rw [List.length_append, lW1]; rfl
    rw [lW1', hq, Option.some.injEq] at hq'
    subst hq'
    obtain ⟨es, ps', p1, p2, p3⟩ := mplain_xpacks hc (n := g.bits.length) hfit (List.range m)
      (s := (⟨⟨W2, s.bp.outs ++ [extCond c rows], s.bp.claims⟩, s.fs, s.rs⟩ : MPlain F))
      (by show XRowsAt _ _ _ W2; rw [w2]; exact (hrows.app _).app _) (by intro k hk; rw [List.mem_range] at hk; omega)
    rw [hps, Option.some.injEq] at p2
    subst p2
    have hes : es = rows := by
      have := pick_range' [] rows
      rw [List.nil_append, List.length_nil, ← List.range_eq_range', hrl, p1, Option.some.injEq] at this
      exact this
    subst hes
    have hflat : X.flatten.length = m * bz := by rw [flatten_lens hXb, hXl]
    refine ⟨[true] ++ t2, fun ch R hR => ?_⟩
    have hRl : R.length = bz := by rw [hR, List.length_map, List.length_range]
    have hset := mplain_setEq ch
      (s := (⟨⟨W2, s.bp.outs ++ [extCond c es], s.bp.claims⟩, s.fs ++ X.flatten ++ Y.map (rowDot R) ++ X.map (rowDot R), R⟩ : MPlain F))
      (as := List.range' (g.nf + m * bz + m) m) (bs := List.range' (g.nf + m * bz) m)
      (us := X.map (rowDot R)) (vs := Y.map (rowDot R)) (step := m)
      (by
        have := pick_range' (s.fs ++ X.flatten ++ Y.map (rowDot R)) (X.map (rowDot R))
        rw [List.length_append, List.length_append, hflat, List.length_map, List.length_map, hXl, hYl, ← h.nf] at this
        exact this)
      (by
        have := pick_range' (s.fs ++ X.flatten) (Y.map (rowDot R))
        rw [List.length_append, hflat, List.length_map, hYl, ← h.nf] at this
        exact pick_append _ this) (by simp) (by simp) h3 h64
    obtain ⟨se', t', hse', hrun⟩ := hset
    simp only [List.length_append, List.length_map, hflat, hXl, hYl, hRl, ← h.nf] at hse'
    rw [hse, Option.some.injEq] at hse'
    subst hse'
    refine ⟨Y.map (rowDot R) ++ (X.map (rowDot R) ++ t'), ?_⟩
    rw [mplainOps_append, mplain_bools, plain_inputs, Option.map_some, Option.bind_some, mplainOps_cons]
    simp only [mplainStep, plainStep, Option.map_some, Option.bind_some]
    rw [mplainOps_append, mplain_bools]
    have r2' : q.1.foldlM plainStep { wires := s.bp.wires ++ es.flatMap (xRowBits c) ++ [true], outs := s.bp.outs, claims := s.bp.claims } = _ := r2
    rw [r2', Option.map_some, Option.bind_some, mplainOps_cons]
    simp only [mplainStep, plainStep, v2, Option.bind_eq_bind, Option.map_some, Option.bind_some]
    rw [mplainOps_cons]
    simp only [mplainStep, Option.bind_some]
    rw [mplainOps_append, p3, Option.bind_some, mplainOps_cons]
    simp only [mplainStep, Option.bind_some, h.rs, List.nil_append, List.length_nil, Nat.zero_add]
    have hR2 : (List.range bz).map (fun i => ch i) = R := hR.symm
    rw [hR2]
    have m1 := mplain_lins ch (k := bz) g.macs Y (⟨⟨W2, s.bp.outs ++ [extCond c es], s.bp.claims⟩, s.fs ++ X.flatten, R⟩ : MPlain F)
      hRl (mapM_pick_append _ hmacs) hmb
    have m2 := mplain_lins ch (k := bz) sorted X (⟨⟨W2, s.bp.outs ++ [extCond c es], s.bp.claims⟩, s.fs ++ X.flatten ++ Y.map (rowDot R), R⟩ : MPlain F)
      hRl
      (by
        have := pick_blocks (k := bz) X s.fs (Y.map (rowDot R)) hXb
        rw [hXl, ← h.nf, ← hsorted] at this
        rw [List.append_assoc]
        exact this) hsb
    rw [mplainOps_append]
    show (mplainOps ch (⟨⟨W2, s.bp.outs ++ [extCond c es], s.bp.claims⟩, s.fs ++ X.flatten, R⟩ : MPlain F) _).bind _ = _
    rw [m1, Option.bind_some, mplainOps_append, m2, Option.bind_some, hrun]
    simp only [hRl, h.bp, w2, hW1, List.append_assoc, h.fs, ← hY]

end
end EmpZk
