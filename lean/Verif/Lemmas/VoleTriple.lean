/-
Lemmas on the buffering of extended correlations.
-/
import Verif.Model.VoleTriple
import Verif.Spec.VoleStream
import Mathlib.Tactic.Ring
import Mathlib.Tactic.Linarith

namespace EmpZk

variable {α : Type}

theorem wr_ok (data xs : List α) (o : Nat) (h : o + xs.length ≤ data.length) :
    ∃ d, wr data o xs = some d ∧ d.length = data.length ∧ (∀ i, i < o → d[i]? = data[i]?) ∧
      (∀ j, j < xs.length → d[o + j]? = xs[j]?) ∧ ∀ i, o + xs.length ≤ i → d[i]? = data[i]? := by
  have hl : (data.take o).length = o := by rw [List.length_take]; omega
  refine ⟨data.take o ++ xs ++ data.drop (o + xs.length), ?_, ?_, ?_, ?_, ?_⟩
  · unfold wr
    rw [if_pos (by omega), Int.toNat_natCast]
  · simp only [List.length_append, List.length_drop, hl]; omega
  · intro i hi
    rw [List.append_assoc, List.getElem?_append_left (by omega), List.getElem?_take, if_pos hi]
  · intro j hj
    rw [List.append_assoc, List.getElem?_append_right (by omega), hl, Nat.add_sub_cancel_left, List.getElem?_append_left hj]
  · intro i hi
    rw [List.getElem?_append_right (by rw [List.length_append, hl]; omega), List.length_append, hl, List.getElem?_drop]
    congr 1; omega

theorem rd_ok (buf : List α) (o len : Nat) (h : o + len ≤ buf.length) :
    ∃ xs, rd buf o len = some xs ∧ xs.length = len ∧ xs = (buf.drop o).take len ∧ ∀ j, j < len → xs[j]? = buf[o + j]? := by
  refine ⟨(buf.drop o).take len, ?_, ?_, rfl, ?_⟩
  · unfold rd
    rw [if_pos (by omega), Int.toNat_natCast, Int.toNat_natCast]
  · rw [List.length_take, List.length_drop]; omega
  · intro j hj
    rw [List.getElem?_take, if_pos hj, List.getElem?_drop]

/-- the size assumptions -/
structure VCfg.Ok (c : VCfg α) (L : Nat) : Prop where
  size : c.n = L + c.M
  pos : 0 < c.M
  le : c.M ≤ L
  gen : ∀ r pre, pre.length = c.M → (c.gen r pre).length = c.n

theorem VCfg.Ok.limit {c : VCfg α} {L : Nat} (h : c.Ok L) : c.limit = (L : Int) := by
  unfold VCfg.limit; rw [h.size]; push_cast; ring

variable {c : VCfg α} {L : Nat}

theorem seed_len (hc : c.Ok L) (pre0 : List α) (h0 : pre0.length = c.M) (r : Nat) : (seedOf c.gen L pre0 r).length = c.M := by
  induction r with
  | zero => exact h0
  | succ r ih => rw [seedOf, List.length_drop, hc.gen r _ ih, hc.size, Nat.add_sub_cancel_left]

theorem batch_len (hc : c.Ok L) (pre0 : List α) (h0 : pre0.length = c.M) (r : Nat) : (batchOf c.gen L pre0 r).length = c.n :=
  hc.gen r _ (seed_len hc pre0 h0 r)

theorem stream_batch (hL : 0 < L) (pre0 : List α) (r j : Nat) (hj : j < L) :
    streamAt c.gen L pre0 (r * L + j) = (batchOf c.gen L pre0 r)[j]? := by
  unfold streamAt
  rw [Nat.add_comm, Nat.add_mul_div_right _ _ hL, Nat.add_mul_mod_self_right, Nat.div_eq_of_lt hj, Nat.mod_eq_of_lt hj, Nat.zero_add]

theorem extendBuf_ok (hc : c.Ok L) (pre0 : List α) (h0 : pre0.length = c.M) (s : VState α)
    (hs : s.pre = seedOf c.gen L pre0 s.round) (data : List α) (o : Nat) (h : o + c.n ≤ data.length) :
    ∃ d, extendBuf c s data o = some ({ s with pre := seedOf c.gen L pre0 (s.round + 1), round := s.round + 1 }, d) ∧
      d.length = data.length ∧ (∀ i, i < o → d[i]? = data[i]?) ∧
      (∀ j, j < c.n → d[o + j]? = (batchOf c.gen L pre0 s.round)[j]?) ∧ ∀ i, o + c.n ≤ i → d[i]? = data[i]? := by
  have hb := batch_len hc pre0 h0 s.round
  obtain ⟨d, hd, hl, h1, h2, h3⟩ := wr_ok data (batchOf c.gen L pre0 s.round) o (by rw [hb]; exact h)
  rw [hb] at h2 h3
  obtain ⟨xs, hx, hxl, _, hx2⟩ := rd_ok d (o + L) c.M (by rw [hl]; rw [hc.size] at h; omega)
  refine ⟨d, ?_, hl, h1, h2, h3⟩
  unfold extendBuf
  have e : c.gen s.round s.pre = batchOf c.gen L pre0 s.round := by rw [hs]; rfl
  rw [e]
  simp only [Option.bind_eq_bind]
  rw [hd, Option.bind_some, hc.limit, ← Nat.cast_add, hx, Option.bind_some]
  have e2 : xs = seedOf c.gen L pre0 (s.round + 1) := by
    apply List.ext_getElem?
    intro i
    by_cases hi : i < c.M
    · rw [hx2 i hi, seedOf, List.getElem?_drop, Nat.add_assoc, h2 (L + i) (by rw [hc.size]; omega)]
      rfl
    · rw [List.getElem?_eq_none (by omega), List.getElem?_eq_none (by rw [seed_len hc pre0 h0]; omega)]
  rw [e2]

/-- the state between two requests -/
structure Inv (c : VCfg α) (L : Nat) (pre0 : List α) (s : VState α) (u : Nat) : Prop where
  pre : s.pre = seedOf c.gen L pre0 s.round
  used : s.otUsed = (u : Int)
  ule : u ≤ L
  len : s.triples.length = c.n
  tri : u < L → ∃ r, s.round = r + 1 ∧ s.triples = batchOf c.gen L pre0 r

theorem inplaceRounds_ok (hc : c.Ok L) (pre0 : List α) (h0 : pre0.length = c.M) (pos : Nat) (rounds : Nat) :
    ∀ (s : VState α) (data : List α) (pt : Nat), s.pre = seedOf c.gen L pre0 s.round → pos + pt = s.round * L →
      (∀ i, i < pt → data[i]? = streamAt c.gen L pre0 (pos + i)) → (0 < rounds → pt + rounds * L + c.M ≤ data.length) →
      ∃ s' d, inplaceRounds c rounds (s, data, (pt : Int)) = some (s', d, ((pt + rounds * L : Nat) : Int)) ∧
        s'.pre = seedOf c.gen L pre0 s'.round ∧ s'.round = s.round + rounds ∧ s'.triples = s.triples ∧ d.length = data.length ∧
        ∀ i, i < pt + rounds * L → d[i]? = streamAt c.gen L pre0 (pos + i) := by
  have hL : 0 < L := lt_of_lt_of_le hc.pos hc.le
  induction rounds with
  | zero =>
    intro s data pt h1 h2 h3 _
    exact ⟨s, data, by simp [inplaceRounds], h1, rfl, rfl, rfl, by simpa using h3⟩
  | succ r ih =>
    intro s data pt h1 h2 h3 h4
    have h4 := h4 (by omega)
    have hm : (r + 1) * L = r * L + L := by ring
    rw [hm] at h4
    obtain ⟨d, hd, hl, p1, p2, _⟩ := extendBuf_ok hc pre0 h0 s h1 data pt (by rw [hc.size]; omega)
    obtain ⟨s', d', e1, e2, e3, e4, e5, e6⟩ := ih { s with pre := seedOf c.gen L pre0 (s.round + 1), round := s.round + 1, otUsed := c.limit } d (pt + L)
      rfl (by simp only; rw [Nat.add_mul, Nat.one_mul, ← h2]; ring) (by
        intro i hi
        by_cases hi2 : i < pt
        · rw [p1 i hi2, h3 i hi2]
        · obtain ⟨j, rfl⟩ : ∃ j, i = pt + j := ⟨i - pt, by omega⟩
          rw [p2 j (by rw [hc.size]; omega), ← Nat.add_assoc, h2, stream_batch hL pre0 s.round j (by omega)])
      (by intro _; rw [hl]; omega)
    refine ⟨s', d', ?_, e2, by rw [e3]; simp only; omega, e4, e5.trans hl, ?_⟩
    · rw [inplaceRounds]
      simp only [Option.bind_eq_bind]
      rw [hd, Option.bind_some]
      simp only
      rw [hc.limit] at e1 ⊢
      rw [← Nat.cast_add, e1]
      rw [hm]
      congr 4
      ring
    · intro i hi
      exact e6 i (by rw [hm] at hi; omega)

theorem rounds_div (hc : c.Ok L) (num g : Nat) (h : g < num) :
    ∃ q : Nat, Int.tdiv ((num : Int) - g - c.M) L = q ∧ (0 < q → g + q * L + c.M ≤ num) ∧ g + q * L < num ∧ num < g + q * L + L + c.M := by
  have hM := hc.pos
  have hle := hc.le
  have hL : 0 < L := lt_of_lt_of_le hM hle
  by_cases hx : g + c.M ≤ num
  · refine ⟨(num - g - c.M) / L, ?_, ?_, ?_, ?_⟩
    · rw [show (num : Int) - g - c.M = ((num - g - c.M : Nat) : Int) by omega, Int.tdiv_eq_ediv_of_nonneg (by omega)]
      norm_cast
    · intro _
      have := Nat.div_mul_le_self (num - g - c.M) L
      omega
    · have := Nat.div_mul_le_self (num - g - c.M) L
      omega
    · have := Nat.lt_div_mul_add hL (a := num - g - c.M)
      omega
  · refine ⟨0, ?_, by omega, by omega, by omega⟩
    rw [show (num : Int) - g - c.M = -((g + c.M - num : Nat) : Int) by omega, Int.neg_tdiv,
      Int.tdiv_eq_zero_of_lt (by omega) (by omega)]
    rfl

/-- delivery from the internal buffer -/
theorem deliver_ok (data tr : List α) (o k pt : Nat) (hk : o + k ≤ tr.length) (hd : pt + k ≤ data.length) :
    ∃ xs d, rd tr o k = some xs ∧ wr data pt xs = some d ∧ d.length = data.length ∧ (∀ i, i < pt → d[i]? = data[i]?) ∧
      ∀ j, j < k → d[pt + j]? = tr[o + j]? := by
  obtain ⟨xs, h1, h2, _, h3⟩ := rd_ok tr o k hk
  obtain ⟨d, h4, h5, h6, h7, _⟩ := wr_ok data xs pt (by omega)
  exact ⟨xs, d, h1, h4, h5, h6, fun j hj => by rw [h7 j (by omega), h3 j hj]⟩

theorem extendMany_ok (hc : c.Ok L) (pre0 : List α) (h0 : pre0.length = c.M) (s : VState α) (u : Nat) (hs : Inv c L pre0 s u)
    (data : List α) :
    ∃ s' u' d, extendMany c s data data.length = some (s', d) ∧ Inv c L pre0 s' u' ∧ d.length = data.length ∧
      s'.round * L + u' = s.round * L + u + data.length ∧
      ∀ i, i < data.length → d[i]? = streamAt c.gen L pre0 (s.round * L + u - L + i) := by
  have hM := hc.pos
  have hle := hc.le
  have hL : 0 < L := lt_of_lt_of_le hM hle
  have hu := hs.ule
  have hsl : silentLeft c s = ((L - u : Nat) : Int) := by
    unfold silentLeft; rw [hc.limit, hs.used]; omega
  have hn := hc.size
  have hbuf : ∀ j, u + j < L → s.triples[u + j]? = streamAt c.gen L pre0 (s.round * L + u - L + j) := by
    intro j hj
    obtain ⟨r, hr1, hr2⟩ := hs.tri (by omega)
    have e : s.round * L + u - L + j = r * L + (u + j) := by
      rw [hr1, Nat.add_mul, Nat.one_mul]; omega
    rw [e, stream_batch hL pre0 r (u + j) hj, hr2]
  unfold extendMany
  rw [hsl]
  by_cases hnum : data.length ≤ L - u
  · rw [if_pos (by omega), hs.used]
    obtain ⟨xs, d, e1, e2, e3, _, e5⟩ := deliver_ok data s.triples u data.length 0 (by rw [hs.len]; omega) (by omega)
    refine ⟨{ s with otUsed := s.otUsed + data.length }, u + data.length, d, ?_, ?_, e3, by simp only; omega, ?_⟩
    · simp only [Option.bind_eq_bind]
      rw [Nat.cast_zero] at e2
      rw [e1, Option.bind_some, e2, Option.bind_some, hs.used]
    · refine ⟨hs.pre, by simp only; rw [hs.used]; norm_cast, by omega, hs.len, ?_⟩
      intro h
      exact hs.tri (by omega)
    · intro i hi
      have := e5 i hi
      rw [Nat.zero_add] at this
      rw [this, hbuf i (by omega)]
  · rw [if_neg (by omega)]
    have hpos : s.round * L + u - L + (L - u) = s.round * L := by
      rcases Nat.lt_or_ge u L with h | h
      · obtain ⟨r, hr1, _⟩ := hs.tri h
        rw [hr1, Nat.add_mul, Nat.one_mul]; omega
      · omega
    generalize hg : L - u = g at *
    generalize hp : s.round * L + u - L = pos at *
    -- what is left in the buffer
    have hfirst : ∃ d, (if (0 : Int) < (g : Int) then (do
          let xs ← rd s.triples s.otUsed (g : Int)
          let data ← wr data 0 xs
          some (data, (g : Int)))
        else some (data, 0)) = some (d, (g : Int)) ∧ d.length = data.length ∧ ∀ i, i < g → d[i]? = streamAt c.gen L pre0 (pos + i) := by
      rcases Nat.eq_zero_or_pos g with hg0 | hg0
      · subst hg0
        exact ⟨data, by simp, rfl, fun i hi => absurd hi (by omega)⟩
      · obtain ⟨xs, d, e1, e2, e3, _, e5⟩ := deliver_ok data s.triples u g 0 (by rw [hs.len]; omega) (by omega)
        refine ⟨d, ?_, e3, ?_⟩
        · rw [if_pos (by omega), hs.used]
          simp only [Option.bind_eq_bind]
          rw [Nat.cast_zero] at e2
          rw [e1, Option.bind_some, e2, Option.bind_some]
        · intro i hi
          have := e5 i hi
          rw [Nat.zero_add] at this
          rw [this, hbuf i (by omega)]
    obtain ⟨d0, hd0, hl0, hv0⟩ := hfirst
    simp only [Option.bind_eq_bind] at hd0 ⊢
    rw [hd0, Option.bind_some]
    simp only
    obtain ⟨q, hq, hq1, hq2, hq3⟩ := rounds_div hc data.length g (by omega)
    rw [hc.limit, hq, Int.toNat_natCast]
    obtain ⟨s1, d1, a1, a2, a3, a4, a5, a6⟩ := inplaceRounds_ok hc pre0 h0 pos q s d0 g hs.pre hpos hv0
      (fun h => by rw [hl0]; exact hq1 h)
    rw [a1, Option.bind_some]
    simp only
    have hr1 : s1.round * L = pos + (g + q * L) := by rw [a3, Nat.add_mul, ← hpos, Nat.add_assoc]
    have htl : s1.triples.length = c.n := by rw [a4]; exact hs.len
    obtain ⟨rest, hrest⟩ : ∃ rest, data.length = g + q * L + rest := ⟨data.length - (g + q * L), by omega⟩
    have hlast : (data.length : Int) - g - q * L = (rest : Int) := by rw [hrest]; push_cast; ring
    rw [hlast]
    have h5 : d1.length = data.length := a5.trans hl0
    by_cases hmc : L < rest
    · -- one round through the internal buffer, then the last one
      obtain ⟨tr, b1, b2, _, b4, _⟩ := extendBuf_ok hc pre0 h0 s1 a2 s1.triples 0 (by rw [htl]; omega)
      obtain ⟨xs, d2, c1, c2, c3, c4, c5⟩ := deliver_ok d1 tr 0 L (g + q * L) (by rw [b2, htl]; omega) (by omega)
      rw [Nat.cast_zero] at b1 c1
      have hv2 : ∀ i, i < g + q * L + L → d2[i]? = streamAt c.gen L pre0 (pos + i) := by
        intro i hi
        by_cases hi2 : i < g + q * L
        · rw [c4 i hi2, a6 i hi2]
        · obtain ⟨j, rfl⟩ : ∃ j, i = g + q * L + j := ⟨i - (g + q * L), by omega⟩
          have := b4 j (by omega)
          rw [c5 j (by omega), this, ← Nat.add_assoc, ← hr1, stream_batch hL pre0 s1.round j (by omega)]
      obtain ⟨tr2, f1, f2, _, f4, _⟩ := extendBuf_ok hc pre0 h0
        { s1 with pre := seedOf c.gen L pre0 (s1.round + 1), round := s1.round + 1, triples := tr, otUsed := (L : Int) } rfl tr 0
        (by rw [b2, htl]; omega)
      obtain ⟨xs3, d3, g1, g2, g3, g4, g5⟩ := deliver_ok d2 tr2 0 (rest - L) (g + q * L + L) (by rw [f2, b2, htl]; omega) (by omega)
      rw [Nat.cast_zero] at f1 g1
      refine ⟨{ pre := seedOf c.gen L pre0 (s1.round + 1 + 1), round := s1.round + 1 + 1, triples := tr2, otUsed := ((rest - L : Nat) : Int) },
        rest - L, d3, ?_, ⟨rfl, rfl, by omega, by simp only; rw [f2, b2, htl], ?_⟩, by omega, ?_, ?_⟩
      · have hdec : decide ((rest : Int) > (L : Int)) = true := decide_eq_true (by omega)
        simp only [hdec, if_true]
        rw [b1, Option.bind_some]
        simp only
        rw [c1, Option.bind_some, c2, Option.bind_some]
        rw [← Nat.cast_add]
        have e : (rest : Int) - (L : Int) = ((rest - L : Nat) : Int) := by omega
        rw [e, Option.bind_some, if_pos (by omega), f1, Option.bind_some]
        simp only
        rw [g1, Option.bind_some, g2, Option.bind_some]
      · intro _
        refine ⟨s1.round + 1, rfl, ?_⟩
        simp only
        apply List.ext_getElem?
        intro i
        by_cases hi : i < c.n
        · have := f4 i hi
          rw [Nat.zero_add] at this
          exact this
        · rw [List.getElem?_eq_none (by rw [f2, b2, htl]; omega), List.getElem?_eq_none (by rw [batch_len hc pre0 h0]; omega)]
      · simp only
        have e2 : (s1.round + 1 + 1) * L = s1.round * L + L + L := by ring
        rw [e2]; omega
      · intro i hi
        by_cases hi2 : i < g + q * L + L
        · rw [g4 i hi2, hv2 i hi2]
        · obtain ⟨j, rfl⟩ : ∃ j, i = g + q * L + L + j := ⟨i - (g + q * L + L), by omega⟩
          have e2 : pos + (g + q * L + L + j) = (s1.round + 1) * L + j := by rw [Nat.add_mul, Nat.one_mul]; omega
          have := f4 j (by omega)
          rw [Nat.zero_add] at this
          rw [g5 j (by omega), Nat.zero_add, e2, stream_batch hL pre0 (s1.round + 1) j (by omega)]
          exact this
    · -- only the last round
      have hdec : decide ((rest : Int) > (L : Int)) = false := decide_eq_false (by omega)
      simp only [hdec, Bool.false_eq_true, if_false, Option.bind_some]
      rw [if_pos (by omega)]
      obtain ⟨tr, b1, b2, _, b4, _⟩ := extendBuf_ok hc pre0 h0 s1 a2 s1.triples 0 (by rw [htl]; omega)
      obtain ⟨xs, d2, c1, c2, c3, c4, c5⟩ := deliver_ok d1 tr 0 rest (g + q * L) (by rw [b2, htl]; omega) (by omega)
      rw [Nat.cast_zero] at b1 c1
      rw [b1, Option.bind_some]
      simp only
      rw [c1, Option.bind_some, c2, Option.bind_some]
      refine ⟨_, rest, _, rfl, ⟨rfl, rfl, by omega, by simp only; rw [b2, htl], ?_⟩, by omega, ?_, ?_⟩
      · intro _
        refine ⟨s1.round, rfl, ?_⟩
        simp only
        apply List.ext_getElem?
        intro i
        by_cases hi : i < c.n
        · have := b4 i hi
          rw [Nat.zero_add] at this
          exact this
        · rw [List.getElem?_eq_none (by rw [b2, htl]; omega), List.getElem?_eq_none (by rw [batch_len hc pre0 h0]; omega)]
      · simp only
        have e2 : (s1.round + 1) * L = s1.round * L + L := by ring
        rw [e2]; omega
      · intro i hi
        by_cases hi2 : i < g + q * L
        · rw [c4 i hi2, a6 i hi2]
        · obtain ⟨j, rfl⟩ : ∃ j, i = g + q * L + j := ⟨i - (g + q * L), by omega⟩
          have := b4 j (by omega)
          rw [Nat.zero_add] at this
          rw [c5 j (by omega), Nat.zero_add, this, ← Nat.add_assoc, ← hr1, stream_batch hL pre0 s1.round j (by omega)]

/-! ### sequences of requests -/

theorem extendSeq_ok (hc : c.Ok L) (pre0 : List α) (h0 : pre0.length = c.M) (bufs : List (List α)) :
    ∀ (s : VState α) (u : Nat), Inv c L pre0 s u → L ≤ s.round * L + u →
    ∃ s' u' outs, extendSeq c s bufs = some (s', outs) ∧ Inv c L pre0 s' u' ∧ outs.map List.length = bufs.map List.length ∧
      s'.round * L + u' = s.round * L + u + bufs.flatten.length ∧
      ∀ i, i < bufs.flatten.length → outs.flatten[i]? = streamAt c.gen L pre0 (s.round * L + u - L + i) := by
  induction bufs with
  | nil => intro s u hs _; exact ⟨s, u, [], rfl, hs, rfl, by simp, fun i hi => absurd hi (by simp)⟩
  | cons d ds ih =>
    intro s u hs hpos
    obtain ⟨s1, u1, d1, a1, a2, a3, a4, a5⟩ := extendMany_ok hc pre0 h0 s u hs d
    obtain ⟨s2, u2, outs, b1, b2, b3, b4, b5⟩ := ih s1 u1 a2 (by omega)
    refine ⟨s2, u2, d1 :: outs, ?_, b2, by simp only [List.map_cons, a3, b3], ?_, ?_⟩
    · rw [extendSeq]
      simp only [Option.bind_eq_bind]
      rw [a1, Option.bind_some]
      simp only
      rw [b1, Option.bind_some]
    · rw [b4, a4, List.flatten_cons, List.length_append]; omega
    · intro i hi
      rw [List.flatten_cons, List.length_append] at hi
      rw [List.flatten_cons]
      by_cases h : i < d.length
      · rw [List.getElem?_append_left (by omega), a5 i h]
      · rw [List.getElem?_append_right (by omega), a3, b5 (i - d.length) (by omega)]
        congr 1
        omega

/-! ### in-place -/

theorem inplaceLoop_ok (hc : c.Ok L) (pre0 : List α) (h0 : pre0.length = c.M) (pos : Nat) (rounds : Nat) :
    ∀ (s : VState α) (data : List α) (pt : Nat), s.pre = seedOf c.gen L pre0 s.round → pos + pt = s.round * L →
      (∀ i, i < pt → data[i]? = streamAt c.gen L pre0 (pos + i)) → (0 < rounds → pt + rounds * L + c.M ≤ data.length) →
      ∃ s' d, inplaceLoop c rounds (s, data, (pt : Int)) = some (s', d) ∧
        s'.pre = seedOf c.gen L pre0 s'.round ∧ s'.round = s.round + rounds ∧ s'.triples = s.triples ∧ s'.otUsed = s.otUsed ∧
        d.length = data.length ∧
        (∀ i, i < pt + rounds * L → d[i]? = streamAt c.gen L pre0 (pos + i)) ∧
        (0 < rounds → ∀ j, j < c.M → d[pt + rounds * L + j]? = (seedOf c.gen L pre0 (s.round + rounds))[j]?) := by
  have hL : 0 < L := lt_of_lt_of_le hc.pos hc.le
  induction rounds with
  | zero =>
    intro s data pt h1 h2 h3 _
    exact ⟨s, data, rfl, h1, rfl, rfl, rfl, rfl, by simpa using h3, fun h => absurd h (by omega)⟩
  | succ r ih =>
    intro s data pt h1 h2 h3 h4
    have h4 := h4 (by omega)
    have hm : (r + 1) * L = r * L + L := by ring
    rw [hm] at h4
    obtain ⟨d, hd, hl, p1, p2, _⟩ := extendBuf_ok hc pre0 h0 s h1 data pt (by rw [hc.size]; omega)
    obtain ⟨s', d', e1, e2, e3, e4, e4', e5, e6, e7⟩ := ih { s with pre := seedOf c.gen L pre0 (s.round + 1), round := s.round + 1 } d (pt + L)
      rfl (by simp only; rw [Nat.add_mul, Nat.one_mul, ← h2]; ring) (by
        intro i hi
        by_cases hi2 : i < pt
        · rw [p1 i hi2, h3 i hi2]
        · obtain ⟨j, rfl⟩ : ∃ j, i = pt + j := ⟨i - pt, by omega⟩
          rw [p2 j (by rw [hc.size]; omega), ← Nat.add_assoc, h2, stream_batch hL pre0 s.round j (by omega)])
      (by intro _; rw [hl]; omega)
    refine ⟨s', d', ?_, e2, by rw [e3]; simp only; omega, e4, e4', e5.trans hl, ?_, ?_⟩
    · rw [inplaceLoop]
      simp only [Option.bind_eq_bind]
      rw [hd, Option.bind_some]
      simp only
      rw [hc.limit, ← Nat.cast_add, e1]
    · intro i hi
      exact e6 i (by rw [hm] at hi; omega)
    · intro _ j hj
      rcases Nat.eq_zero_or_pos r with hr | hr
      · subst hr
        simp only [inplaceLoop, Option.some.injEq, Prod.mk.injEq] at e1
        rw [← e1.2, Nat.zero_add, Nat.one_mul, Nat.add_assoc, p2 (L + j) (by rw [hc.size]; omega), seedOf, List.getElem?_drop]
        rfl
      · have := e7 hr j hj
        simp only at this
        rw [hm, show pt + (r * L + L) + j = pt + L + r * L + j by ring, this]
        congr 2
        omega

end EmpZk
