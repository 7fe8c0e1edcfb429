/-
C36 - C38: buffering of the extended correlations.
-/
import Verif.Lemmas.VoleTriple
import Mathlib.Data.List.Forall2

namespace EmpZk

variable {α : Type}

private theorem inv0 {c : VCfg α} {L : Nat} (hc : c.Ok L) (pre0 tr : List α) (ht : tr.length = c.n) :
    Inv c L pre0 (afterSetup c pre0 tr) L :=
  ⟨rfl, hc.limit, le_refl _, ht, fun h => absurd h (lt_irrefl _)⟩

/-! ### C36 -/

/-- C36. For every sequence of requests: all succeed, every caller gets as many correlations as it asked for, and what is delivered
is, in order, the beginning of one fixed stream: the usable parts of the successive batches, nothing repeated, nothing skipped. -/
theorem C36_stream {c : VCfg α} {L : Nat} (hc : c.Ok L) (pre0 tr : List α) (h0 : pre0.length = c.M) (ht : tr.length = c.n)
    (bufs : List (List α)) :
    ∃ s outs, extendSeq c (afterSetup c pre0 tr) bufs = some (s, outs) ∧ outs.map List.length = bufs.map List.length ∧
      ∀ i, i < bufs.flatten.length → outs.flatten[i]? = streamAt c.gen L pre0 i := by
  obtain ⟨s, u, outs, h1, _, h3, _, h5⟩ := extendSeq_ok hc pre0 h0 bufs (afterSetup c pre0 tr) L (inv0 hc pre0 tr ht)
    (by simp [afterSetup])
  refine ⟨s, outs, h1, h3, ?_⟩
  intro i hi
  rw [h5 i hi]
  congr 1
  simp [afterSetup]

/-- C36. How the requests are cut does not matter: two sequences with the same total deliver the same correlations. -/
theorem C36_resize {c : VCfg α} {L : Nat} (hc : c.Ok L) (pre0 tr tr' : List α) (h0 : pre0.length = c.M) (ht : tr.length = c.n)
    (ht' : tr'.length = c.n) (bufs bufs' : List (List α)) (hlen : bufs.flatten.length = bufs'.flatten.length) :
    ∃ s s' outs outs', extendSeq c (afterSetup c pre0 tr) bufs = some (s, outs) ∧
      extendSeq c (afterSetup c pre0 tr') bufs' = some (s', outs') ∧ outs.flatten = outs'.flatten := by
  obtain ⟨s, outs, h1, h2, h3⟩ := C36_stream hc pre0 tr h0 ht bufs
  obtain ⟨s', outs', h1', h2', h3'⟩ := C36_stream hc pre0 tr' h0 ht' bufs'
  refine ⟨s, s', outs, outs', h1, h1', ?_⟩
  have e : outs.flatten.length = bufs.flatten.length := by rw [List.length_flatten, List.length_flatten, h2]
  have e' : outs'.flatten.length = bufs'.flatten.length := by rw [List.length_flatten, List.length_flatten, h2']
  apply List.ext_getElem?
  intro i
  by_cases hi : i < bufs.flatten.length
  · rw [h3 i hi, h3' i (by omega)]
  · rw [List.getElem?_eq_none (by omega), List.getElem?_eq_none (by omega)]

/-- C36. Alignment: if, at every round, the two parties' extensions turn related seeds into related batches, then for equal request
sizes everything delivered is related, position by position (with `R` the correlation between the two parties' words). -/
theorem C36_aligned {β : Type} (R : α → β → Prop) {cs : VCfg α} {cr : VCfg β} {L : Nat} (hs : cs.Ok L) (hr : cr.Ok L) (hM : cs.M = cr.M)
    (ps : List α) (pr : List β) (ts : List α) (tr : List β)
    (hR : ∀ r q, List.Forall₂ R (seedOf cs.gen L ps r) q → List.Forall₂ R (cs.gen r (seedOf cs.gen L ps r)) (cr.gen r q))
    (h0 : List.Forall₂ R ps pr) (hl : ps.length = cs.M) (hts : ts.length = cs.n) (htr : tr.length = cr.n)
    (bs : List (List α)) (br : List (List β)) (hlen : bs.map List.length = br.map List.length) :
    ∃ s s' outs outs', extendSeq cs (afterSetup cs ps ts) bs = some (s, outs) ∧ extendSeq cr (afterSetup cr pr tr) br = some (s', outs') ∧
      List.Forall₂ R outs.flatten outs'.flatten := by
  obtain ⟨s, outs, h1, h2, h3⟩ := C36_stream hs ps ts hl hts bs
  obtain ⟨s', outs', h1', h2', h3'⟩ := C36_stream hr pr tr (by rw [← h0.length_eq, hl, hM]) htr br
  refine ⟨s, s', outs, outs', h1, h1', ?_⟩
  have e : outs.flatten.length = bs.flatten.length := by rw [List.length_flatten, List.length_flatten, h2]
  have e' : outs'.flatten.length = bs.flatten.length := by
    rw [List.length_flatten, List.length_flatten, h2', hlen]
  have hseed : ∀ r, List.Forall₂ R (seedOf cs.gen L ps r) (seedOf cr.gen L pr r) := by
    intro r
    induction r with
    | zero => exact h0
    | succ r ih => exact List.forall₂_drop L (hR r _ ih)
  rw [List.forall₂_iff_get]
  refine ⟨by omega, ?_⟩
  intro i hi hi'
  have hb := List.forall₂_iff_get.1 (hR (i / L) _ (hseed (i / L)))
  have g1 := h3 i (by omega)
  have g2 := h3' i (by rw [List.length_flatten, ← hlen, ← List.length_flatten]; omega)
  rw [List.getElem?_eq_getElem hi] at g1
  rw [List.getElem?_eq_getElem hi'] at g2
  unfold streamAt at g1 g2
  obtain ⟨j1, k1⟩ := List.getElem?_eq_some_iff.1 g1.symm
  obtain ⟨j2, k2⟩ := List.getElem?_eq_some_iff.1 g2.symm
  have := hb.2 (i % L) j1 j2
  simp only [List.get_eq_getElem] at this ⊢
  rw [← k1, ← k2]
  exact this

/-- A small instance: batches of five, two of them reserved; each batch counts on from the reserved elements. -/
def tinyCfg : VCfg U128 where
  n := 5
  M := 2
  gen := fun r pre => (List.range 5).map (fun i => (pre.headD 0) + BitVec.ofNat 128 (10 * r + i))

example : tinyCfg.Ok 3 := ⟨rfl, by decide, by decide, by intro r pre _; simp [tinyCfg]⟩

/-- Requests of 1, 9 and 2 elements: the second one empties the buffer and runs in-place rounds. -/
example : (extendSeq tinyCfg (afterSetup tinyCfg [7, 7] [0, 0, 0, 0, 0])
      [[0], [0, 0, 0, 0, 0, 0, 0, 0, 0], [0, 0]]).map (fun p => p.2) =
    some [[7], [8, 9, 20, 21, 22, 43, 44, 45, 76], [77, 78]] := by decide +kernel

/-! ### C37 -/

/-- C37. After any history, a request for any number of elements stays inside the caller's buffer and inside the internal one
(an access outside would be `none`), and every delivered element is one of the first `L = n - M` of some batch. -/
theorem C37_in_bounds {c : VCfg α} {L : Nat} (hc : c.Ok L) (pre0 tr : List α) (h0 : pre0.length = c.M) (ht : tr.length = c.n)
    (bufs : List (List α)) (s : VState α) (outs : List (List α))
    (hreach : extendSeq c (afterSetup c pre0 tr) bufs = some (s, outs)) (data : List α) :
    ∃ s' d, extendMany c s data data.length = some (s', d) ∧ d.length = data.length ∧
      ∀ i, i < data.length → ∃ r j, j < L ∧ d[i]? = (batchOf c.gen L pre0 r)[j]? := by
  obtain ⟨s1, u, outs1, h1, h2, _, _, _⟩ := extendSeq_ok hc pre0 h0 bufs (afterSetup c pre0 tr) L (inv0 hc pre0 tr ht)
    (by simp [afterSetup])
  rw [hreach] at h1
  simp only [Option.some.injEq, Prod.mk.injEq] at h1
  obtain ⟨rfl, _⟩ := h1
  obtain ⟨s', _, d, a1, _, a3, _, a5⟩ := extendMany_ok hc pre0 h0 s u h2 data
  refine ⟨s', d, a1, a3, ?_⟩
  intro i hi
  exact ⟨_, _, Nat.mod_lt _ (lt_of_lt_of_le hc.pos hc.le), a5 i hi⟩

/-- C37. The `int` computations of a request stay in range, for every `int` request size. -/
theorem C37_int_range {c : VCfg α} {L : Nat} (hc : c.Ok L) (hn : c.n < 2 ^ 31) (num g : Nat) (hnum : num < 2 ^ 31) (hg : g ≤ L) (h : g < num) :
    fitsInt ((num : Int) - g - c.M) ∧ ∃ q : Nat, Int.tdiv ((num : Int) - g - c.M) c.limit = q ∧ fitsInt (q * c.limit) ∧
      fitsInt ((num : Int) - g - q * c.limit) ∧ (g : Int) + q * c.limit ≤ num := by
  obtain ⟨q, h1, h2, h3, h4⟩ := rounds_div hc num g h
  rw [hc.limit]
  have hs := hc.size
  have hql : ((q * L : Nat) : Int) = (q : Int) * L := by push_cast; ring
  refine ⟨decide_eq_true ⟨by omega, by omega⟩, q, h1, decide_eq_true ⟨?_, ?_⟩, decide_eq_true ⟨?_, ?_⟩, ?_⟩ <;> omega

/-- C37. The size assumption `M ≤ n - M` matters and is not checked by the constructor: with `n = 4`, `M = 3` a request for one
element writes outside the caller's buffer. -/
theorem C37_small_limit_overflow :
    ∃ c : VCfg U128, c.n = 4 ∧ c.M = 3 ∧ (∀ r pre, (c.gen r pre).length = c.n) ∧
      extendMany c (afterSetup c [0, 0, 0] [0, 0, 0, 0]) [0] 1 = none :=
  ⟨⟨4, 3, fun _ _ => [0, 0, 0, 0]⟩, rfl, rfl, fun _ _ => rfl, by decide +kernel⟩

/-- The default parameters satisfy the size assumption (and fit in `int`). -/
example : (10168320 : Nat) = 10005354 + (158000 + 4965 + 1) ∧ 158000 + 4965 + 1 ≤ 10005354 ∧ 10168320 < 2 ^ 31 := by norm_num

/-! ### C38 -/

/-- C38. For every `t >= 1` (such that the answer fits in the `int` parameter) the announced buffer size is accepted, filled exactly, and
yields at least `t` and fewer than `t + L` correlations: the next elements of the stream, with the reserved ones behind them. -/
theorem C38_inplace {c : VCfg α} {L : Nat} (hc : c.Ok L) (pre0 : List α) (h0 : pre0.length = c.M) (t : Nat) (ht : 0 < t)
    (hfit : (t - 1) / L * L + c.n < 2 ^ 31) (ht64 : t < 2 ^ 64) (s : VState α) (hs : s.pre = seedOf c.gen L pre0 s.round) :
    ∃ sz : Nat, memoryNeed c (BitVec.ofNat 64 t) = some (sz : Int) ∧ sz < 2 ^ 31 ∧
      ∀ data : List α, data.length = sz →
        ∃ s' d out, extendInplace c s data sz = some (some (s', d, out)) ∧ d.length = sz ∧ out + c.M = sz ∧ t ≤ out ∧ out < t + L ∧
          s'.pre = seedOf c.gen L pre0 s'.round ∧ s'.round * L = s.round * L + out ∧
          (∀ i, i < out → d[i]? = streamAt c.gen L pre0 (s.round * L + i)) ∧
          ∀ j, j < c.M → d[out + j]? = s'.pre[j]? := by
  have hL : 0 < L := lt_of_lt_of_le hc.pos hc.le
  have hn := hc.size
  have hM := hc.pos
  have hlim : c.limit.toNat = L := by rw [hc.limit, Int.toNat_natCast]
  generalize hq : (t - 1) / L = q at hfit
  have hq31 : q < 2 ^ 31 := by
    have : q * 1 ≤ q * L := Nat.mul_le_mul_left _ hL
    omega
  have hq1 : q * L ≤ t - 1 := by rw [← hq]; exact Nat.div_mul_le_self _ _
  have hq2 : t - 1 < q * L + L := by rw [← hq]; exact Nat.lt_div_mul_add hL
  have hql : ((q * L : Nat) : Int) = (q : Int) * L := by push_cast; ring
  refine ⟨q * L + c.n, ?_, hfit, ?_⟩
  · unfold memoryNeed
    have e1 : ((BitVec.ofNat 64 t) - 1).toNat = t - 1 := by
      rw [BitVec.toNat_sub, BitVec.toNat_ofNat]
      simp
      omega
    have e2 : (BitVec.ofNat 32 q).toInt = (q : Int) := by
      have e3 : (BitVec.ofNat 32 q).toNat = q := by rw [BitVec.toNat_ofNat, Nat.mod_eq_of_lt (by omega)]
      rw [BitVec.toInt_eq_toNat_of_lt (by omega), e3]
    simp only [e1, hlim, hq, e2]
    rw [hc.limit, if_pos (by unfold fitsInt; rw [decide_eq_true_eq]; omega)]
    refine congrArg some ?_
    push_cast; ring
  · intro data hdata
    have hsz : q * L + c.n = (q + 1) * L + c.M := by rw [hn]; ring
    obtain ⟨s', d, e1, e2, e3, _, _, e6, e7, e8⟩ := inplaceLoop_ok hc pre0 h0 (s.round * L) (q + 1) s data 0 hs rfl
      (fun i hi => absurd hi (by omega)) (by intro _; rw [hdata, hsz]; omega)
    refine ⟨s', d, (q + 1) * L, ?_, by rw [e6, hdata], hsz.symm, ?_, ?_, e2, ?_, ?_, ?_⟩
    · unfold extendInplace
      have o1 : ((q * L + c.n : Nat) : Int) - (c.M : Int) = (((q + 1) * L : Nat) : Int) := by rw [hsz]; push_cast; ring
      rw [if_neg (by omega)]
      simp only [o1, Int.toNat_natCast, hlim, Nat.mul_mod_left, ne_eq, not_true_eq_false, if_false, Nat.mul_div_cancel _ hL]
      simp only [Option.bind_eq_bind]
      rw [Nat.cast_zero] at e1
      rw [e1, Option.bind_some]
    · rw [Nat.add_mul, Nat.one_mul]; omega
    · rw [Nat.add_mul, Nat.one_mul]; omega
    · rw [e3]; ring
    · intro i hi
      exact e7 i (by rw [Nat.zero_add]; exact hi)
    · intro j hj
      have := e8 (by omega) j hj
      rw [Nat.zero_add] at this
      rw [this, e2, e3]

/-- C38. `extend_inplace` on any buffer: it ends with the error message exactly if the buffer is shorter than one batch or does not hold a
whole number of rounds; otherwise it fills the buffer, and it never touches memory outside of it. -/
theorem C38_any_size {c : VCfg α} {L : Nat} (hc : c.Ok L) (pre0 : List α) (h0 : pre0.length = c.M) (s : VState α)
    (hs : s.pre = seedOf c.gen L pre0 s.round) (data : List α) :
    ((data.length < c.n ∨ ¬ L ∣ data.length - c.M) ∧ extendInplace c s data data.length = some none) ∨
    (c.n ≤ data.length ∧ L ∣ data.length - c.M ∧ ∃ s' d, extendInplace c s data data.length = some (some (s', d, data.length - c.M)) ∧
      d.length = data.length ∧ s'.pre = seedOf c.gen L pre0 s'.round ∧ s'.round * L = s.round * L + (data.length - c.M) ∧
      (∀ i, i < data.length - c.M → d[i]? = streamAt c.gen L pre0 (s.round * L + i)) ∧
      ∀ j, j < c.M → d[data.length - c.M + j]? = s'.pre[j]?) := by
  have hL : 0 < L := lt_of_lt_of_le hc.pos hc.le
  have hn := hc.size
  have hlim : c.limit.toNat = L := by rw [hc.limit, Int.toNat_natCast]
  by_cases h1 : data.length < c.n
  · left
    refine ⟨Or.inl h1, ?_⟩
    unfold extendInplace
    rw [if_pos (by exact_mod_cast h1)]
  have ho : ((data.length : Int) - (c.M : Int)).toNat = data.length - c.M := by omega
  by_cases h2 : L ∣ data.length - c.M
  · right
    obtain ⟨q, hq⟩ := h2
    have hq' : data.length - c.M = q * L := by rw [hq, Nat.mul_comm]
    have hq0 : 0 < q := by
      rcases Nat.eq_zero_or_pos q with rfl | h
      · omega
      · exact h
    obtain ⟨s', d, e1, e2, e3, _, _, e6, e7, e8⟩ := inplaceLoop_ok hc pre0 h0 (s.round * L) q s data 0 hs rfl
      (fun i hi => absurd hi (by omega)) (by intro _; omega)
    refine ⟨by omega, ⟨q, hq⟩, s', d, ?_, e6, e2, by rw [e3, hq']; ring, ?_, ?_⟩
    · unfold extendInplace
      rw [if_neg (by exact_mod_cast h1)]
      simp only [ho, hlim]
      rw [hq', Nat.mul_mod_left, if_neg (by simp), Nat.mul_div_cancel _ hL]
      rw [Nat.cast_zero] at e1
      simp only [Option.bind_eq_bind]
      rw [e1, Option.bind_some]
    · intro i hi
      exact e7 i (by omega)
    · intro j hj
      have := e8 hq0 j hj
      rw [Nat.zero_add] at this
      rw [hq', this, e2, e3]
  · left
    refine ⟨Or.inr h2, ?_⟩
    unfold extendInplace
    rw [if_neg (by exact_mod_cast h1)]
    simp only [ho, hlim]
    rw [if_pos (fun h => h2 (Nat.dvd_of_mod_eq_zero h))]

/-- Seven cells are refused (one round needs five, two rounds eight), as are four. -/
example : (extendInplace tinyCfg (afterSetup tinyCfg [7, 7] [0, 0, 0, 0, 0]) (List.replicate 7 0) 7).map (fun o => o.map (fun p => p.2)) =
      some none ∧
    (extendInplace tinyCfg (afterSetup tinyCfg [7, 7] [0, 0, 0, 0, 0]) (List.replicate 4 0) 4).map (fun o => o.map (fun p => p.2)) =
      some none := by decide +kernel

/-- Four elements wanted, three per batch: two rounds, eight cells, six delivered. -/
example : memoryNeed tinyCfg 4 = some 8 ∧
    (extendInplace tinyCfg (afterSetup tinyCfg [7, 7] [0, 0, 0, 0, 0]) (List.replicate 8 0) 8).map (fun o => o.map (fun p => p.2)) =
      some (some ([7, 8, 9, 20, 21, 22, 23, 24], 6)) := by decide +kernel

/-- `t = 0` is outside the contract: the `uint64_t` subtraction wraps and the `int` product overflows. -/
example : memoryNeed tinyCfg 0 = none := by decide +kernel

end EmpZk
