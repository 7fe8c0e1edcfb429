import Verif.Lemmas.ZkRamHonest
import Verif.Props.F2kProduct
/-!
C45, C46, C50 and C54: `ZKRAM` as a memory, and what its check means.
-/
namespace EmpZk

/-! ### C45: honest runs -/

/-- C45. For widths with `index_sz + step_sz + 1 ≤ 64` and `val_sz ≤ 64` and every sequence of at least three and at most
`2^(step_sz-1)` reads, writes and accesses with fitting arguments, starting from a fresh object: the calls are well defined,
return the value of the latest write to their address (zero if there is none); the committed rows are exactly the accesses with
their positions; and if every read address was written before, the check is well defined, its condition holds, the sorted words
are a permutation of the words of the log, and both are the words packed into the MACs of the committed rows. -/
theorem C45_honest (c : RamCfg) (hc : c.isz + c.ssz + 1 ≤ 64 ∧ 1 ≤ c.isz ∧ c.vsz ≤ 64) (ops : List RamOp)
    (hfit : ∀ o ∈ ops, o.Fits c) (h3 : 3 ≤ ops.length) (hlen : ops.length ≤ 2 ^ (c.ssz - 1)) :
    ∃ st, ramRun c (ramInit c) ops = some (st, specOuts [] ops) ∧
      st.log.map RowOf.acc = specLog [] ops ∧ ReadsMem (specLog [] ops) ∧
      (∀ i (h : i < st.log.length), st.log[i].step = i) ∧
      (WrittenFirst (specLog [] ops) → ∃ st' chk, ramCheck c st = some (st', chk) ∧ chk.cond = true ∧
        chk.sorted.Perm chk.orig ∧ chk.orig = st.log.map (ramPacked c) ∧ chk.sorted = chk.rows.map (ramPacked c)) := by
  have hpow : 2 ^ (c.ssz - 1) ≤ 2 ^ c.ssz := Nat.pow_le_pow_right (by decide) (by omega)
  obtain ⟨st, h1, h2, h⟩ := ramRun_inv hc ops (ramInit c) [] (ramInit_inv c)
    (by simp only [ramInit]; omega) hfit
  have hs0 : st.step = ops.length := by rw [h2]; simp [ramInit]
  refine ⟨st, h1, h.acc, h.reads, h.steps, ?_⟩
  intro hw
  obtain ⟨st', chk, k1, k2, k3, k4, k5, k6, k7, k8⟩ := h.check hc (by omega) (by omega)
  exact ⟨st', chk, k1, k8 hw, k6, k4, k5⟩

/-- Two writes to address 3 with reads in between. -/
example : ∃ st, ramRun ⟨4, 5, 8⟩ (ramInit ⟨4, 5, 8⟩) [.write 3 7, .read 3, .access true 3 9, .access false 3 0] =
    some (st, [none, some 7, some 9, some 9]) ∧ ∃ st' chk, ramCheck ⟨4, 5, 8⟩ st = some (st', chk) ∧ chk.cond = true := by
  obtain ⟨st, h1, h2, h3, h4, h5⟩ := C45_honest ⟨4, 5, 8⟩ (by decide) [.write 3 7, .read 3, .access true 3 9, .access false 3 0]
    (by simp [RamOp.Fits]) (by decide) (by decide)
  refine ⟨st, h1, ?_⟩
  obtain ⟨st', chk, h6, h7, _⟩ := h5 (by
    intro i e he hop
    have hi := (List.getElem?_eq_some_iff.1 he).1
    have : i < 4 := by simpa [specLog] using hi
    interval_cases i <;> simp_all [specLog, RamOp.spec, lastWrite] <;> subst he <;> simp_all)
  exact ⟨st', chk, h6, h7⟩

section
variable {F : Type} [Field F] [BlockField F]

/-- C45 (commitments). The MAC ALICE packs for a row and the key BOB packs for it satisfy the MAC relation on the packed word,
for all keys and `Delta` and integers at least as wide as the RAM's widths. -/
theorem C45_packed_mac (c : RamCfg) (hc : c.isz + c.ssz + 1 ≤ 64 ∧ 1 ≤ c.isz ∧ c.vsz ≤ 64) (delta : F) (e : RamEnt)
    (wi wv ws : Nat) (ki kv ks : Nat → F) (ko : F) (hi : c.isz ≤ wi) (hv : c.vsz ≤ wv) (hs : c.ssz ≤ ws) :
    ∃ K, packMac c ((List.range wi).map ki) ((List.range wv).map kv) ((List.range ws).map ks) ko = some K ∧
      packMac c (macBits wi e.idx ki delta) (macBits wv e.val kv delta) (macBits ws e.step ks delta) (ko + bit e.op * delta) =
        some (K + wordF (ramPacked c e) * delta) :=
  packMac_key hc delta e wi wv ws ki kv ks ko hi hv hs

example (delta ko : GF128) (ki kv ks : Nat → GF128) :
    ∃ K, packMac ⟨4, 5, 8⟩ ((List.range 5).map ki) ((List.range 8).map kv) ((List.range 5).map ks) ko = some K ∧
      packMac ⟨4, 5, 8⟩ (macBits 5 3 ki delta) (macBits 8 200 kv delta) (macBits 5 1 ks delta) (ko + bit true * delta) =
        some (K + wordF (ramPacked ⟨4, 5, 8⟩ ⟨3, 1, true, 200⟩) * delta) :=
  C45_packed_mac ⟨4, 5, 8⟩ (by decide) delta ⟨3, 1, true, 200⟩ 5 8 5 ki kv ks ko (by decide) (by decide) (by decide)

end

/-! ### C46: soundness -/

/-- C46 is false as stated: the sorted list is committed with one more index bit than is packed into the MACs. For every address
`a` and values `v1 ≠ v2`, the log write `v1`, write `v2`, read `v1` at `a` is stale, yet there are sorted rows that pass the
condition and have the same packed words: the first and the last row get the index `2^index_sz + a`, "negative" for the
comparison. -/
theorem C46_false (c : RamCfg) (hs : 3 ≤ c.ssz) (a v1 v2 : Nat) (ha : a < 2 ^ c.isz) (hne : v1 ≠ v2) :
    ∃ L S : List RamEnt, L = [⟨a, 0, true, v1⟩, ⟨a, 1, true, v2⟩, ⟨a, 2, false, v1⟩] ∧ ¬ ReadsLastWrite (L.map RowOf.acc) ∧
      (∀ e ∈ S, e.idx < 2 ^ (c.isz + 1)) ∧ ramCond c S = true ∧ (S.map (ramPacked c)).Perm (L.map (ramPacked c)) := by
  refine ⟨_, [⟨2 ^ c.isz + a, 0, true, v1⟩, ⟨2 ^ c.isz + a, 2, false, v1⟩, ⟨a, 1, true, v2⟩], rfl, ?_, ?_, ?_, ?_⟩
  · intro h
    have := h 2 ⟨a, false, v1⟩ rfl rfl v2 (by simp [lastWrite, RowOf.acc])
    exact hne this
  · have : 2 ^ (c.isz + 1) = 2 * 2 ^ c.isz := by rw [pow_succ]; ring
    intro e he
    simp only [List.mem_cons, List.not_mem_nil, or_false] at he
    rcases he with rfl | rfl | rfl <;> simp only <;> omega
  · have h2 : ltW c.ssz 0 2 = true := by
      have := ltW_eq (n := c.ssz - 1) (a := 0) (b := 2) (by positivity)
        (lt_of_lt_of_le (by decide) (Nat.pow_le_pow_right (by decide) (show 2 ≤ c.ssz - 1 by omega)))
      rw [Nat.sub_add_cancel (by omega)] at this
      rw [this]
      rfl
    have h3 : ltW (c.isz + 1) (2 ^ c.isz + a) a = true := by
      unfold ltW
      have hp : 2 ^ (c.isz + 1) = 2 * 2 ^ c.isz := by rw [pow_succ]; ring
      have : 0 < 2 ^ c.isz := by positivity
      rw [show 2 ^ c.isz + a + 2 ^ (c.isz + 1) - a = 2 ^ c.isz + 2 ^ (c.isz + 1) by omega, Nat.add_mod_right,
        Nat.mod_eq_of_lt (by omega), Nat.add_sub_cancel, Nat.testBit_two_pow_self]
    simp [ramCond, ramCond2, h2, h3]
  · have : ∀ s o v, ramPacked c ⟨2 ^ c.isz + a, s, o, v⟩ = ramPacked c ⟨a, s, o, v⟩ := by
      intro s o v
      simp [ramPacked]
    simp only [List.map_cons, List.map_nil, this]
    exact (List.Perm.swap _ _ _).cons _

example : ∃ L S : List RamEnt, L = [⟨5, 0, true, 1⟩, ⟨5, 1, true, 2⟩, ⟨5, 2, false, 1⟩] ∧
    ¬ ReadsLastWrite (L.map RowOf.acc) ∧ (∀ e ∈ S, e.idx < 2 ^ (4 + 1)) ∧ ramCond ⟨4, 5, 8⟩ S = true ∧
    (S.map (ramPacked ⟨4, 5, 8⟩)).Perm (L.map (ramPacked ⟨4, 5, 8⟩)) :=
  C46_false ⟨4, 5, 8⟩ (by decide) 5 1 2 (by decide) (by decide)

/-- C46 (what holds). If the committed sorted rows have the extra index bit zero, satisfy the condition, and have the same
multiset of packed words as the log, then in the log (of at most `2^(step_sz-1)` accesses) every read returns the latest value
written to its address; a read of an address never accessed before can only be of the smallest address in the log. Missing from C46
as stated: the extra index bit, which nothing forces to be zero (`C46_false`), and reads of the smallest address before its
first write. -/
theorem C46_partial (c : RamCfg) (hc : c.isz + c.ssz + 1 ≤ 64 ∧ 1 ≤ c.isz ∧ c.vsz ≤ 64) (hs : 1 ≤ c.ssz) (L S : List RamEnt)
    (hL : ∀ e ∈ L, e.Fits c) (hstep : ∀ i (h : i < L.length), L[i].step = i) (hlen : L.length ≤ 2 ^ (c.ssz - 1))
    (hS : ∀ e ∈ S, e.idx < 2 ^ c.isz ∧ e.step < 2 ^ c.ssz ∧ e.val < 2 ^ c.vsz) (hcond : ramCond c S = true)
    (hperm : (S.map (ramPacked c)).Perm (L.map (ramPacked c))) :
    ReadsLastWrite (L.map RowOf.acc) ∧
      ∀ i (h : i < L.length), L[i].op = false → (∀ j (hj : j < i), L[j].idx ≠ L[i].idx) → ∀ e ∈ L, L[i].idx ≤ e.idx := by
  have hp := perm_of_packed hc L S hL hS hperm
  have hch : S.IsChain RowOf.Adj := by
    rw [← chain_adj hs S (fun e he => (hS e he).1)]
    · exact hcond
    · intro e he
      obtain ⟨i, hi, rfl⟩ := List.getElem_of_mem (hp.mem_iff.1 he)
      rw [hstep i hi]
      omega
  exact ⟨(chain_readsPrev L S hp hstep hch).last, chain_first L S hp hstep hch⟩

/-- Two addresses, sorted honestly. -/
example : ReadsLastWrite ([⟨5, 0, true, 1⟩, ⟨2, 1, true, 2⟩, ⟨5, 2, false, 1⟩].map RowOf.acc) :=
  (C46_partial ⟨4, 5, 8⟩ (by decide) (by decide) [⟨5, 0, true, 1⟩, ⟨2, 1, true, 2⟩, ⟨5, 2, false, 1⟩]
    [⟨2, 1, true, 2⟩, ⟨5, 0, true, 1⟩, ⟨5, 2, false, 1⟩] (by simp [RowOf.Fits])
    (by intro i h; simp at h; interval_cases i <;> rfl) (by decide) (by simp) (by decide)
    (by simpa using List.Perm.swap _ _ _)).1

section
variable {F : Type} [Field F] [PackField F] [DecidableEq F] [Fintype F]

open Classical in
/-- C46 (through the comparison of products). A log with a stale read, sorted rows whose extra index bits are zero and which pass
the condition, MACs on the packed rows: whatever outputs the prover commits for the product gates and whatever MACs it sends at
the end, all as functions of the challenge, the comparison is passed with right gates for at most `(n + 1) * |F|` of the pairs
(challenge, `Delta`), out of `|F|^2`. -/
theorem C46_protocol (c : RamCfg) (hc : c.isz + c.ssz + 1 ≤ 64 ∧ 1 ≤ c.isz ∧ c.vsz ≤ 64) (hs : 1 ≤ c.ssz) (L S : List RamEnt)
    (hL : ∀ e ∈ L, e.Fits c) (hstep : ∀ i (h : i < L.length), L[i].step = i) (hlen : L.length ≤ 2 ^ (c.ssz - 1))
    (hn : 3 ≤ L.length) (hSl : S.length = L.length)
    (hS : ∀ e ∈ S, e.idx < 2 ^ c.isz ∧ e.step < 2 ^ c.ssz ∧ e.val < 2 ^ c.vsz) (hcond : ramCond c S = true)
    (hstale : ¬ ReadsLastWrite (L.map RowOf.acc))
    (xs ys : List (F × F)) (hx : xs.map Prod.fst = S.map (fun e => wordF (ramPacked c e)))
    (hy : ys.map Prod.fst = L.map (fun e => wordF (ramPacked c e)))
    (outs0 outs1 : F → Nat → F × F) (msg : F → F × F) :
    (Finset.univ.filter (fun q : F × F => ∃ g0 f0 g1 f1 ks0 ks1,
      productPrv true (bchGroups 4 xs.length xs.length) q.1 xs (outs0 q.1) = some (g0, f0) ∧ (∀ g ∈ g0, g.Ok) ∧
      productPrv true (bchGroups 4 ys.length ys.length) q.1 ys (outs1 q.1) = some (g1, f1) ∧ (∀ g ∈ g1, g.Ok) ∧
      productVer true (bchGroups 4 xs.length xs.length) q.2 q.1 (xs.map (keyF q.2)) (fun i => keyF q.2 (outs0 q.1 i)) =
        some ks0 ∧
      productVer true (bchGroups 4 ys.length ys.length) q.2 q.1 (ys.map (keyF q.2)) (fun i => keyF q.2 (outs1 q.1 i)) =
        some ks1 ∧
      setEqVer ks0.2 ks1.2 (msg q.1).1 (msg q.1).2 = true)).card ≤ (L.length + 1) * Fintype.card F := by
  have hxl : xs.length = L.length := by
    rw [← List.length_map (f := Prod.fst) (as := xs), hx, List.length_map, hSl]
  have hyl : ys.length = L.length := by
    rw [← List.length_map (f := Prod.fst) (as := ys), hy, List.length_map]
  have h64 : L.length < 2 ^ 64 := by
    have : 2 ^ (c.ssz - 1) < 2 ^ 64 := Nat.pow_lt_pow_right (by decide) (by omega)
    omega
  have h := C47_sound (F := F) true 4 (by decide) xs ys
    (by intro h0; rw [h0] at hxl; simp at hxl; omega) (by omega) (by omega) (by omega)
    (by
      intro hp
      apply hstale
      rw [hx, hy] at hp
      have hp' : ((S.map (ramPacked c)).map (wordF (F := F))).Perm ((L.map (ramPacked c)).map wordF) := by
        rw [List.map_map, List.map_map]; exact hp
      have hlt : ∀ l : List RamEnt, ∀ a ∈ l.map (ramPacked c), a < 2 ^ 128 := by
        intro l a ha
        obtain ⟨e, _, rfl⟩ := List.mem_map.1 ha
        exact ramPacked_lt hc e
      exact (C46_partial c hc hs L S hL hstep hlen hS hcond (perm_wordF (hlt S) (hlt L) hp')).1)
    outs0 outs1 msg
  rw [hxl] at h ⊢
  exact h

end

/-- The hypotheses of `C46_protocol` can be met: a stale read, hidden by rows that pass the condition. -/
example : ramCond ⟨4, 5, 8⟩ [⟨5, 0, true, 1⟩, ⟨5, 1, true, 1⟩, ⟨5, 2, false, 1⟩] = true ∧
    ¬ ReadsLastWrite ([⟨5, 0, true, 1⟩, ⟨5, 1, true, 2⟩, ⟨5, 2, false, 1⟩].map RowOf.acc) := by
  refine ⟨by decide, ?_⟩
  intro h
  have := h 2 ⟨5, false, 1⟩ rfl rfl 2 (by decide)
  exact absurd this (by decide)

/-! ### C50: after a check -/

/-- C50 is false as stated: `check()` clears the memory vector, so every later read, write or access is out of bounds, whatever the
address. -/
theorem C50_false (c : RamCfg) (st st' : RamState) (chk : RamChk) (h : ramCheck c st = some (st', chk)) (o : RamOp) :
    ramStep c st' o = none := by
  have : st'.mem = [] := by
    unfold ramCheck at h
    simp only [Option.bind_eq_bind, Option.bind_eq_some_iff, Option.some.injEq, Prod.mk.injEq] at h
    obtain ⟨_, _, _, _, h, _⟩ := h
    rw [← h]
  cases o <;> simp [ramStep, ramRead, ramWrite, ramAccess, this]

/-- The check of a run of three accesses. -/
example : ∃ st st' chk, ramCheck ⟨4, 5, 8⟩ st = some (st', chk) ∧ ramStep ⟨4, 5, 8⟩ st' (.read 0) = none := by
  refine ⟨⟨List.replicate 16 0, [7, 8, 9], [], 3⟩, ⟨[], [], [], 0⟩, _, ramCheck_eq rfl (by decide) (by decide), ?_⟩
  exact C50_false ⟨4, 5, 8⟩ _ _ _ (ramCheck_eq (c := ⟨4, 5, 8⟩) (st := ⟨List.replicate 16 0, [7, 8, 9], [], 3⟩) rfl (by decide)
    (by decide)) _

/-- C50 is false as stated: `refresh()` is undefined whenever it does anything, because it writes back after the check. -/
theorem C50_refresh_false (c : RamCfg) (st : RamState) (h : st.step + 2 ^ c.isz = 2 ^ (c.ssz - 1)) : ramRefresh c st = none := by
  rw [ramRefresh, if_pos h]
  cases h1 : ramReadAll c st (List.range (2 ^ c.isz)) with
  | none => rfl
  | some p =>
    obtain ⟨st1, vs⟩ := p
    simp only [Option.bind_eq_bind, Option.bind_some]
    cases h2 : ramCheck c st1 with
    | none => rfl
    | some q =>
      obtain ⟨st2, chk⟩ := q
      simp only [Option.bind_some]
      obtain ⟨m, hm⟩ : ∃ m, 2 ^ c.isz = m + 1 := ⟨2 ^ c.isz - 1, by have : 0 < 2 ^ c.isz := (by positivity); omega⟩
      rw [hm, List.range_succ_eq_map] at h1 ⊢
      simp only [ramReadAll, Option.bind_eq_bind, Option.bind_eq_some_iff] at h1
      obtain ⟨⟨a, v⟩, _, ⟨b, vs'⟩, _, h1⟩ := h1
      simp only [Option.some.injEq, Prod.mk.injEq] at h1
      rw [← h1.2, List.zip_cons_cons, ramWriteAll]
      have h3 := C50_false c st1 st2 chk h2 (.write (0 % 2 ^ c.isz) v)
      simp only [ramStep, Option.map_eq_none_iff] at h3
      simp only [h3, Option.bind_eq_bind, Option.bind_none]

/-- Addresses of one bit and steps of three bits: after two accesses `refresh()` triggers. -/
example : ∃ st, ramRun ⟨1, 3, 8⟩ (ramInit ⟨1, 3, 8⟩) [.write 0 7, .write 1 8] = some (st, [none, none]) ∧
    ramRefresh ⟨1, 3, 8⟩ st = none :=
  ⟨_, rfl, C50_refresh_false _ _ (by decide)⟩

/-- C50 (what holds). Before the first check or triggered refresh every sequence of calls with fitting arguments is well defined,
and a refresh that does not trigger changes nothing. Missing from C50 as stated: everything after the first check
(`C50_false`, `C50_refresh_false`). -/
theorem C50_partial (c : RamCfg) (hc : c.isz + c.ssz + 1 ≤ 64 ∧ 1 ≤ c.isz ∧ c.vsz ≤ 64) (ops : List RamOp)
    (hfit : ∀ o ∈ ops, o.Fits c) (hlen : ops.length ≤ 2 ^ c.ssz) :
    ∃ st, ramRun c (ramInit c) ops = some (st, specOuts [] ops) ∧
      (∀ a, a < 2 ^ c.isz → st.mem[a]? = some ((lastWrite (specLog [] ops) a).getD 0)) ∧
      (ops.length + 2 ^ c.isz ≠ 2 ^ (c.ssz - 1) → ramRefresh c st = some st) := by
  obtain ⟨st, h1, h2, h⟩ := ramRun_inv hc ops (ramInit c) [] (ramInit_inv c) (by simp only [ramInit]; omega) hfit
  refine ⟨st, h1, h.mem, ?_⟩
  intro hne
  rw [ramRefresh, if_neg]
  rw [h2]
  simpa [ramInit] using hne

example : ∃ st, ramRun ⟨4, 5, 8⟩ (ramInit ⟨4, 5, 8⟩) [.write 3 7, .read 3] = some (st, [none, some 7]) ∧
    ramRefresh ⟨4, 5, 8⟩ st = some st := by
  obtain ⟨st, h1, _, h3⟩ := C50_partial ⟨4, 5, 8⟩ (by decide) [.write 3 7, .read 3] (by simp [RamOp.Fits]) (by decide)
  exact ⟨st, h1, h3 (by decide)⟩

/-! ### C54: visibility of failures -/

/-- C54 is false as stated: a stale read caught by the condition alone leaves no trace but a line of text. For every address and
values `v1 ≠ v2` there is a log with a stale read, rows with the same packed words, failing the condition, on which BOB's program
goes on when the other checks pass; the same holds when the check of the two-operand products fails. -/
theorem C54_false (c : RamCfg) (a v1 v2 : Nat) (hne : v1 ≠ v2) :
    (∃ L S : List RamEnt, ¬ ReadsLastWrite (L.map RowOf.acc) ∧ (S.map (ramPacked c)).Perm (L.map (ramPacked c)) ∧
      L.head? = some ⟨a, 0, true, v1⟩ ∧ ramCond c S = false ∧ ramVisible (ramCond c S) true true true = .quiet) ∧
    (∀ cond, ramVisible cond true true false = .quiet) := by
  refine ⟨⟨[⟨a, 0, true, v1⟩, ⟨a, 1, true, v2⟩, ⟨a, 2, false, v1⟩], [⟨a, 0, true, v1⟩, ⟨a, 1, true, v2⟩, ⟨a, 2, false, v1⟩],
    ?_, List.Perm.refl _, rfl, ?_, ?_⟩, ?_⟩
  · intro h
    have := h 2 ⟨a, false, v1⟩ rfl rfl v2 (by simp [lastWrite, RowOf.acc])
    exact hne this
  · have : (v2 == v1) = false := by simpa using Ne.symm hne
    simp [ramCond, ramCond2, this]
  · cases ramCond c [⟨a, 0, true, v1⟩, ⟨a, 1, true, v2⟩, ⟨a, 2, false, v1⟩] <;> rfl
  · intro cond
    cases cond <;> rfl

example : ∃ L S : List RamEnt, ¬ ReadsLastWrite (L.map RowOf.acc) ∧
    (S.map (ramPacked ⟨4, 5, 8⟩)).Perm (L.map (ramPacked ⟨4, 5, 8⟩)) ∧ L.head? = some ⟨3, 0, true, 1⟩ ∧
    ramCond ⟨4, 5, 8⟩ S = false ∧ ramVisible (ramCond ⟨4, 5, 8⟩ S) true true true = .quiet :=
  (C54_false ⟨4, 5, 8⟩ 3 1 2 (by decide)).1

/-- C54 (what holds). A failed comparison of products or a failed batch check of products of three to five operands stops BOB's
program, whatever the other checks give, and so does a failed condition of `ROZKRAM` and `ZkRamExt`. Missing from C54 as stated:
the condition of `ZKRAM` and the check of two-operand products (`C54_false`). -/
theorem C54_partial (cond setEq poly mul : Bool) (h : setEq = false ∨ poly = false) :
    ramVisible cond setEq poly mul = .abort ∧ roCondVisible false = .abort ∧ extCondVisible false = .abort := by
  refine ⟨?_, rfl, rfl⟩
  cases cond <;> cases setEq <;> cases poly <;> cases mul <;> simp at h <;> rfl

example : ramVisible true false true true = .abort := (C54_partial true false true true (Or.inl rfl)).1

end EmpZk
