import Verif.Lemmas.RamExtCheck
import Verif.Lemmas.Compress
import Verif.Props.ZkRam
/-!
C50, C52, C53 and C70 for `ZkRamExt`, the RAM with cells of several words.
-/
namespace EmpZk

/-! ### C52: packing -/

/-- C52 (packing is injective). For index widths up to 32, step widths up to 31 and every number of words: packing a row is well
defined, gives one 128-bit word for the first value word and one for every two further ones, and different rows get
different words. -/
theorem C52_injective (c : RxCfg) (hc : c.isz ≤ 32 ∧ c.ssz ≤ 31 ∧ 1 ≤ c.vsz) (e f : ExtEnt) (he : e.FitsX c) (hf : f.FitsX c) :
    (∃ row, extPack e.idx e.val e.step e.op = some row ∧ row.length = c.words / 2 + 1) ∧
      (extPack e.idx e.val e.step e.op = extPack f.idx f.val f.step f.op → e = f) := by
  refine ⟨⟨_, extPack_eq hc he, ?_⟩, ?_⟩
  · obtain ⟨i, s, o, v⟩ := e
    obtain ⟨_, _, a3, _⟩ := he
    have hw : 1 ≤ c.words := by unfold RxCfg.words; omega
    cases v with
    | nil => simp only [List.length_nil] at a3; omega
    | cons v vs =>
      simp only [extRow, List.length_cons, pairs_length] at a3 ⊢
      omega
  · rw [extPack_eq hc he, extPack_eq hc hf, Option.some.injEq]
    exact extRow_inj hc he hf

/-- Cells of 200 bits (four words): rows that differ in the last word only. -/
example : extPack 5 [1, 2, 3, 4] 7 true ≠ extPack 5 [1, 2, 3, 5] 7 true := fun h => by
  have := (C52_injective ⟨8, 10, 200⟩ (by decide) ⟨5, 7, true, [1, 2, 3, 4]⟩ ⟨5, 7, true, [1, 2, 3, 5]⟩
    ⟨by decide, by decide, by decide, by decide⟩ ⟨by decide, by decide, by decide, by decide⟩).2 h
  simp at this

/-- C52 is false as stated: with cells of at most 64 bits (one word), no packed row can be taken apart by `check()`: the bound of
its loop wraps around and it reads past the end of the row. -/
theorem C52_false (c : RxCfg) (hc : c.isz ≤ 32 ∧ c.ssz ≤ 31 ∧ 1 ≤ c.vsz) (h1 : c.vsz ≤ 64) (e : ExtEnt) (he : e.FitsX c) :
    ∃ row, extPack e.idx e.val e.step e.op = some row ∧ extUnpack c row = none := by
  have hw : c.words = 1 := by unfold RxCfg.words; omega
  refine ⟨_, extPack_eq hc he, ?_⟩
  obtain ⟨i, s, o, v⟩ := e
  obtain ⟨_, _, a3, _⟩ := he
  cases v with
  | nil => simp only [List.length_nil] at a3; omega
  | cons v vs =>
    simp only [List.length_cons] at a3
    have : vs = [] := List.length_eq_zero_iff.1 (by omega)
    subst this
    exact extUnpack_one hw _

/-- Cells of 64 bits. -/
example : ∃ row, extPack 5 [9] 7 true = some row ∧ extUnpack ⟨8, 10, 64⟩ row = none :=
  C52_false ⟨8, 10, 64⟩ (by decide) (by decide) ⟨5, 7, true, [9]⟩ ⟨by decide, by decide, by decide, by decide⟩

/-- C52 (what holds). With at least two words per cell, `check()` takes every packed row apart into exactly the row that was
packed. Missing from C52 as stated: cells of at most 64 bits (`C52_false`). -/
theorem C52_partial (c : RxCfg) (hc : c.isz ≤ 32 ∧ c.ssz ≤ 31 ∧ 1 ≤ c.vsz) (h1 : 64 < c.vsz) (h2 : c.vsz < 2 ^ 64) (e : ExtEnt)
    (he : e.FitsX c) : ∃ row, extPack e.idx e.val e.step e.op = some row ∧ extUnpack c row = some e :=
  ⟨_, extPack_eq hc he, extUnpack_eq hc (by unfold RxCfg.words; omega) (by unfold RxCfg.words; omega) he⟩

example : ∃ row, extPack 5 [1, 2, 3, 4] 7 true = some row ∧ extUnpack ⟨8, 10, 200⟩ row = some ⟨5, 7, true, [1, 2, 3, 4]⟩ :=
  C52_partial ⟨8, 10, 200⟩ (by decide) (by decide) (by decide) ⟨5, 7, true, [1, 2, 3, 4]⟩
    ⟨by decide, by decide, by decide, by decide⟩

section
variable {F : Type} [Field F] [BlockField F]

/-- C52 (commitments). For all keys and `Delta`: ALICE's packed MACs and BOB's packed keys of a row satisfy the MAC relation word by
word on the packed words, and so do their combinations with any coefficients. `vs` lists the value words with the keys of
their bits. -/
theorem C52_mac (c : RxCfg) (hc : c.isz ≤ 32 ∧ c.ssz ≤ 31 ∧ 1 ≤ c.vsz) (delta : F) (e : ExtEnt) (he : e.FitsX c)
    (vs : List (Nat × (Nat → F))) (hvs : vs.map Prod.fst = e.val) (ki ks : Nat → F) (ko : F) (coef : List F)
    (hco : coef.length = c.words / 2 + 1) :
    ∃ row Ks Ms X K, extPack e.idx e.val e.step e.op = some row ∧
      extPackMac ((List.range c.isz).map ki) (vs.map (fun p => (List.range 64).map p.2)) ((List.range c.ssz).map ks) ko =
        some Ks ∧
      extPackMac (macBits c.isz e.idx ki delta) (vs.map (fun p => macBits 64 p.1 p.2 delta)) (macBits c.ssz e.step ks delta)
        (ko + bit e.op * delta) = some Ms ∧
      Ms = List.zipWith (fun k w => k + wordF w * delta) Ks row ∧ Ks.length = row.length ∧
      compressRow coef (row.map wordF) coef.length = some X ∧ compressRow coef Ks coef.length = some K ∧
      compressRow coef Ms coef.length = some (K + X * delta) := by
  obtain ⟨Ks, k1, k2, k3⟩ := extPackMac_key hc delta e vs hvs he ki ks ko
  obtain ⟨row, r1, r2⟩ := (C52_injective c hc e e he he).1
  rw [extPack_eq hc he, Option.some.injEq] at r1
  subst r1
  refine ⟨_, Ks, _, rowDot coef ((extRow e).map wordF), rowDot coef Ks, extPack_eq hc he, k1, k3, rfl, k2, ?_, ?_, ?_⟩
  · exact compressRow_full (by rw [List.length_map, r2, hco])
  · exact compressRow_full (by rw [k2, r2, hco])
  · rw [compressRow_full (by rw [List.length_zipWith, k2, r2, hco, min_self]), Option.some.injEq]
    have := rowDot_mac delta coef Ks ((extRow e).map wordF) (by rw [List.length_map, k2])
    rw [← this, List.zipWith_map_right]

/-- Three words per cell, arbitrary keys. -/
example (delta ko : GF128) (ki ks k0 k1 k2 : Nat → GF128) (a b : GF128) :
    ∃ row Ks Ms X K, extPack 5 [1, 2, 3] 7 true = some row ∧
      extPackMac ((List.range 8).map ki) ([(1, k0), (2, k1), (3, k2)].map (fun p => (List.range 64).map p.2))
        ((List.range 10).map ks) ko = some Ks ∧
      extPackMac (macBits 8 5 ki delta) ([(1, k0), (2, k1), (3, k2)].map (fun p => macBits 64 p.1 p.2 delta))
        (macBits 10 7 ks delta) (ko + bit true * delta) = some Ms ∧
      Ms = List.zipWith (fun k w => k + wordF w * delta) Ks row ∧ Ks.length = row.length ∧
      compressRow [a, b] (row.map wordF) 2 = some X ∧ compressRow [a, b] Ks 2 = some K ∧
      compressRow [a, b] Ms 2 = some (K + X * delta) :=
  C52_mac ⟨8, 10, 192⟩ (by decide) delta ⟨5, 7, true, [1, 2, 3]⟩ ⟨by decide, by decide, by decide, by decide⟩
    [(1, k0), (2, k1), (3, k2)] rfl ki ks ko [a, b] rfl

end

/-! ### C53: soundness -/

/-- C53 is false as stated: neighbouring rows only need different indices, not increasing ones, so the rows of an address can be
split into two groups. For all addresses `a ≠ b` and values `v1 ≠ v2`: the log write `v1`, write `v2`, read `v1` at `a` and a write
at `b` has a stale read, and a permutation of its rows passes the condition. -/
theorem C53_false (c : RxCfg) (hs : 3 ≤ c.ssz) (a b : Nat) (v1 v2 w : List Nat) (hab : a ≠ b) (hne : v1 ≠ v2) :
    ∃ L S : List ExtEnt, L = [⟨a, 0, true, v1⟩, ⟨a, 1, true, v2⟩, ⟨a, 2, false, v1⟩, ⟨b, 3, true, w⟩] ∧ S.Perm L ∧
      extCond c S = true ∧ ¬ ReadsLastWrite (L.map RowOf.acc) := by
  refine ⟨_, [⟨a, 0, true, v1⟩, ⟨a, 2, false, v1⟩, ⟨b, 3, true, w⟩, ⟨a, 1, true, v2⟩], rfl, ?_, ?_, ?_⟩
  · refine List.Perm.cons _ ?_
    exact (List.perm_middle (l₁ := [(⟨a, 2, false, v1⟩ : ExtEnt), ⟨b, 3, true, w⟩]) (a := ⟨a, 1, true, v2⟩) (l₂ := []))
  · have h2 : ltW c.ssz 0 2 = true := by
      have := ltW_eq (n := c.ssz - 1) (a := 0) (b := 2) (by positivity)
        (lt_of_lt_of_le (by decide) (Nat.pow_le_pow_right (by decide) (show 2 ≤ c.ssz - 1 by omega)))
      rw [Nat.sub_add_cancel (by omega)] at this
      rw [this]
      rfl
    simp [extCond, extCond2, h2, hab, Ne.symm hab]
  · intro h
    exact hne (h 2 ⟨a, false, v1⟩ rfl rfl v2 (by simp [lastWrite, RowOf.acc]))

example : ∃ L S : List ExtEnt, L = [⟨5, 0, true, [1, 1]⟩, ⟨5, 1, true, [2, 2]⟩, ⟨5, 2, false, [1, 1]⟩, ⟨6, 3, true, [0, 0]⟩] ∧
    S.Perm L ∧ extCond ⟨8, 10, 128⟩ S = true ∧ ¬ ReadsLastWrite (L.map RowOf.acc) :=
  C53_false ⟨8, 10, 128⟩ (by decide) 5 6 [1, 1] [2, 2] [0, 0] (by decide) (by decide)

/-- C53 is false as stated (first reads). Reads of an address before any write may return any value. -/
theorem C53_first_read_false (c : RxCfg) (hs : 3 ≤ c.ssz) (a : Nat) (v : List Nat) :
    ∃ L : List ExtEnt, L = [⟨a, 0, false, v⟩, ⟨a, 1, false, v⟩, ⟨a, 2, false, v⟩] ∧ extCond c L = true ∧
      ¬ WrittenFirst (L.map RowOf.acc) := by
  refine ⟨_, rfl, ?_, ?_⟩
  · have h2 : ∀ x y, x < 4 → y < 4 → ltW c.ssz x y = decide (x < y) := by
      intro x y hx hy
      have hp : 4 ≤ 2 ^ (c.ssz - 1) := by
        have := Nat.pow_le_pow_right (show 0 < 2 by decide) (show 2 ≤ c.ssz - 1 by omega)
        simpa using this
      have := ltW_eq (n := c.ssz - 1) (a := x) (b := y) (by omega) (by omega)
      rwa [Nat.sub_add_cancel (by omega)] at this
    simp [extCond, extCond2, h2]
  · intro h
    obtain ⟨w, hw⟩ := h 0 ⟨a, false, v⟩ rfl rfl
    simp [lastWrite] at hw

example : ∃ L : List ExtEnt, L = [⟨5, 0, false, [1, 1]⟩, ⟨5, 1, false, [1, 1]⟩, ⟨5, 2, false, [1, 1]⟩] ∧
    extCond ⟨8, 10, 128⟩ L = true ∧ ¬ WrittenFirst (L.map RowOf.acc) :=
  C53_first_read_false ⟨8, 10, 128⟩ (by decide) 5 [1, 1]

/-- C53 (what holds). If in the committed sorted rows the rows of each index follow one another, the condition holds, and the
multisets of packed rows agree, then in the log (of at most `2^(step_sz-1)` accesses) every read returns the latest value written
to its address. Missing from C53 as stated: the grouping, which nothing enforces (`C53_false`), and reads before the first
write of an address (`C53_first_read_false`). -/
theorem C53_partial (c : RxCfg) (hc : c.isz ≤ 32 ∧ c.ssz ≤ 31 ∧ 1 ≤ c.vsz) (hs : 1 ≤ c.ssz) (L S : List ExtEnt)
    (hL : ∀ e ∈ L, e.FitsX c) (hS : ∀ e ∈ S, e.FitsX c) (hstep : ∀ i (h : i < L.length), L[i].step = i)
    (hlen : L.length ≤ 2 ^ (c.ssz - 1))
    (hgroup : ∀ i j k (hk : k < S.length) (hjk : j < k) (hij : i < j), S[i].idx = S[k].idx → S[j].idx = S[i].idx)
    (hcond : extCond c S = true)
    (hperm : (S.map (fun e => extPack e.idx e.val e.step e.op)).Perm (L.map (fun e => extPack e.idx e.val e.step e.op))) :
    ReadsLastWrite (L.map RowOf.acc) := by
  classical
  let f : ExtEnt → Option (List Nat) := fun e => extPack e.idx e.val e.step e.op
  let g : Option (List Nat) → ExtEnt := fun x => if h : ∃ e : ExtEnt, e.FitsX c ∧ f e = x then h.choose else ⟨0, 0, false, []⟩
  have hg : ∀ e : ExtEnt, e.FitsX c → g (f e) = e := by
    intro e he
    have hex : ∃ e' : ExtEnt, e'.FitsX c ∧ f e' = f e := ⟨e, he, rfl⟩
    simp only [g, dif_pos hex]
    exact (C52_injective c hc _ _ hex.choose_spec.1 he).2 hex.choose_spec.2
  have hp : S.Perm L := perm_of_leftInv f g (fun e he => hg e (hS e he)) (fun e he => hg e (hL e he)) hperm
  have hch : S.IsChain RowOf.AdjX := by
    rw [← extCond_iff hs S]
    · exact hcond
    · intro e he
      obtain ⟨i, hi, rfl⟩ := List.getElem_of_mem (hp.mem_iff.1 he)
      rw [hstep i hi]
      omega
  exact (ext_readsPrev L S hp hstep hch hgroup).last

/-- Two addresses, sorted in decreasing order of addresses. -/
example : ReadsLastWrite ([⟨2, 0, true, [1, 1]⟩, ⟨5, 1, true, [2, 2]⟩, ⟨2, 2, false, [1, 1]⟩].map RowOf.acc) :=
  C53_partial ⟨8, 10, 128⟩ (by decide) (by decide) [⟨2, 0, true, [1, 1]⟩, ⟨5, 1, true, [2, 2]⟩, ⟨2, 2, false, [1, 1]⟩]
    [⟨5, 1, true, [2, 2]⟩, ⟨2, 0, true, [1, 1]⟩, ⟨2, 2, false, [1, 1]⟩]
    (by simp [RowOf.FitsX, RxCfg.words]) (by simp [RowOf.FitsX, RxCfg.words])
    (by intro i h; simp at h; interval_cases i <;> rfl) (by decide)
    (by
      intro i j k hk hjk hij
      have : k < 3 := hk
      have : k = 2 := by omega
      have : j = 1 := by omega
      have : i = 0 := by omega
      subst_vars
      intro h
      exact absurd h (by simp)) (by decide)
    (by simpa using List.Perm.swap _ _ _)

section
variable {F : Type} [Field F] [PackField F] [DecidableEq F] [Fintype F]

omit [PackField F] [DecidableEq F] [Fintype F] in
theorem rowDot_ofFn {b : Nat} (cf a : Fin b → F) : rowDot (List.ofFn cf) (List.ofFn a) = ∑ i, a i * cf i := by
  have : List.zipWith (· * ·) (List.ofFn cf) (List.ofFn a) = List.ofFn (fun i => cf i * a i) := by
    apply List.ext_getElem
    · simp
    · intro i h1 h2
      simp
  rw [rowDot, this, List.sum_ofFn]
  exact Finset.sum_congr rfl (fun i _ => mul_comm _ _)

open Classical in
/-- C53 (through compression and the comparison of products). A log with a stale read, sorted rows in which the rows of each index
follow one another and which pass the condition. The rows are compressed with `b` random coefficients and compared at a challenge
`r ≠ 0`, which may be a constant. Whatever MACs, gate outputs and messages the prover chooses, all as functions of the coefficients,
the comparison is passed with right gates for at most `(n + 1) * |F|^b` of the `|F|^(b+1)` pairs (coefficients, `Delta`). -/
theorem C53_protocol (c : RxCfg) (hc : c.isz ≤ 32 ∧ c.ssz ≤ 31 ∧ 1 ≤ c.vsz) (hs : 1 ≤ c.ssz) (L S : List ExtEnt)
    (hL : ∀ e ∈ L, e.FitsX c) (hS : ∀ e ∈ S, e.FitsX c) (hstep : ∀ i (h : i < L.length), L[i].step = i)
    (hlen : L.length ≤ 2 ^ (c.ssz - 1)) (hn : 3 ≤ L.length) (hSl : S.length = L.length)
    (hgroup : ∀ i j k (hk : k < S.length) (hjk : j < k) (hij : i < j), S[i].idx = S[k].idx → S[j].idx = S[i].idx)
    (hcond : extCond c S = true) (hstale : ¬ ReadsLastWrite (L.map RowOf.acc))
    (b : Nat) (hb : b = c.words / 2 + 1) (r : F) (hr : r ≠ 0) (xs ys : (Fin b → F) → List (F × F))
    (hx : ∀ cf, ((xs cf).map Prod.fst).map some = S.map (fun e =>
      (extPack e.idx e.val e.step e.op).bind (fun row => compressRow (List.ofFn cf) (row.map wordF) b)))
    (hy : ∀ cf, ((ys cf).map Prod.fst).map some = L.map (fun e =>
      (extPack e.idx e.val e.step e.op).bind (fun row => compressRow (List.ofFn cf) (row.map wordF) b)))
    (outs0 outs1 : (Fin b → F) → Nat → F × F) (msg : (Fin b → F) → F × F) :
    (Finset.univ.filter (fun q : (Fin b → F) × F => ∃ g0 f0 g1 f1 ks0 ks1,
      productPrv true (bchGroups 4 L.length L.length) r (xs q.1) (outs0 q.1) = some (g0, f0) ∧ (∀ g ∈ g0, g.Ok) ∧
      productPrv true (bchGroups 4 L.length L.length) r (ys q.1) (outs1 q.1) = some (g1, f1) ∧ (∀ g ∈ g1, g.Ok) ∧
      productVer true (bchGroups 4 L.length L.length) q.2 r ((xs q.1).map (keyF q.2)) (fun i => keyF q.2 (outs0 q.1 i)) =
        some ks0 ∧
      productVer true (bchGroups 4 L.length L.length) q.2 r ((ys q.1).map (keyF q.2)) (fun i => keyF q.2 (outs1 q.1 i)) =
        some ks1 ∧
      setEqVer ks0.2 ks1.2 (msg q.1).1 (msg q.1).2 = true)).card ≤ (L.length + 1) * Fintype.card F ^ b := by
  have h64 : L.length < 2 ^ 64 := by
    have : 2 ^ (c.ssz - 1) < 2 ^ 64 := Nat.pow_lt_pow_right (by decide) (by omega)
    omega
  -- rows as vectors
  have hlenRow : ∀ e : ExtEnt, e.FitsX c → ((extRow e).map (wordF (F := F))).length = b := by
    intro e he
    obtain ⟨row, r1, r2⟩ := (C52_injective c hc e e he he).1
    rw [extPack_eq hc he, Option.some.injEq] at r1
    rw [List.length_map, r1, r2, hb]
  let vec : ExtEnt → (Fin b → F) := fun e i => ((extRow e).map (wordF (F := F))).getD i 0
  have hvec : ∀ e : ExtEnt, e.FitsX c → List.ofFn (vec e) = (extRow e).map wordF := by
    intro e he
    apply List.ext_getElem
    · simp [hlenRow e he]
    · intro i h1 h2
      simp only [List.getElem_ofFn, vec]
      rw [List.getD_eq_getElem?_getD, List.getElem?_eq_getElem h2, Option.getD_some]
  have hval : ∀ (l : List ExtEnt) (zs : List F) (cf : Fin b → F), (∀ e ∈ l, e.FitsX c) →
      zs.map some = l.map (fun e => (extPack e.idx e.val e.step e.op).bind
        (fun row => compressRow (List.ofFn cf) (row.map wordF) b)) →
      zs = (l.map vec).map (fun a => ∑ i, a i * cf i) := by
    intro l zs cf hl h
    have e1 : l.map (fun e => (extPack e.idx e.val e.step e.op).bind
        (fun row => compressRow (List.ofFn cf) (row.map wordF) b)) =
        ((l.map vec).map (fun a => ∑ i, a i * cf i)).map some := by
      rw [List.map_map, List.map_map]
      apply List.map_congr_left
      intro e he
      rw [extPack_eq hc (hl e he), Option.bind_some]
      simp only [Function.comp]
      have h1 := compressRow_full (coef := List.ofFn cf) (row := (extRow e).map wordF)
        (by rw [hlenRow e (hl e he), List.length_ofFn])
      rw [List.length_ofFn] at h1
      rw [h1, ← hvec e (hl e he), rowDot_ofFn]
    rw [e1] at h
    exact (List.map_injective_iff.2 (Option.some_injective F)) h
  have hinj : ∀ e f : ExtEnt, e.FitsX c → f.FitsX c → vec e = vec f → e = f := by
    intro e f he hf h
    have h1 : (extRow e).map (wordF (F := F)) = (extRow f).map wordF := by
      rw [← hvec e he, ← hvec f hf, h]
    have hlt : ∀ e : ExtEnt, e.FitsX c → ∀ w ∈ extRow e, w < 2 ^ 128 := by
      intro e he w hw
      obtain ⟨i, s, o, v⟩ := e
      obtain ⟨_, _, _, a4⟩ := he
      cases v with
      | nil => simp [extRow] at hw
      | cons v vs =>
        simp only [extRow, List.mem_cons] at hw
        rcases hw with rfl | hw
        · exact ramPacked_lt extW_ok _
        · have hpl : ∀ l : List Nat, (∀ v ∈ l, v < 2 ^ 64) → ∀ w ∈ pairs l, w < 2 ^ 128 := by
            intro l
            induction l using pairs.induct with
            | case1 => intro _ w hw; simp [pairs] at hw
            | case2 a =>
              intro h w hw
              simp only [pairs, List.mem_singleton] at hw
              have := h a (by simp)
              omega
            | case3 a b l ih =>
              intro h w hw
              simp only [pairs, List.mem_cons] at hw
              rcases hw with rfl | hw
              · have := h a (by simp)
                have := h b (by simp)
                omega
              · exact ih (fun v hv => h v (by simp [hv])) w hw
          exact hpl vs (fun x hx => a4 x (by simp [hx])) w hw
    have h2 : extRow e = extRow f := by
      apply List.ext_getElem
      · have := congrArg List.length h1
        simpa using this
      · intro i h3 h4
        have := congrArg (fun l => l[i]?) h1
        simp only [List.getElem?_map, List.getElem?_eq_getElem h3, List.getElem?_eq_getElem h4, Option.map_some,
          Option.some.injEq] at this
        exact wordF_inj (hlt e he _ (List.getElem_mem h3)) (hlt f hf _ (List.getElem_mem h4)) this
    exact extRow_inj hc he hf h2
  have hnp : ¬ (S.map vec).Perm (L.map vec) := by
    intro hp
    apply hstale
    let g : (Fin b → F) → ExtEnt := fun x => if h : ∃ e : ExtEnt, e.FitsX c ∧ vec e = x then h.choose else ⟨0, 0, false, []⟩
    have hg : ∀ e : ExtEnt, e.FitsX c → g (vec e) = e := by
      intro e he
      have hex : ∃ e' : ExtEnt, e'.FitsX c ∧ vec e' = vec e := ⟨e, he, rfl⟩
      simp only [g, dif_pos hex]
      exact hinj _ _ hex.choose_spec.1 he hex.choose_spec.2
    have hSL : S.Perm L := perm_of_leftInv vec g (fun e he => hg e (hS e he)) (fun e he => hg e (hL e he)) hp
    exact C53_partial c hc hs L S hL hS hstep hlen hgroup hcond (hSL.map _)
  have hcard := card_compress_le hr (S.map vec) (L.map vec) (by simp [hSl]) hnp
  rw [List.length_map, hSl] at hcard
  set bad := (Finset.univ.filter (fun cf : Fin b → F =>
      ((S.map vec).map (fun a => ∑ i, a i * cf i + r)).prod = ((L.map vec).map (fun a => ∑ i, a i * cf i + r)).prod)).card with hbad
  have hxl : ∀ cf, (xs cf).length = L.length := by
    intro cf
    have := congrArg List.length (hx cf)
    simpa [hSl] using this
  have hyl : ∀ cf, (ys cf).length = L.length := by
    intro cf
    have := congrArg List.length (hy cf)
    simpa using this
  have h2 := card_fibre_le (A := Fin b → F) (B := F) (fun cf d => ∃ g0 f0 g1 f1 ks0 ks1,
      productPrv true (bchGroups 4 L.length L.length) r (xs cf) (outs0 cf) = some (g0, f0) ∧ (∀ g ∈ g0, g.Ok) ∧
      productPrv true (bchGroups 4 L.length L.length) r (ys cf) (outs1 cf) = some (g1, f1) ∧ (∀ g ∈ g1, g.Ok) ∧
      productVer true (bchGroups 4 L.length L.length) d r ((xs cf).map (keyF d)) (fun i => keyF d (outs0 cf i)) =
        some ks0 ∧
      productVer true (bchGroups 4 L.length L.length) d r ((ys cf).map (keyF d)) (fun i => keyF d (outs1 cf i)) =
        some ks1 ∧
      setEqVer ks0.2 ks1.2 (msg cf).1 (msg cf).2 = true)
    (fun cf => ((S.map vec).map (fun a => ∑ i, a i * cf i + r)).prod = ((L.map vec).map (fun a => ∑ i, a i * cf i + r)).prod)
    bad 1 (le_of_eq (by rw [hbad]))
    (by
      intro cf hcf D hD
      refine C47_delta true 4 (by decide) (xs cf) (ys cf)
        (by intro h0; have := hxl cf; rw [h0] at this; simp at this; omega) (by rw [hxl]; omega) (by rw [hxl]; exact h64)
        (by rw [hxl, hyl]) r ?_ (outs0 cf) (outs1 cf) (msg cf) D ?_
      · rw [hval S _ cf hS (hx cf), hval L _ cf hL (hy cf), List.map_map, List.map_map]
        intro h
        apply hcf
        rw [List.map_map, List.map_map] at h ⊢
        exact h
      · rw [hxl, hyl]
        exact hD)
  refine h2.trans ?_
  rw [one_mul, Fintype.card_fun, Fintype.card_fin]
  have : (L.length + 1) * Fintype.card F ^ b = L.length * Fintype.card F ^ b + Fintype.card F ^ b := by ring
  rw [this]
  exact Nat.add_le_add_right hcard _

end

/-- The hypotheses of `C53_protocol` can be met: a stale read hidden by rows with a changed value, which pass the condition. -/
example : extCond ⟨8, 10, 128⟩ [⟨5, 0, true, [1, 1]⟩, ⟨5, 1, true, [1, 1]⟩, ⟨5, 2, false, [1, 1]⟩] = true ∧
    ¬ ReadsLastWrite ([(⟨5, 0, true, [1, 1]⟩ : ExtEnt), ⟨5, 1, true, [2, 1]⟩, ⟨5, 2, false, [1, 1]⟩].map RowOf.acc) := by
  refine ⟨by decide, ?_⟩
  intro h
  have := h 2 ⟨5, false, [1, 1]⟩ rfl rfl [2, 1] (by decide)
  exact absurd this (by decide)

/-! ### C70: honest runs -/

/-- C70. For index widths up to 32, step widths up to 31, cells of more than 64 bits, and every sequence of at least three and at
most `2^(step_sz-1)` calls with fitting arguments in which no address is read before it is written (then `extSpec` is defined):
all calls are well defined, reads return the words of the latest write, the check is well defined, its condition holds, the sorted rows
are a permutation of the committed ones and pack to the sorted words. -/
theorem C70_honest (c : RxCfg) (hc : c.isz ≤ 32 ∧ c.ssz ≤ 31 ∧ 1 ≤ c.vsz) (h1 : 64 < c.vsz) (h2 : c.vsz < 2 ^ 64)
    (ops : List ExtOp) (hfit : ∀ o ∈ ops, o.Fits c) (h3 : 3 ≤ ops.length) (hlen : ops.length ≤ 2 ^ (c.ssz - 1))
    (l : List (Acc (List Nat))) (rs : List (Option (List Nat))) (hspec : extSpec [] ops = some (l, rs)) :
    ∃ st st' chk, extRun c (extInit c) ops = some (st, rs) ∧ st.log.map RowOf.acc = l ∧ ReadsLastWrite l ∧ WrittenFirst l ∧
      (∀ i (h : i < st.log.length), st.log[i].step = i) ∧
      extCheck c st = some (st', chk) ∧ chk.cond = true ∧ chk.rows.Perm st.log ∧
      chk.orig.map some = st.log.map (fun e => extPack e.idx e.val e.step e.op) ∧
      chk.sorted.map some = chk.rows.map (fun e => extPack e.idx e.val e.step e.op) := by
  have hss : 1 ≤ c.ssz := by
    by_contra h0
    have : c.ssz - 1 = 0 := by omega
    rw [this] at hlen
    omega
  have hpow : 2 ^ (c.ssz - 1) ≤ 2 ^ c.ssz := Nat.pow_le_pow_right (by decide) (by omega)
  obtain ⟨st, r1, r2, h⟩ := extRun_inv hc ops (extInit c) [] (extInit_inv c) (by simp only [extInit]; omega) hfit l rs hspec
  have hs0 : st.step = ops.length := by rw [r2]; simp [extInit]
  obtain ⟨st', chk, k1, _, k2, k3, k4, k5⟩ := h.check hc h1 h2 (by omega) (by omega)
  refine ⟨st, st', chk, r1, h.acc, h.reads.prev.last, ?_, h.steps, k1, k2, k3, ?_, ?_⟩
  · intro i e he hop
    exact ⟨e.val, h.reads i e he hop⟩
  · rw [k4, List.map_map]
    apply List.map_congr_left
    intro e he
    exact (extPack_eq hc (h.fits e he)).symm
  · rw [k5, List.map_map]
    apply List.map_congr_left
    intro e he
    exact (extPack_eq hc (h.fits e (k3.mem_iff.1 he))).symm

/-- Two words per cell: two writes to an address with a read after each. -/
example : ∃ st st' chk, extRun ⟨8, 10, 128⟩ (extInit ⟨8, 10, 128⟩) [.write 3 [7, 8], .read 3, .write 3 [9, 9], .read 3] =
    some (st, [none, some [7, 8], none, some [9, 9]]) ∧ extCheck ⟨8, 10, 128⟩ st = some (st', chk) ∧ chk.cond = true := by
  obtain ⟨st, st', chk, a1, _, _, _, _, a6, a7, _⟩ := C70_honest ⟨8, 10, 128⟩ (by decide) (by decide) (by decide)
    [.write 3 [7, 8], .read 3, .write 3 [9, 9], .read 3] (by simp [ExtOp.Fits, RxCfg.words]) (by decide) (by decide) _ _ rfl
  exact ⟨st, st', chk, a1, a6, a7⟩

/-- C70 (why no address may be read before it is written). A cell never written is an empty vector: reading it is undefined. -/
theorem C70_unwritten (c : RxCfg) (st : ExtState) (i : Nat) (h : st.mem[i]? = some []) : extRead c st i = none := by
  simp [extRead, h, extPack]

example : extRead ⟨8, 10, 128⟩ (extInit ⟨8, 10, 128⟩) 3 = none :=
  C70_unwritten _ _ _ (by
    simp only [extInit]
    exact List.getElem?_replicate_of_lt (by decide))

/-- C70 (one word per cell). With cells of at most 64 bits every check of a non-empty log is undefined. -/
theorem C70_one_word (c : RxCfg) (h1 : 1 ≤ c.vsz) (h64 : c.vsz ≤ 64) (st : ExtState) (hs : st.step = st.list.length)
    (hne : st.list ≠ []) (hrow : ∀ r ∈ st.list, r.length = 1) : extCheck c st = none := by
  have hw : c.words = 1 := by unfold RxCfg.words; omega
  have hp : (st.list.mergeSort extLe).Perm st.list := List.mergeSort_perm _ _
  have hl : (st.list.mergeSort extLe).length = st.step := by rw [hp.length_eq, hs]
  have hpos : 0 < st.list.length := List.length_pos_iff.2 hne
  have h0 : (List.range st.step).mapM (fun i => ((st.list.mergeSort extLe)[i]?).bind (extUnpack c)) = none := by
    obtain ⟨m, hm⟩ : ∃ m, st.step = m + 1 := ⟨st.step - 1, by omega⟩
    have hlt : 0 < (st.list.mergeSort extLe).length := by omega
    rw [hm, List.range_succ_eq_map, List.mapM_cons, List.getElem?_eq_getElem hlt]
    have hmem := hp.mem_iff.1 (List.getElem_mem hlt)
    obtain ⟨w, hw'⟩ := List.length_eq_one_iff.1 (hrow _ hmem)
    rw [Option.bind_some, hw', extUnpack_one hw]
    rfl
  unfold extCheck
  simp only [h0, Option.bind_eq_bind, Option.bind_none]

/-- Three writes of one word. -/
example : ∃ st, extRun ⟨8, 10, 64⟩ (extInit ⟨8, 10, 64⟩) [.write 3 [7], .write 3 [8], .write 4 [9]] = some (st, [none, none, none]) ∧
    extCheck ⟨8, 10, 64⟩ st = none := by
  obtain ⟨st, r1, r2, h⟩ := extRun_inv (c := ⟨8, 10, 64⟩) (by unfold RxCfg.Ok; decide)
    [.write 3 [7], .write 3 [8], .write 4 [9]] (extInit ⟨8, 10, 64⟩) [] (extInit_inv _) (by decide)
    (by simp [ExtOp.Fits, RxCfg.words]) _ _ rfl
  have r2' : st.step = 3 := r2
  refine ⟨st, r1, C70_one_word _ (by decide) (by decide) st (by rw [h.list, List.length_map, h.step]) ?_ ?_⟩
  · intro h0
    have h1 := h.step
    have h2 := h.list
    rw [h0] at h2
    have := List.map_eq_nil_iff.1 h2.symm
    rw [this] at h1
    simp only [List.length_nil] at h1
    omega
  · intro r hr
    rw [h.list] at hr
    obtain ⟨e, he, rfl⟩ := List.mem_map.1 hr
    obtain ⟨i, s, o, v⟩ := e
    obtain ⟨_, _, a3, _⟩ := h.fits _ he
    have a3' : v.length = 1 := a3
    obtain ⟨w, rfl⟩ := List.length_eq_one_iff.1 a3'
    rfl

/-! ### C50 for `ZkRamExt` -/

/-- C50 is false as stated, also for `ZkRamExt`: after `check()` every later read or write of the prover is undefined. -/
theorem C50_ext_false (c : RxCfg) (st st' : ExtState) (chk : ExtChk) (h : extCheck c st = some (st', chk)) (o : ExtOp) :
    extStep c st' o = none := by
  have : st'.mem = [] := by
    unfold extCheck at h
    simp only [Option.bind_eq_bind, Option.bind_eq_some_iff, Option.some.injEq, Prod.mk.injEq] at h
    obtain ⟨_, _, _, _, h, _⟩ := h
    rw [← h]
  cases o with
  | read i => simp [extStep, extRead, this]
  | write i v =>
    simp only [extStep, extWrite, this, Option.bind_eq_bind, List.getElem?_nil, Option.bind_none, Option.map_eq_none_iff]
    cases (List.range c.words).mapM (fun i => v[i]?) <;> rfl

example : ∃ st st' chk, extCheck ⟨8, 10, 128⟩ st = some (st', chk) ∧ extStep ⟨8, 10, 128⟩ st' (.read 3) = none := by
  obtain ⟨st, st', chk, _, _, _, _, _, a6, _⟩ := C70_honest ⟨8, 10, 128⟩ (by decide) (by decide) (by decide)
    [.write 3 [7, 8], .read 3, .write 3 [9, 9], .read 3] (by simp [ExtOp.Fits, RxCfg.words]) (by decide) (by decide) _ _ rfl
  exact ⟨st, st', chk, a6, C50_ext_false _ _ _ _ a6 _⟩

/-- C50 is false as stated: when `refresh()` of `ZkRamExt` does something, it is undefined. -/
theorem C50_ext_refresh_false (c : RxCfg) (st : ExtState) (h : st.step + 2 ^ c.isz = 2 ^ (c.ssz - 1)) :
    extRefresh c st = none := by
  rw [extRefresh, if_pos h]
  cases h1 : extReadAll c st (List.range (2 ^ c.isz)) with
  | none => rfl
  | some p =>
    obtain ⟨st1, vs⟩ := p
    simp only [Option.bind_eq_bind, Option.bind_some]
    cases h2 : extCheck c st1 with
    | none => rfl
    | some q =>
      obtain ⟨st2, chk⟩ := q
      simp only [Option.bind_some]
      obtain ⟨m, hm⟩ : ∃ m, 2 ^ c.isz = m + 1 := ⟨2 ^ c.isz - 1, by have : 0 < 2 ^ c.isz := (by positivity); omega⟩
      rw [hm, List.range_succ_eq_map] at h1 ⊢
      simp only [extReadAll, Option.bind_eq_bind, Option.bind_eq_some_iff] at h1
      obtain ⟨⟨a, v⟩, _, ⟨b, vs'⟩, _, h1⟩ := h1
      simp only [Option.some.injEq, Prod.mk.injEq] at h1
      rw [← h1.2, List.zip_cons_cons, extWriteAll]
      have h3 := C50_ext_false c st1 st2 chk h2 (.write (0 % 2 ^ c.isz) v)
      simp only [extStep, Option.map_eq_none_iff] at h3
      simp only [h3, Option.bind_eq_bind, Option.bind_none]

/-- Addresses of one bit and steps of three bits: after two accesses `refresh()` triggers. -/
example : ∃ st, extRun ⟨1, 3, 128⟩ (extInit ⟨1, 3, 128⟩) [.write 0 [7, 7], .write 1 [8, 8]] = some (st, [none, none]) ∧
    extRefresh ⟨1, 3, 128⟩ st = none :=
  ⟨_, rfl, C50_ext_refresh_false _ _ (by decide)⟩

end EmpZk
