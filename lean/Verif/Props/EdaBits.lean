/-
Properties of edaBits and of the conversions between boolean and arithmetic values: C41-C44, C68, C69.
-/
import Verif.Lemmas.EdaBits
import Verif.Lemmas.EdaShift
import Verif.Lemmas.GF128

namespace EmpZk

/-- A 62-bit integer and a word have the same value. -/
def Same (x : Int62) (w : W) : Prop := x.toNat = w.toNat

/-! ### C41 : conversions preserve values -/

theorem canon_val {w : W} (h : Canon w) : (fp w).val = w.toNat := by
  rw [fp, ZMod.val_natCast, Nat.mod_eq_of_lt h]

/-- Boolean to arithmetic: the word opened is below `p`, the result is authenticated and has the value of the input. -/
theorem C41_bool2arith {delta : W} (hd : Canon delta) {M K : U128} (h : Auth delta M K) {x r : Int62} (hr : Same r (high64 M))
    (hx : x.toNat < pN) :
    let diff : W := (f2Diff x r).setWidth 64
    Auth delta (intfpAddConstA M diff) (intfpAddConstB delta K diff) ∧ Same x (high64 (intfpAddConstA M diff)) := by
  intro diff
  have hrl : r.toNat < pN := by rw [hr]; exact h.value
  have hdn : diff.toNat = (f2Diff x r).toNat := by
    rw [BitVec.toNat_setWidth]
    exact Nat.mod_eq_of_lt (lt_trans (f2Diff x r).isLt (by decide))
  have hdc : Canon diff := by
    unfold Canon
    rw [hdn]
    exact f2Diff_lt hx hrl
  refine ⟨auth_intfpAddConst hd h hdc, ?_⟩
  have hc := canon_addMod h.value hdc
  rw [intfpAddConstA, high64_makeBlock]
  unfold Same
  rw [← canon_val hc, fp_addMod_canon h.value hdc]
  have e1 : fp diff = (x.toNat : Fp) - (r.toNat : Fp) := by rw [fp, hdn]; exact f2Diff_fp hx hrl
  have e2 : fp (high64 M) = (r.toNat : Fp) := by rw [hr]; rfl
  rw [e1, e2, add_sub_cancel, ZMod.val_natCast, Nat.mod_eq_of_lt hx]

/-- Arithmetic to boolean: both parties hash the same word for the opening, and the integer has the value of the input. -/
theorem C41_arith2bool {delta : W} (hd : Canon delta) {M K Mx Kx : U128} (h : Auth delta M K) (hx : Auth delta Mx Kx) {r : Int62}
    (hr : Same r (high64 M)) :
    let sum : W := high64 (intfpAddA M Mx)
    addMod (low64 (intfpAddB K Kx)) (multMod sum delta) = low64 (intfpAddA M Mx) ∧
      Same (f2Diff (sum.setWidth 62) r) (high64 Mx) := by
  intro sum
  have ha := auth_intfpAdd h hx
  refine ⟨openWord_eq hd ha, ?_⟩
  have hs : Canon sum := ha.value
  have hrl : r.toNat < pN := by rw [hr]; exact h.value
  have hsn : (sum.setWidth 62).toNat = sum.toNat := by
    rw [BitVec.toNat_setWidth]
    exact Nat.mod_eq_of_lt (lt_trans hs (by decide))
  have hsl : (sum.setWidth 62).toNat < pN := by rw [hsn]; exact hs
  have hl := f2Diff_lt hsl hrl
  have e := f2Diff_fp hsl hrl
  unfold Same
  rw [← Nat.mod_eq_of_lt hl, ← ZMod.val_natCast, e, hsn, ← canon_val hx.value, hr]
  congr 1
  change fp sum - fp (high64 M) = fp (high64 Mx)
  have : fp sum = fp (high64 M) + fp (high64 Mx) := by
    change fp (high64 (intfpAddA M Mx)) = _
    rw [intfpAddA, high64_makeBlock, fp_addMod_canon h.value hx.value]
  rw [this]
  ring

/-- Round trip: converting to the field with one edaBit and back with another gives the same integer. -/
theorem C41_round_trip {delta : W} (hd : Canon delta) {M K M' K' : U128} (h : Auth delta M K) (h' : Auth delta M' K') {x r r' : Int62}
    (hr : Same r (high64 M)) (hr' : Same r' (high64 M')) (hx : x.toNat < pN) :
    f2Diff ((high64 (intfpAddA M' (intfpAddConstA M ((f2Diff x r).setWidth 64)))).setWidth 62) r' = x := by
  obtain ⟨a1, a2⟩ := C41_bool2arith hd h hr hx
  have := (C41_arith2bool hd h' a1 hr').2
  exact BitVec.eq_of_toNat_eq (this.trans a2.symm)

/-- The opening of an arithmetic-to-boolean conversion: a word below `p` other than the sum is accepted for at most one `Delta`. `t` is
what the prover hashes, `c` the committed sum with its MAC. -/
theorem C41_open (c : Fp × Fp) (v t : W) (hv : Canon v) (hne : v ≠ toW c.1) (d d' : Fp)
    (h : addMod (low64 (keyAt d c)) (multMod v (toW d)) = t) (h' : addMod (low64 (keyAt d' c)) (multMod v (toW d')) = t) : d = d' := by
  obtain ⟨w, rfl⟩ : ∃ w, v = toW w := ⟨fp v, (toW_fp hv).symm⟩
  rw [low64_keyAt, multMod_toW, addMod_toW] at h h'
  have e := toW_inj (h.trans h'.symm)
  have hw : w - c.1 ≠ 0 := by
    intro h0
    exact hne (by rw [sub_eq_zero.1 h0])
  have : (w - c.1) * (d - d') = 0 := by linear_combination e
  rcases mul_eq_zero.1 this with h0 | h0
  · exact absurd h0 hw
  · exact sub_eq_zero.1 h0

/-- The bound on the input is needed: a 62-bit integer beyond `p` gives another field element than its residue, without any error. -/
theorem C41_range_needed : ∃ x r : Int62, r.toNat < pN ∧
    (((f2Diff x r).toNat : Nat) : Fp) + (r.toNat : Fp) ≠ (x.toNat : Fp) := by
  refine ⟨2305843009213693957#62, 0, by decide, ?_⟩
  decide +kernel

example : ∃ (delta : W) (M K : U128) (x r : Int62), Canon delta ∧ Auth delta M K ∧ Same r (high64 M) ∧ x.toNat < pN ∧ x.toNat < r.toNat :=
  ⟨toW 7, lab (((pN - 1 : Nat) : Fp), 11), _, 3#62, 2305843009213693950#62, canon_toW _, auth_lab 7 (((pN - 1 : Nat) : Fp), 11),
    by rw [high64_lab]; unfold Same; rw [toW_toNat]; decide +kernel, by decide, by decide⟩

/-! ### C42 : consumption of edaBits -/

/-- Two edaBits differ in both parts: different boolean integers and different field elements. -/
def EdaUse.Apart (u v : EdaUse) : Prop := (u.gen ≠ v.gen ∨ u.f2 ≠ v.f2) ∧ (u.ext ≠ v.ext ∨ u.fp ≠ v.fp)

theorem EdaUse.Lt.apart {u v : EdaUse} (h : u.Lt v) : u.Apart v := by
  obtain ⟨h1, h2⟩ := h
  constructor
  · rcases h1 with h1 | h1
    · exact Or.inl (by omega)
    · exact Or.inr (by omega)
  · rcases h2 with h2 | h2
    · exact Or.inl (by omega)
    · exact Or.inr (by omega)

/-- Any sequence of conversions on one object, single or bulk of any lengths: each conversion uses exactly one edaBit per element, all
edaBits used are within the generated ones, and no two conversions of elements ever use the same one. -/
theorem C42_fresh {c : EdaCfg} (hN : 0 < c.N) {npSz : Nat} (hsz : c.ell ≤ npSz) (ops : List EdaOp) {s : EdaState} {us : List (List EdaUse)}
    (e : edaOps c npSz ops edaInit = (s, us)) :
    us.map List.length = ops.map EdaOp.len ∧ (∀ u ∈ us.flatten, u.f2 < c.N ∧ u.fp < npSz) ∧ us.flatten.Pairwise EdaUse.Apart := by
  obtain ⟨-, h1, h2, -, h3⟩ := edaOps_spec hN hsz ops (edaInit_inv c npSz) e
  exact ⟨h1, h2, h3.imp EdaUse.Lt.apart⟩

/-- In a bulk conversion the rounds add up to the length, and all edaBits of a round come from one generation: the indices kept until the
end of the round still refer to the same edaBits. Holds after any conversions before. -/
theorem C42_rounds {c : EdaCfg} (hN : 0 < c.N) {npSz : Nat} (hsz : c.ell ≤ npSz) (ops : List EdaOp) {s : EdaState} {us : List (List EdaUse)}
    (e : edaOps c npSz ops edaInit = (s, us)) (len : Nat) {s' : EdaState} {uss : List (List EdaUse)}
    (e' : bulkConv c npSz len s = (s', uss)) :
    (uss.map List.length).sum = len ∧ ∀ r ∈ uss, ∀ u ∈ r, ∀ v ∈ r, u.gen = v.gen := by
  obtain ⟨hi, -⟩ := edaOps_spec hN hsz ops (edaInit_inv c npSz) e
  obtain ⟨x1, x2⟩ := bulkRounds_spec hN hi.le len
  obtain ⟨y1, y2, y3, y4, y5, y6⟩ := bulkRun_spec hN hsz _ hi x2 e'
  exact ⟨by rw [y2, x1], y6⟩

/-- Example with small sizes: 3 edaBits per generation, room for two generations per refill. -/
example : (edaOps ⟨3, 1, 1⟩ 15 [.bulk 2, .single, .bulk 7, .bulk 0, .single] edaInit).2 =
    [[⟨1, 0, 1, 0⟩, ⟨1, 1, 1, 1⟩], [⟨1, 2, 1, 2⟩],
      [⟨2, 0, 1, 7⟩, ⟨2, 1, 1, 8⟩, ⟨2, 2, 1, 9⟩, ⟨3, 0, 2, 0⟩, ⟨3, 1, 2, 1⟩, ⟨3, 2, 2, 2⟩, ⟨4, 0, 2, 7⟩], [], [⟨4, 1, 2, 8⟩]] := by
  decide

/-! ### C44 : indices of the cut and choose -/

/-- The last random point makes the code use a candidate behind the end of the array. -/
theorem C44_false : ∃ rp, rp < edaCfg.ellF ∧ ∃ k ∈ openedIdx edaCfg rp, ¬ k < edaCfg.ell :=
  ⟨800001, by decide, 1600002, by decide, by decide⟩

/-- That point, and any larger one a verifier may send, is undefined behaviour; all smaller ones are not. -/
theorem C44_exact (rp : Nat) (x : Nat → Int62) (a : Nat → Fp) : edaOk edaCfg rp x a = none ↔ 800001 ≤ rp := by
  have h := openedIdx_ok edaCfg (by decide) rp
  have he : edaCfg.ellF = 800002 := by decide
  have hC : edaCfg.C = 2 := rfl
  rw [he, hC] at h
  unfold edaOk
  by_cases hb : (openedIdx edaCfg rp).all (· < edaCfg.ell) = true
  · rw [if_pos hb]
    have := h.1 hb
    simp
    omega
  · rw [if_neg hb]
    simp
    by_contra hlt
    exact hb (h.2 (by omega))

/-- For every other point, all sizes and bucket counts: each candidate has exactly one role (output, opened, or partner in one bucket), and
the two arrays are indexed alike. -/
theorem C44_partial (c : EdaCfg) (hN : 0 < c.N) (hC : 0 < c.C) (rp : Nat) (h : rp + c.C ≤ c.ellF) :
    (List.range c.N ++ openedIdx c rp ++ (List.range c.bm1).flatMap (fun j => (List.range c.N).map (partnerF2 c rp j))).Perm
      (List.range c.ell) ∧
    ∀ npPt j i, partnerFp c npPt rp j i = npPt + partnerF2 c rp j i :=
  ⟨rolesIdx_perm c hN h hC, fun npPt j i => partnerFp_eq c npPt rp j i⟩

example : (openedIdx ⟨4, 2, 2⟩ 3, (List.range 4).map (partnerF2 ⟨4, 2, 2⟩ 3 0), (List.range 4).map (partnerF2 ⟨4, 2, 2⟩ 3 1)) =
    ([7, 8], [9, 11, 13, 5], [10, 12, 4, 6]) := by decide

/-! ### C43 : honest generation -/

theorem edaOk_iff {c : EdaCfg} (hC : 0 < c.C) {rp : Nat} (h : rp + c.C ≤ c.ellF) (x : Nat → Int62) (a : Nat → Fp) :
    edaOk c rp x a = some true ↔
      (∀ k, k < c.C → (x (c.N + rp + k)).toNat = (a (c.N + rp + k)).val) ∧
      ∀ j, j < c.bm1 → ∀ i, i < c.N →
        (f2Sum (x i) (x (partnerF2 c rp j i))).toNat = (a i + a (partnerF2 c rp j i)).val := by
  unfold edaOk
  rw [if_pos ((openedIdx_ok c hC rp).2 h)]
  simp [openedIdx]

theorem partner_lt {c : EdaCfg} (hN : 0 < c.N) {rp j i : Nat} (h : rp < c.ellF) (hj : j < c.bm1) : partnerF2 c rp j i < c.ell := by
  rw [partnerF2_eq c hN h hj, ell_eq]
  have := Nat.mod_lt (rp + c.C + (j + i * c.bm1)) (show 0 < c.ellF by omega)
  omega

/-- The transcripts: if the prover follows the code with integers `x k` (not necessarily the right ones), the two parties hash the same data
exactly if the check at the level of values passes. -/
theorem C43_transcript {F : Type} [Field F] [BlockField F] {c : EdaCfg} (hN : 0 < c.N) (hC : 0 < c.C) {rp : Nat} (h : rp + c.C ≤ c.ellF)
    {delta : W} (hd : Canon delta) {delta2 : F} (h2 : lsb delta2 = true) {M K : Nat → U128} {cand ckey : Nat → Nat → F}
    {sums skey : Nat → Nat → Nat → F} {x : Nat → Int62} (hA : ∀ k, k < c.ell → Auth delta (M k) (K k))
    (hx : ∀ k, k < c.ell → ∀ j, j < 62 → lsb (cand k j) = (x k).getLsbD j ∧ ckey k j = keyOf delta2 (cand k j))
    (hs : ∀ j i b, b < 62 → lsb (sums j i b) = (f2Sum (x i) (x (partnerF2 c rp j i))).getLsbD b ∧ skey j i b = keyOf delta2 (sums j i b)) :
    genPrv c rp M cand sums = genVer c rp delta delta2 K ckey skey (fun k => high64 (M (c.N + rp + k)))
        (fun j i => high64 (intfpAddA (M i) (M (partnerF2 c rp j i)))) ↔
      edaOk c rp x (fun k => fp (high64 (M k))) = some true := by
  have he := ell_eq c
  rw [edaOk_iff hC h]
  have hAs : ∀ j, j < c.bm1 → ∀ i, i < c.N → Auth delta (intfpAddA (M i) (M (partnerF2 c rp j i))) (intfpAddB (K i) (K (partnerF2 c rp j i))) := by
    intro j hj i hi
    exact auth_intfpAdd (hA i (by omega)) (hA _ (partner_lt hN (by omega) hj))
  have o1 := dblOpen_eq hd h2 c.C (fun k => M (c.N + rp + k)) (fun k => K (c.N + rp + k)) (fun k => cand (c.N + rp + k))
    (fun k => ckey (c.N + rp + k)) (fun k => x (c.N + rp + k)) (fun k hk => hA _ (by omega))
    (fun k hk j hj => (hx _ (by omega) j hj).1) (fun k hk j hj => (hx _ (by omega) j hj).2)
  have o2 := fun j (hj : j < c.bm1) => dblOpen_eq hd h2 c.N (fun i => intfpAddA (M i) (M (partnerF2 c rp j i)))
    (fun i => intfpAddB (K i) (K (partnerF2 c rp j i))) (sums j) (skey j) (fun i => f2Sum (x i) (x (partnerF2 c rp j i)))
    (fun i hi => hAs j hj i hi) (fun i _ b hb => (hs j i b hb).1) (fun i _ b hb => (hs j i b hb).2)
  have hlP : ∀ (n : Nat) (M : Nat → U128) (b : Nat → Nat → F), (dblOpenPrv n M b).length = n + n * 62 := by
    intro n M b
    simp [dblOpenPrv]
  have hlV : ∀ (n : Nat) (K : Nat → U128) (k : Nat → Nat → F) (v : Nat → W), (dblOpenVer delta delta2 n K k v).length = n + n * 62 := by
    intro n K k v
    simp [dblOpenVer]
  unfold genPrv genVer
  rw [← flatMap_congr_iff_split (hlP c.C _ _) (hlV c.C _ _ _), o1,
    flatMap_inj_len (n := c.N + c.N * 62) (fun j _ => hlP c.N _ _) (fun j _ => hlV c.N _ _ _)]
  refine and_congr ?_ ?_
  · refine forall_congr' fun k => forall_congr' fun hk => ?_
    have hlt : c.N + rp + k < c.ell := by omega
    rw [← canon_val (hA _ hlt).value]
  · refine forall_congr' fun j => ?_
    rw [List.mem_range]
    refine forall_congr' fun hj => ?_
    rw [o2 j hj]
    refine forall_congr' fun i => forall_congr' fun hi => ?_
    have ha := hA i (by omega)
    have hp := hA _ (partner_lt (i := i) hN (show rp < c.ellF by omega) hj)
    rw [← fp_addMod_canon ha.value hp.value, canon_val (canon_addMod ha.value hp.value), intfpAddA, high64_makeBlock]

/-- Labels for any candidates: the hypotheses of `C43_transcript` can be met for any integers `x` and field elements `a`. -/
example (x : Nat → Int62) (a : Nat → Fp) (c : EdaCfg) (rp : Nat) : ∃ (delta : W) (delta2 : GF128) (M K : Nat → U128)
    (cand ckey : Nat → Nat → GF128) (sums skey : Nat → Nat → Nat → GF128), Canon delta ∧ lsb delta2 = true ∧
    (∀ k, Auth delta (M k) (K k) ∧ fp (high64 (M k)) = a k) ∧
    (∀ k j, lsb (cand k j) = (x k).getLsbD j ∧ ckey k j = keyOf delta2 (cand k j)) ∧
    (∀ j i b, lsb (sums j i b) = (f2Sum (x i) (x (partnerF2 c rp j i))).getLsbD b ∧ skey j i b = keyOf delta2 (sums j i b)) := by
  refine ⟨toW 7, 1, fun k => lab (a k, 3), fun k => keyAt 7 (a k, 3), fun k j => bit ((x k).getLsbD j), fun k j => keyOf 1 (bit ((x k).getLsbD j)),
    fun j i b => bit ((f2Sum (x i) (x (partnerF2 c rp j i))).getLsbD b),
    fun j i b => keyOf 1 (bit ((f2Sum (x i) (x (partnerF2 c rp j i))).getLsbD b)), canon_toW _, lsb_one, ?_, ?_, ?_⟩
  · exact fun k => ⟨auth_lab 7 _, by rw [high64_lab, fp_toW]⟩
  · exact fun k j => ⟨lsb_bit _, rfl⟩
  · exact fun j i b => ⟨lsb_bit _, rfl⟩

/-- For candidates generated as in the code (the integer is the field element), the check passes exactly if no bucket contains two
elements with sum `p`. -/
theorem C43_exact {c : EdaCfg} (hN : 0 < c.N) (hC : 0 < c.C) {rp : Nat} (h : rp + c.C ≤ c.ellF) (a : Nat → Fp) :
    edaOk c rp (fun k => BitVec.ofNat 62 (a k).val) a = some true ↔
      ∀ j, j < c.bm1 → ∀ i, i < c.N → (a i).val + (a (partnerF2 c rp j i)).val ≠ pN := by
  have hv : ∀ k, (BitVec.ofNat 62 (a k).val).toNat = (a k).val := by
    intro k
    rw [BitVec.toNat_ofNat, Nat.mod_eq_of_lt (lt_trans (val_lt_pN _) (by decide))]
  have hlt : ∀ k, (BitVec.ofNat 62 (a k).val).toNat < pN := fun k => by rw [hv]; exact val_lt_pN _
  rw [edaOk_iff hC h]
  constructor
  · rintro ⟨-, h'⟩ j hj i hi e
    have := h' j hj i hi
    rw [f2Sum_canon (hlt _) (hlt _), hv, hv, if_pos e] at this
    exact absurd this.symm (val_lt_pN _).ne
  · intro h'
    refine ⟨fun k _ => hv _, ?_⟩
    intro j hj i hi
    rw [f2Sum_canon (hlt _) (hlt _), hv, hv, if_neg (h' j hj i hi), ZMod.val_add]

/-- Hence honest parties can abort: with the sizes of the code, for every random point there are sampled values that fail. -/
theorem C43_false (rp : Nat) (h : rp + 2 ≤ 800002) : ∃ a : Nat → Fp, edaOk edaCfg rp (fun k => BitVec.ofNat 62 (a k).val) a = some false := by
  refine ⟨fun k => if k = 0 then 1 else ((pN - 1 : Nat) : Fp), ?_⟩
  have hne := mt (C43_exact (c := edaCfg) (by decide) (by decide) (rp := rp)
    (by rw [show edaCfg.C = 2 from rfl, show edaCfg.ellF = 800002 by decide]; exact h)
    (fun k => if k = 0 then 1 else ((pN - 1 : Nat) : Fp))).1 (by
      intro h'
      have := h' 0 (by decide) 0 (by decide)
      have hp : partnerF2 edaCfg rp 0 0 ≠ 0 := by
        rw [partnerF2_eq edaCfg (by decide) (by rw [show edaCfg.ellF = 800002 by decide]; omega) (by decide),
          show edaCfg.N = 800000 from rfl]
        omega
      rw [if_pos rfl, if_neg hp] at this
      exact this (by decide +kernel))
  have hn : edaOk edaCfg rp (fun k => BitVec.ofNat 62 ((fun k => if k = 0 then 1 else ((pN - 1 : Nat) : Fp)) k).val)
      (fun k => if k = 0 then 1 else ((pN - 1 : Nat) : Fp)) ≠ none := by
    rw [Ne, C44_exact]
    omega
  generalize edaOk edaCfg rp _ _ = o at *
  match o, hne, hn with
  | some false, _, _ => rfl
  | some true, h1, _ => exact absurd rfl h1
  | none, _, h1 => exact absurd rfl h1

/-- What does hold: generation passes whenever no bucket has sum `p`. -/
theorem C43_partial {c : EdaCfg} (hN : 0 < c.N) (hC : 0 < c.C) {rp : Nat} (h : rp + c.C ≤ c.ellF) (a : Nat → Fp)
    (ha : ∀ i k, i < c.N → c.N ≤ k → k < c.ell → (a i).val + (a k).val ≠ pN) :
    edaOk c rp (fun k => BitVec.ofNat 62 (a k).val) a = some true := by
  rw [C43_exact hN hC h]
  intro j hj i hi
  refine ha i _ hi ?_ (partner_lt hN (by omega) hj)
  rw [partnerF2_eq c hN (by omega) hj]
  omega

example : ∃ a : Nat → Fp, (∀ i k, i < edaCfg.N → edaCfg.N ≤ k → k < edaCfg.ell → (a i).val + (a k).val ≠ pN) ∧ a 0 ≠ a 1 := by
  refine ⟨fun k => if k = 0 then 7 else 3, ?_, ?_⟩
  · intro i k _ hk _
    have hk0 : k ≠ 0 := by
      have : edaCfg.N = 800000 := rfl
      omega
    simp only [hk0, if_false]
    split <;> decide +kernel
  · decide +kernel

/-! ### C68 : soundness of the cut and choose -/

section
variable {F : Type} [Field F] [BlockField F]

/-- Openings: `c i` and `(y i j, m i j)` are what the prover is committed to (field element and MAC; bit and label). If one
transcript `T` with words below `p` is accepted for two different secrets of each kind, the words are the committed field elements and have
the committed bits. -/
theorem C68_open (n : Nat) (c : Nat → Fp × Fp) (x : Nat → Int62) (m : Nat → Nat → F) (val : Nat → W) (hval : ∀ i, i < n → Canon (val i))
    (T : List (W ⊕ F)) {d d' : Fp} (hd : d ≠ d') {e e' : F} (he : e ≠ e')
    (h : T = dblOpenVer (toW d) e n (fun i => keyAt d (c i)) (fun i j => m i j + bit ((x i).getLsbD j) * e) val)
    (h' : T = dblOpenVer (toW d') e' n (fun i => keyAt d' (c i)) (fun i j => m i j + bit ((x i).getLsbD j) * e') val) :
    ∀ i, i < n → val i = toW (c i).1 ∧ (x i).toNat = (c i).1.val := by
  rw [h] at h'
  unfold dblOpenVer at h'
  have hs := List.append_inj h' (by simp)
  intro i hi
  have hv : val i = toW (c i).1 := by
    by_contra hne
    have h1 := List.map_inj_left.1 hs.1 i (List.mem_range.2 hi)
    exact hd (C41_open (c i) (val i) _ (hval i hi) hne d d' rfl (Sum.inl.inj h1).symm)
  refine ⟨hv, ?_⟩
  have h2 := (flatMap_inj_len (n := 62) (fun i _ => by simp) (fun i _ => by simp)).1 hs.2 i (List.mem_range.2 hi)
  have h3 : (x i).toNat = (val i).toNat := by
    refine (bits_eq_iff (hval i hi)).1 ?_
    intro j hj
    have h4 := Sum.inr.inj (List.map_inj_left.1 h2 j (List.mem_range.2 hj))
    by_contra hne
    apply he
    beta_reduce at h4
    cases hx : (x i).getLsbD j <;> cases hw : (val i).getLsbD j <;> rw [hx, hw] at hne h4 <;> simp at hne h4
    · exact h4
    · exact h4
  rw [h3, hv, toW_toNat]

end

/-- The cut and choose accepts, for every random point, candidates among which an output edaBit is wrong: an integer that is larger than
`p` is reduced together with the bucket's sum, and output candidates are never opened. -/
theorem C68_accepts {c : EdaCfg} (hC : 0 < c.C) (hN : 0 < c.N) {rp : Nat} (h : rp + c.C ≤ c.ellF) (x : Nat → Int62) (a : Nat → Fp)
    {i0 : Nat} (hi0 : i0 < c.N) (hx0 : (x i0).toNat = (a i0).val + pN) (hx : ∀ k, k ≠ i0 → (x k).toNat = (a k).val)
    (ha : ∀ i k, i < c.N → c.N ≤ k → 0 < (a i).val + (a k).val ∧ (a i).val + (a k).val < pN) :
    edaOk c rp x a = some true := by
  rw [edaOk_iff hC h]
  refine ⟨fun k _ => hx _ (by omega), ?_⟩
  intro j hj i hi
  have hk : c.N ≤ partnerF2 c rp j i := by
    rw [partnerF2_eq c hN (by omega) hj]
    omega
  generalize partnerF2 c rp j i = k at hk
  obtain ⟨h1, h2⟩ := ha i k hi hk
  have hxk := hx k (by omega)
  rw [ZMod.val_add, Nat.mod_eq_of_lt h2]
  by_cases e : i = i0
  · subst e
    rw [f2Sum_toNat, hx0, hxk]
    generalize (a i).val = u at *
    generalize (a k).val = v at *
    rw [Nat.mod_eq_of_lt (by simp only [pN] at *; omega), if_pos (by simp only [pN] at *; omega)]
    omega
  · have hxi := hx i e
    rw [f2Sum_canon (by rw [hxi]; exact val_lt_pN _) (by rw [hxk]; exact val_lt_pN _), hxi, hxk, if_neg h2.ne, Nat.mod_eq_of_lt h2]

/-- So soundness fails with the sizes of the code: there are candidates whose first edaBit is wrong, that pass for every random point
without undefined behaviour, and converting with that edaBit changes values: `p - 3` becomes `p - 1` as an integer, and 2 becomes 4 in
the field. -/
theorem C68_false : ∃ (x : Nat → Int62) (a : Nat → Fp), (x 0).toNat ≠ (a 0).val ∧
    (∀ rp, rp + 2 ≤ 800002 → edaOk edaCfg rp x a = some true) ∧
    (f2Diff (BitVec.ofNat 62 (((pN - 3 : Nat) : Fp) + a 0).val) (x 0)).toNat = pN - 1 ∧
    (((f2Diff 2#62 (x 0)).toNat : Nat) : Fp) + a 0 = 4 := by
  refine ⟨fun k => if k = 0 then BitVec.ofNat 62 (5 + pN) else 1#62, fun k => if k = 0 then 5 else 1, by decide +kernel, ?_,
    by decide +kernel, by decide +kernel⟩
  intro rp h
  have h5 : (5 : Fp).val = 5 := by decide +kernel
  have h1 : (1 : Fp).val = 1 := by decide +kernel
  refine C68_accepts (by decide) (by decide) (by rw [show edaCfg.C = 2 from rfl, show edaCfg.ellF = 800002 by decide]; exact h) _ _
    (i0 := 0) (by decide) (by decide +kernel) ?_ ?_
  · intro k hk
    simp only [hk, if_false]
    rw [h1]
    rfl
  · intro i k _ hk
    have hk0 : k ≠ 0 := by
      have : edaCfg.N = 800000 := rfl
      omega
    simp only [hk0, if_false]
    by_cases hi : i = 0
    · simp only [hi, if_true]
      rw [h5, h1]
      decide
    · simp only [hi, if_false]
      rw [h1]
      decide

/-- A prover that only enters integers below `p`. -/
def AllCanon (x : Nat → Int62) : Prop := ∀ k, (x k).toNat < pN

theorem partner_eda {rp : Nat} (h : rp + 2 ≤ 800002) (i : Nat) : partnerF2 edaCfg rp 0 i = 800000 + (rp + 2 + i) % 800002 := by
  have hE : edaCfg.ellF = 800002 := by decide
  rw [partnerF2_eq edaCfg (by decide) (by rw [hE]; omega) (by decide), hE, show edaCfg.N = 800000 from rfl, show edaCfg.C = 2 from rfl,
    show edaCfg.bm1 = 1 from rfl, Nat.mul_one, Nat.zero_add]

/-- Also with integers below `p` only, a wrong output edaBit passes for one random point in seven. -/
theorem C68_shift : ∃ (x : Nat → Int62) (a : Nat → Fp), AllCanon x ∧ (x 0).toNat ≠ (a 0).val ∧
    ∀ rp, rp + 2 ≤ 800002 → rp % 7 = 5 → edaOk edaCfg rp x a = some true := by
  have h1 : (1 : Fp).val = 1 := by decide +kernel
  have h11 : ((1 : Fp) + 1).val = 2 := by decide +kernel
  refine ⟨fun k => if k < 800000 then (if k % 7 = 0 then 2#62 else 1#62) else (if (k - 800000) % 7 = 0 then 0#62 else 1#62), fun _ => 1, ?_,
    by decide +kernel, ?_⟩
  · intro k
    simp only
    split <;> split <;> decide
  · intro rp h h7
    have hE : edaCfg.ellF = 800002 := by decide
    rw [edaOk_iff (by decide) (by rw [show edaCfg.C = 2 from rfl, hE]; exact h)]
    constructor
    · intro k hk
      have hk2 : k < 2 := hk
      rw [show edaCfg.N = 800000 from rfl, if_neg (by omega), if_neg (by omega), h1]
      rfl
    · intro j hj i hi
      have hj0 : j = 0 := by
        have : j < 1 := hj
        omega
      subst hj0
      have hi' : i < 800000 := hi
      have hp : partnerF2 edaCfg rp 0 i = 800000 + (rp + 2 + i) % 800002 := partner_eda h i
      have hm : (rp + 2 + i) % 800002 % 7 = i % 7 := by omega
      have hn : ¬ 800000 + (rp + 2 + i) % 800002 < 800000 := by omega
      simp only [hp, h11, hi', if_true, hn, if_false, Nat.add_sub_cancel_left, hm]
      split <;> decide

/-- What does hold: if all integers are below `p`, wrong output edaBits pass for at most one random point in seven, whatever the prover
entered. -/
theorem C68_partial (x : Nat → Int62) (a : Nat → Fp) (hx : AllCanon x) {i0 : Nat} (hi0 : i0 < 800000) (hbad : (x i0).toNat ≠ (a i0).val) :
    ((Finset.range 800002).filter (fun rp => edaOk edaCfg rp x a = some true)).card * 7 ≤ 800002 := by
  have hE : edaCfg.ellF = 800002 := by decide
  let e : Nat → Fp := fun k => ((x k).toNat : Fp) - a k
  have hgood : ∀ k, (x k).toNat = (a k).val ↔ e k = 0 := by
    intro k
    rw [sub_eq_zero]
    constructor
    · intro h
      rw [h, ZMod.natCast_zmod_val]
    · intro h
      rw [← h, ZMod.val_natCast, Nat.mod_eq_of_lt (hx k)]
  have hpass : ∀ rp, edaOk edaCfg rp x a = some true → rp + 2 ≤ 800002 ∧ e (800000 + rp) = 0 ∧ e (800000 + rp + 1) = 0 ∧
      ∀ i, i < 800000 → e i + e (800000 + (rp + 2 + i) % 800002) = 0 := by
    intro rp h
    have hle : rp + 2 ≤ 800002 := by
      by_contra hlt
      have := (C44_exact rp x a).2 (by omega)
      rw [this] at h
      cases h
    rw [edaOk_iff (by decide) (by rw [show edaCfg.C = 2 from rfl, hE]; exact hle)] at h
    obtain ⟨ho, hb⟩ := h
    refine ⟨hle, (hgood _).1 (ho 0 (by decide)), (hgood _).1 (ho 1 (by decide)), ?_⟩
    intro i hi
    have h1 := hb 0 (by decide) i hi
    rw [partner_eda hle i] at h1
    generalize 800000 + (rp + 2 + i) % 800002 = k at h1
    rw [f2Sum_canon (hx i) (hx k)] at h1
    split at h1
    · exact absurd h1.symm (val_lt_pN _).ne
    · have h2 := congrArg (Nat.cast (R := Fp)) h1
      rw [ZMod.natCast_mod, Nat.cast_add, ZMod.natCast_zmod_val] at h2
      change ((x i).toNat : Fp) - a i + (((x k).toNat : Fp) - a k) = 0
      linear_combination h2
  have hcast : ∀ n, n < 800002 → ((n : Nat) : ZMod 800002).val = n := fun n hn => ZMod.val_cast_of_lt hn
  let β : ZMod 800002 → Bool := fun u => decide (e (800000 + u.val) ≠ 0)
  let o : ZMod 800002 → Bool := fun v => decide (2 ≤ v.val ∧ e (v.val - 2) ≠ 0)
  have key := shift_bound (q := 7) β o (((Finset.range 800002).filter (fun rp => edaOk edaCfg rp x a = some true)).image
    (fun n : Nat => (n : ZMod 800002))) ?_ (by simp [o]) ?_ (v0 := ((i0 + 2 : Nat) : ZMod 800002)) ?_ ?_
  · rwa [Finset.card_image_of_injOn] at key
    intro u hu v hv huv
    simp only [Finset.coe_filter, Finset.mem_range, Set.mem_ofPred_eq] at hu hv
    have := congrArg ZMod.val huv
    rwa [hcast u hu.1, hcast v hv.1] at this
  · intro r hr v
    simp only [Finset.mem_image, Finset.mem_filter, Finset.mem_range] at hr
    obtain ⟨rp, ⟨hrp, hp⟩, rfl⟩ := hr
    obtain ⟨h0, h1, h2, h3⟩ := hpass rp hp
    have hv : v.val < 800002 := ZMod.val_lt v
    have hadd : ((rp : ZMod 800002) + v).val = (rp + v.val) % 800002 := by rw [ZMod.val_add, hcast rp hrp]
    simp only [β, o]
    rw [hadd]
    rcases Nat.lt_or_ge v.val 2 with hlt | hge
    · have : e (800000 + (rp + v.val) % 800002) = 0 := by
        rw [Nat.mod_eq_of_lt (by omega)]
        rcases Nat.lt_or_ge v.val 1 with h' | h'
        · rw [show v.val = 0 by omega]; exact h1
        · rw [show v.val = 1 by omega]; exact h2
      simp [this, hlt]
    · have := h3 (v.val - 2) (by omega)
      rw [show rp + 2 + (v.val - 2) = rp + v.val by omega] at this
      have hiff : e (800000 + (rp + v.val) % 800002) ≠ 0 ↔ e (v.val - 2) ≠ 0 := by
        rw [eq_neg_of_add_eq_zero_left this]
        simp
      simp [hiff, hge]
  · have : (1 : ZMod 800002).val = 1 := by
      rw [← Nat.cast_one, hcast 1 (by omega)]
    simp only [o, this]
    simp
  · simp only [o]
    rw [hcast _ (by omega)]
    simp only [Nat.add_sub_cancel, decide_eq_true_eq]
    exact ⟨by omega, fun h => hbad ((hgood i0).2 h)⟩
  · intro d hd hlt
    interval_cases d <;> revert hd <;> decide

example : AllCanon (fun k => if k = 0 then 4#62 else 3#62) ∧ (4#62).toNat ≠ (3 : Fp).val := by
  refine ⟨?_, by decide +kernel⟩
  intro k
  simp only
  split <;> decide

/-- Two transcripts that meet the hypotheses of `C68_open`: one opened pair with value 1. -/
example : dblOpenVer (toW 5) (1 : GF128) 1 (fun _ => keyAt 5 (1, 9)) (fun _ j => (if j = 0 then 1 else 0) + bit ((1#62).getLsbD j) * 1)
      (fun _ => toW 1) =
    dblOpenVer (toW 6) (0 : GF128) 1 (fun _ => keyAt 6 (1, 9)) (fun _ j => (if j = 0 then 1 else 0) + bit ((1#62).getLsbD j) * 0)
      (fun _ => toW 1) := by
  unfold dblOpenVer
  refine congrArg₂ (· ++ ·) ?_ ?_
  · refine List.map_congr_left fun i _ => ?_
    rw [low64_keyAt, low64_keyAt, multMod_toW, multMod_toW, addMod_toW, addMod_toW]
    congr 2
  · simp only [List.range_one, List.flatMap_singleton]
    refine List.map_congr_left fun j hj => ?_
    have hb : (toW 1).getLsbD j = (1#62).getLsbD j := by
      rw [List.mem_range] at hj
      have := (bits_eq_iff (x := 1#62) (canon_toW 1)).2 (by rw [toW_toNat]; decide +kernel) j hj
      exact this.symm
    rw [hb]
    cases (1#62).getLsbD j
    · simp
    · simp [add_assoc, addSelf]

/-! ### C69 : conversions hide the value -/

/-- Boolean to arithmetic: whatever the value, every word below `p` is opened for exactly one mask. -/
theorem C69_bool2arith (x : Int62) (hx : x.toNat < pN) (t : Nat) (ht : t < pN) : ∃! r : Int62, r.toNat < pN ∧ (f2Diff x r).toNat = t := by
  have key : ∀ r : Int62, r.toNat < pN → ((f2Diff x r).toNat = t ↔ r.toNat = (x.toNat + (pN - t)) % pN) := by
    intro r hr
    rw [f2Diff_canon hx hr]
    generalize x.toNat = u at *
    generalize r.toNat = v at *
    simp only [pN] at *
    omega
  have hm : (x.toNat + (pN - t)) % pN < pN := Nat.mod_lt _ (by decide)
  have hb : (BitVec.ofNat 62 ((x.toNat + (pN - t)) % pN)).toNat = (x.toNat + (pN - t)) % pN := by
    rw [BitVec.toNat_ofNat, Nat.mod_eq_of_lt (lt_trans hm (by decide))]
  refine ⟨BitVec.ofNat 62 ((x.toNat + (pN - t)) % pN), ⟨by rw [hb]; exact hm, (key _ (by rw [hb]; exact hm)).2 hb⟩, ?_⟩
  rintro r ⟨h1, h2⟩
  exact BitVec.eq_of_toNat_eq (((key r h1).1 h2).trans hb.symm)

/-- Arithmetic to boolean: whatever the value, every word below `p` is opened for exactly one mask; the rest of what the verifier sees is
computed from that word and its own keys (`C41_arith2bool`). -/
theorem C69_arith2bool (Mx : U128) (hx : Canon (high64 Mx)) (mac t : W) (ht : Canon t) :
    ∃! r : W, Canon r ∧ high64 (intfpAddA (makeBlock r mac) Mx) = t := by
  have e : ∀ r : W, high64 (intfpAddA (makeBlock r mac) Mx) = addMod r (high64 Mx) := fun r => by
    rw [intfpAddA, high64_makeBlock, high64_makeBlock]
  refine ⟨toW (fp t - fp (high64 Mx)), ⟨canon_toW _, ?_⟩, ?_⟩
  · rw [e]
    refine fp_inj (canon_addMod (canon_toW _) hx) ht ?_
    rw [fp_addMod_canon (canon_toW _) hx, fp_toW]
    ring
  · rintro r ⟨hr, h⟩
    rw [e] at h
    refine eq_toW hr ?_
    rw [← h, fp_addMod_canon hr hx]
    ring

example : (f2Diff 3#62 5#62).toNat = pN - 2 ∧ (f2Diff 5#62 3#62).toNat = 2 := by decide

end EmpZk
