/-
C78: what the prover can learn about `Delta` from the consistency check of the VOLE extension.
-/
import Verif.Props.Mpfss
import Verif.Props.F2kVole
import Verif.Model.VoleTriple
import Verif.Lemmas.Extend
import Verif.Lemmas.ArithSession

namespace EmpZk

/-- The word hashed by the verifier, for every message of the prover. -/
theorem mpfss_reply (G0 G1 : U128 → U128) (levels treeN : Nat) (ht : 0 < treeN) (seed : Nat → U128) (d y x : Fp) (delta yb : U128)
    (hd : low64 delta = toW d) (hy : low64 yb = toW y) (digest : Nat → W) :
    mpfssCheckSend digest treeN delta yb ((List.range treeN).map (fun i =>
        (List.range (2 ^ levels)).map (fun k => (toW (leafVal G0 G1 (seed i) levels k)).setWidth 128))) (toW x) =
      some (toW (((List.range treeN).map (fun i => chiSum (fp (digest i)) ((List.range (2 ^ levels)).map
        (leafVal G0 G1 (seed i) levels)))).sum - (y + d * x))) := by
  have h2 : 0 < 2 ^ levels := by positivity
  have hS := mapM_some (List.range treeN) (fun i => (do
      let l ← ((List.range treeN).map (fun i => (List.range (2 ^ levels)).map (fun k =>
        (toW (leafVal G0 G1 (seed i) levels k)).setWidth 128)))[i]?
      spfssCheckSend (mod64 (digest i)) l))
    (fun i => toW (chiSum (fp (digest i)) ((List.range (2 ^ levels)).map (leafVal G0 G1 (seed i) levels)))) (by
      intro i hi
      have hi' := List.mem_range.1 hi
      simp only [List.getElem?_map, List.getElem?_range hi', Option.map_some, Option.bind_eq_bind, Option.bind_some, mod64_eq_toW]
      exact checkSum_toW (fp (digest i)) _ (2 ^ levels) h2)
  unfold mpfssCheckSend
  show (Option.bind (List.mapM _ _) _) = _
  rw [hS]
  simp only [Option.bind_some, Option.some.injEq]
  have e1 : ∀ f : Nat → Fp, (List.range treeN).map (fun i => toW (f i)) = ((List.range treeN).map f).map toW := by
    intro f; rw [List.map_map]; rfl
  rw [e1, mpfssVb_toW d y x _ _ delta yb hd hy]
  intro h'
  have := congrArg List.length h'
  simp at this
  omega

/-- C78. After an honest start, let the prover send instead of the word `x_star` it should send the word that differs from
it by `t`.  The verifier hashes the word the prover has computed itself, minus `t * Delta`. -/
theorem C78_reply (G0 G1 : U128 → U128) (levels : Nat) (hl : 0 < levels) (treeN : Nat) (ht : 0 < treeN) (seed : Nat → U128)
    (memS memR : Nat → Mem) (b : Nat → Nat → Bool) (delta : U128) (hd : Canon (low64 delta)) (key mac : Nat → U128)
    (h : ∀ i, i ≤ treeN → Auth (low64 delta) (mac i) (key i)) (digest : Nat → W) :
    ∃ S, mpfssSend G0 G1 levels treeN seed memS key = some S ∧
      ∀ (m : Nat → Nat → U128) (share : Nat → W),
        (∀ i t, S[i]? = some t → share i = t.2.2 ∧ ∀ j p, t.2.1[j]? = some p → m i j = if b i j then p.2 else p.1) →
        ∃ R xStar v R', mpfssRecv G0 G1 levels treeN b m memR share mac = some R ∧
          mpfssCheckRecv digest levels treeN b mac R = some (xStar, v, R') ∧ Canon xStar ∧ Canon v ∧
          ∀ t : Fp, mpfssCheckSend digest treeN delta (key treeN) (S.map (fun t => t.1)) (toW (fp xStar + t)) =
            some (toW (fp v - t * fp (low64 delta))) := by
  obtain ⟨S, h1, h2, h3⟩ := mpfss_values G0 G1 levels hl treeN seed memS memR b key mac
    (fun i hi => ⟨(h i hi.le).key, (h i hi.le).mac⟩)
  have hdw : low64 delta = toW (fp (low64 delta)) := (toW_fp hd).symm
  refine ⟨S, h1, ?_⟩
  intro m share hms
  obtain ⟨xStar, v, h4, h5, hx⟩ := mpfss_check_eq G0 G1 levels treeN seed b (fp (low64 delta)) delta hdw key mac
    (by rw [← hdw]; exact h) digest
  have hy : low64 (key treeN) = toW (fp (low64 (key treeN))) := (toW_fp (h treeN (le_refl _)).key).symm
  have hrep := fun x : Fp => mpfss_reply G0 G1 levels treeN ht seed (fp (low64 delta)) (fp (low64 (key treeN))) x delta
    (key treeN) hdw hy digest
  have e0 := hrep (fp xStar)
  rw [toW_fp hx, h5] at e0
  have ev := Option.some.inj e0
  refine ⟨_, xStar, v, _, h3 m share hms, h4, hx, by rw [ev]; exact canon_toW _, ?_⟩
  intro t
  rw [h2, hrep, ev, fp_toW]
  refine congrArg (fun a => some (toW a)) ?_
  ring

/-- C78 (partial: for a prover that sends the right word). The verifier's reply is the hash of a word which the prover has
computed from its own data, so it tells the prover nothing. -/
theorem C78_honest_partial (G0 G1 : U128 → U128) (levels : Nat) (hl : 0 < levels) (treeN : Nat) (ht : 0 < treeN) (seed : Nat → U128)
    (memS memR : Nat → Mem) (b : Nat → Nat → Bool) (delta : U128) (hd : Canon (low64 delta)) (key mac : Nat → U128)
    (h : ∀ i, i ≤ treeN → Auth (low64 delta) (mac i) (key i)) (digest : Nat → W) {β : Type} (H : W → β) :
    ∃ S, mpfssSend G0 G1 levels treeN seed memS key = some S ∧
      ∀ (m : Nat → Nat → U128) (share : Nat → W),
        (∀ i t, S[i]? = some t → share i = t.2.2 ∧ ∀ j p, t.2.1[j]? = some p → m i j = if b i j then p.2 else p.1) →
        ∃ R xStar v R', mpfssRecv G0 G1 levels treeN b m memR share mac = some R ∧
          mpfssCheckRecv digest levels treeN b mac R = some (xStar, v, R') ∧
          (mpfssCheckSend digest treeN delta (key treeN) (S.map (fun t => t.1)) xStar).map H = some (H v) := by
  obtain ⟨S, h1, h2⟩ := C78_reply G0 G1 levels hl treeN ht seed memS memR b delta hd key mac h digest
  refine ⟨S, h1, fun m share hm => ?_⟩
  obtain ⟨R, xStar, v, R', e1, e2, e3, e4, e5⟩ := h2 m share hm
  refine ⟨R, xStar, v, R', e1, e2, ?_⟩
  have := e5 0
  rw [add_zero, zero_mul, sub_zero, toW_fp e3, toW_fp e4] at this
  rw [this]; rfl

/-- C78. A prover that sends its word plus one can recognise `Delta` among all candidates, each with one evaluation of the
hash: there are `2^61 - 1` candidates. -/
theorem C78_exposed (G0 G1 : U128 → U128) (levels : Nat) (hl : 0 < levels) (treeN : Nat) (ht : 0 < treeN) (seed : Nat → U128)
    (memS memR : Nat → Mem) (b : Nat → Nat → Bool) (delta : U128) (hd : Canon (low64 delta)) (key mac : Nat → U128)
    (h : ∀ i, i ≤ treeN → Auth (low64 delta) (mac i) (key i)) (digest : Nat → W) {β : Type} (H : W → β)
    (hH : Function.Injective H) :
    ∃ S, mpfssSend G0 G1 levels treeN seed memS key = some S ∧
      ∀ (m : Nat → Nat → U128) (share : Nat → W),
        (∀ i t, S[i]? = some t → share i = t.2.2 ∧ ∀ j p, t.2.1[j]? = some p → m i j = if b i j then p.2 else p.1) →
        ∃ R xStar v R' r, mpfssRecv G0 G1 levels treeN b m memR share mac = some R ∧
          mpfssCheckRecv digest levels treeN b mac R = some (xStar, v, R') ∧
          (mpfssCheckSend digest treeN delta (key treeN) (S.map (fun t => t.1)) (addMod xStar 1)).map H = some r ∧
          ∀ d, Canon d → (H (addMod v (toW (-fp d))) = r ↔ d = low64 delta) := by
  obtain ⟨S, h1, h2⟩ := C78_reply G0 G1 levels hl treeN ht seed memS memR b delta hd key mac h digest
  refine ⟨S, h1, fun m share hm => ?_⟩
  obtain ⟨R, xStar, v, R', e1, e2, e3, e4, e5⟩ := h2 m share hm
  have h1w : (1 : W) = toW 1 := by decide +kernel
  refine ⟨R, xStar, v, R', H (toW (fp v - fp (low64 delta))), e1, e2, ?_, ?_⟩
  · have := e5 1
    rw [one_mul] at this
    have hx : addMod xStar 1 = toW (fp xStar + 1) := by
      rw [← addMod_toW, toW_fp e3, ← h1w]
    rw [hx, this]; rfl
  · intro d hdc
    have hv : addMod v (toW (-fp d)) = toW (fp v - fp d) := by
      rw [sub_eq_add_neg, ← addMod_toW, toW_fp e4]
    rw [hv]
    constructor
    · intro e
      have e' := congrArg fp (hH e)
      rw [fp_toW, fp_toW] at e'
      have : fp d = fp (low64 delta) := sub_right_injective e'
      rw [← toW_fp hdc, this, toW_fp hd]
    · intro e; rw [e]

/-- C78. The verifier goes on as if nothing had happened: its vectors do not depend on the prover's word, and there is no word
for which it stops. -/
theorem C78_unnoticed (c : ExtCfg) (digest : Nat → W) (delta : U128) (key : Nat → U128) (trees : List (List U128)) (x x' : W) :
    (extSend c digest delta key trees x).map Prod.snd = (extSend c digest delta key trees x').map Prod.snd := by
  simp only [extSend, mpfssCheckSend, Option.bind_eq_bind]
  cases List.mapM (m := Option) (fun i => (trees[i]?).bind (fun l => spfssCheckSend (mod64 (digest i)) l)) (List.range c.t) with
  | none => simp only [Option.bind_none]
  | some V =>
    simp only [Option.bind_some]
    cases lpnComputeSend c.prp c.n c.k c.threads trees.flatten ((List.range c.k).map (fun j => key (c.t + 1 + j))) with
    | none => simp only [Option.bind_none]
    | some o => simp only [Option.bind_some, Option.map_some]

/-- C78. Two verifiers that differ in `Delta` (and in the key of the check's mask, which belongs to it) send the same messages,
also the same reply to the right word, but different replies to the word plus one. -/
theorem C78_two_verifiers (G0 G1 : U128 → U128) (levels : Nat) (hl : 0 < levels) (treeN : Nat) (ht : 0 < treeN) (seed : Nat → U128)
    (memS memR : Nat → Mem) (b : Nat → Nat → Bool) (delta1 delta2 : U128) (hd1 : Canon (low64 delta1))
    (hd2 : Canon (low64 delta2)) (hne : low64 delta1 ≠ low64 delta2) (key1 key2 mac : Nat → U128)
    (h1 : ∀ i, i ≤ treeN → Auth (low64 delta1) (mac i) (key1 i)) (h2 : ∀ i, i ≤ treeN → Auth (low64 delta2) (mac i) (key2 i))
    (hk : ∀ i, i < treeN → key1 i = key2 i) (digest : Nat → W) :
    ∃ S, mpfssSend G0 G1 levels treeN seed memS key1 = some S ∧ mpfssSend G0 G1 levels treeN seed memS key2 = some S ∧
      ∀ (m : Nat → Nat → U128) (share : Nat → W),
        (∀ i t, S[i]? = some t → share i = t.2.2 ∧ ∀ j p, t.2.1[j]? = some p → m i j = if b i j then p.2 else p.1) →
        ∃ xStar v1 v2,
          mpfssCheckSend digest treeN delta1 (key1 treeN) (S.map (fun t => t.1)) xStar =
            mpfssCheckSend digest treeN delta2 (key2 treeN) (S.map (fun t => t.1)) xStar ∧
          mpfssCheckSend digest treeN delta1 (key1 treeN) (S.map (fun t => t.1)) (addMod xStar 1) = some v1 ∧
          mpfssCheckSend digest treeN delta2 (key2 treeN) (S.map (fun t => t.1)) (addMod xStar 1) = some v2 ∧ v1 ≠ v2 := by
  obtain ⟨S, a1, a2⟩ := C78_reply G0 G1 levels hl treeN ht seed memS memR b delta1 hd1 key1 mac h1 digest
  obtain ⟨S', b1, b2⟩ := C78_reply G0 G1 levels hl treeN ht seed memS memR b delta2 hd2 key2 mac h2 digest
  have hS : mpfssSend G0 G1 levels treeN seed memS key1 = mpfssSend G0 G1 levels treeN seed memS key2 := by
    unfold mpfssSend
    refine mapM_congr' (List.range treeN) _ _ ?_
    intro i hi
    rw [hk i (List.mem_range.1 hi)]
  have hSS : S' = S := by
    rw [hS, b1] at a1
    exact Option.some.inj a1
  subst hSS
  refine ⟨S', a1, b1, ?_⟩
  intro m share hm
  obtain ⟨R, xStar, v, R', e1, e2, e3, e4, e5⟩ := a2 m share hm
  obtain ⟨R2, xStar2, v2, R2', f1, f2, f3, f4, f5⟩ := b2 m share hm
  rw [e1] at f1
  have := (Option.some.inj f1).symm
  subst this
  rw [e2] at f2
  have hq := Option.some.inj f2
  simp only [Prod.mk.injEq] at hq
  obtain ⟨rfl, rfl, rfl⟩ := hq
  have h1w : (1 : W) = toW 1 := by decide +kernel
  have hx : addMod xStar 1 = toW (fp xStar + 1) := by rw [← addMod_toW, toW_fp e3, ← h1w]
  refine ⟨xStar, _, _, ?_, by rw [hx]; exact e5 1, by rw [hx]; exact f5 1, ?_⟩
  · have := e5 0
    have h' := f5 0
    rw [add_zero, zero_mul, sub_zero, toW_fp e3] at this h'
    rw [this, h']
  · intro e
    have e' := congrArg fp e
    rw [fp_toW, fp_toW, one_mul, one_mul] at e'
    have : fp (low64 delta1) = fp (low64 delta2) := sub_right_injective e'
    exact hne (by rw [← toW_fp hd1, this, toW_fp hd2])

/-- C78 is false: with a concrete tree, the `Delta` 5 and 7. -/
theorem C78_false : ∃ (delta1 delta2 : U128) (key1 key2 mac : Nat → U128) (S : List (List U128 × List (U128 × U128) × W)) (x : W),
    Canon (low64 delta1) ∧ Canon (low64 delta2) ∧
    (∀ i, i ≤ 1 → Auth (low64 delta1) (mac i) (key1 i)) ∧ (∀ i, i ≤ 1 → Auth (low64 delta2) (mac i) (key2 i)) ∧
    mpfssSend id (· + 1) 1 1 (fun _ => 3) (fun _ _ => 0) key1 = some S ∧
    mpfssSend id (· + 1) 1 1 (fun _ => 3) (fun _ _ => 0) key2 = some S ∧
    (mpfssCheckSend (fun _ => 2) 1 delta1 (key1 1) (S.map (fun t => t.1)) x).isSome ∧
    mpfssCheckSend (fun _ => 2) 1 delta1 (key1 1) (S.map (fun t => t.1)) x ≠
      mpfssCheckSend (fun _ => 2) 1 delta2 (key2 1) (S.map (fun t => t.1)) x := by
  have hA : ∀ i, i ≤ 1 → Auth (low64 5) ((fun i => if i = 0 then makeBlock 0 9 else makeBlock 3 22) i)
      ((fun i => if i = 0 then 9 else 7) i) := by
    intro i hi
    obtain rfl | rfl : i = 0 ∨ i = 1 := by omega
    · exact ⟨by decide, by decide, by decide, by decide, by decide +kernel⟩
    · exact ⟨by decide, by decide, by decide, by decide, by decide +kernel⟩
  have hB : ∀ i, i ≤ 1 → Auth (low64 7) ((fun i => if i = 0 then makeBlock 0 9 else makeBlock 3 22) i)
      ((fun i => if i = 0 then 9 else 1) i) := by
    intro i hi
    obtain rfl | rfl : i = 0 ∨ i = 1 := by omega
    · exact ⟨by decide, by decide, by decide, by decide, by decide +kernel⟩
    · exact ⟨by decide, by decide, by decide, by decide, by decide +kernel⟩
  obtain ⟨S, a1, a2, a3⟩ := C78_two_verifiers id (· + 1) 1 (by decide) 1 (by decide) (fun _ => 3) (fun _ _ => 0) (fun _ _ => 0)
    (fun _ _ => true) 5 7 (by decide) (by decide) (by decide) _ _ _ hA hB
    (by intro i hi; obtain rfl : i = 0 := by omega
        rfl) (fun _ => 2)
  obtain ⟨x, v1, v2, _, e1, e2, e3⟩ := a3 (fun i j => otMsg S (fun _ _ => true) i j)
    (fun i => match S[i]? with | some t => t.2.2 | none => 0) (by
      intro i t hit
      refine ⟨by simp only [hit], ?_⟩
      intro j p hp
      simp only [otMsg, hit, hp])
  refine ⟨5, 7, _, _, _, S, addMod x 1, by decide, by decide, hA, hB, a1, a2, ?_, ?_⟩
  · show (mpfssCheckSend (fun _ => 2) 1 5 ((fun i => if i = 0 then 9 else 7) 1) (S.map (fun t => t.1)) (addMod x 1)).isSome
    rw [e1]; rfl
  · intro e
    rw [e1, e2] at e
    exact e3 (Option.some.inj e)

/-- C78 over F_{2^128}: the reply to the right block plus `t` is the hash of the prover's own block plus `t * Delta`. -/
theorem C78_reply_f2k (G0 G1 : U128 → U128) (levels : Nat) (hl : 0 < levels) (treeN : Nat) (seed : Nat → U128)
    (memS memR : Nat → Mem) (b : Nat → Nat → Bool) (delta : GF128) (x key mac : Nat → GF128)
    (h : ∀ i, i ≤ treeN → mac i = key i + x i * delta) (digest : Nat → GF128) :
    ∃ S, mpfssF2kSend G0 G1 levels treeN seed memS key = some S ∧
      ∀ (m : Nat → Nat → U128) (share : Nat → GF128),
        (∀ i t, S[i]? = some t → share i = t.2.2 ∧ ∀ j p, t.2.1[j]? = some p → m i j = if b i j then p.2 else p.1) →
        ∃ R xStar v, mpfssF2kRecv G0 G1 levels treeN b m memR share mac = some R ∧
          f2kCheckRecv digest levels treeN b x (mac treeN) R = some (xStar, v) ∧
          ∀ t, f2kCheckSend digest treeN delta (key treeN) (S.map (fun t => t.1)) (xStar + t) = some (v + t * delta) := by
  obtain ⟨S, h1, h2, h3⟩ := mpfssF2k_values G0 G1 levels hl treeN seed memS memR b key mac
  refine ⟨S, h1, ?_⟩
  intro m share hms
  obtain ⟨xStar, v, h4, h5, _⟩ := f2k_check_eq G0 G1 levels treeN seed b delta x key mac h digest
  refine ⟨_, xStar, v, h3 m share hms, h4, ?_⟩
  intro t
  rw [h2]
  have ht := tree_chi digest levels treeN (fun i => leafG G0 G1 (seed i) levels)
  simp only [Option.bind_eq_bind] at ht
  simp only [f2kCheckSend, Option.bind_eq_bind, ht, Option.bind_some, Option.some.injEq] at h5 ⊢
  rw [← h5]
  have hf : ∀ (l : List GF128) (a : GF128), l.foldl (· + ·) a = a + l.sum := by
    intro l
    induction l with
    | nil => intro a; simp
    | cons y l ih => intro a; simp only [List.foldl_cons, ih, List.sum_cons]; ring
  rw [hf, hf]
  ring

/-- C78 over F_{2^128}: a prover that sends its block plus one gets the hash of a block that determines `Delta`. -/
theorem C78_exposed_f2k (digest : Nat → GF128) (treeN : Nat) (delta y : GF128) (trees : List (List GF128)) (xStar v : GF128)
    (h : ∀ t, f2kCheckSend digest treeN delta y trees (xStar + t) = some (v + t * delta)) {β : Type} (H : GF128 → β)
    (hH : Function.Injective H) : ∃ r, (f2kCheckSend digest treeN delta y trees (xStar + 1)).map H = some r ∧
      ∀ d, H (v + d) = r ↔ d = delta := by
  refine ⟨H (v + delta), by rw [h, one_mul]; rfl, ?_⟩
  intro d
  constructor
  · intro e; exact add_left_cancel (hH e)
  · intro e; rw [e]

/-- C78 over F_{2^128}: the verifier's vectors do not depend on the prover's block. -/
theorem C78_unnoticed_f2k (c : ExtCfg) (digest : Nat → GF128) (delta : GF128) (key : Nat → GF128) (trees : List (List GF128))
    (x x' : GF128) :
    (extF2kKey c digest delta key trees x).map Prod.snd = (extF2kKey c digest delta key trees x').map Prod.snd := by
  simp only [extF2kKey, f2kCheckSend, Option.bind_eq_bind]
  cases List.mapM (m := Option) (fun i => (trees[i]?).bind (fun l => some (chiSum (digest i) l))) (List.range c.t) with
  | none => simp only [Option.bind_none]
  | some V =>
    simp only [Option.bind_some]
    cases lpnF2kCompute c.prp c.n c.k c.threads trees.flatten ((List.range c.k).map (fun j => key (c.t + j))) with
    | none => simp only [Option.bind_none]
    | some o => simp only [Option.bind_some, Option.map_some]

/-- C78. What `Delta` is worth: a prover that knows it opens any wire (value `c.1`, MAC `c.2`) as any value. -/
theorem C78_forge (c : Fp × Fp) (d : Fp) (x : W) (hx : Canon x) :
    openB (toW d) x (keyAt d c) = toW (c.2 + (fp x - c.1) * d) := openB_img d c x hx

/-! ### concrete cases (for F_p see the proof of `C78_false`) -/

/-- Correlations over F_{2^128} that meet the hypothesis of `C78_reply_f2k`. -/
example : ∃ (x key mac : Nat → GF128) (delta : GF128), (∀ i, i ≤ 1 → mac i = key i + x i * delta) ∧ delta ≠ 0 ∧ x 1 ≠ 0 :=
  ⟨fun _ => ⟨3⟩, fun i => ⟨BitVec.ofNat 128 (i + 5)⟩, fun i => ⟨BitVec.ofNat 128 (i + 5)⟩ + ⟨3⟩ * ⟨9⟩, ⟨9⟩, fun _ _ => rfl,
    by decide, by decide⟩

/-- `C78_forge`: a wire of value 3 opened as 4 with `Delta` 5. -/
example : openB (toW 5) 4 (keyAt 5 (3, 22)) = toW (22 + (fp 4 - 3) * 5) ∧ fp 4 ≠ 3 := by
  refine ⟨C78_forge _ _ _ (by decide), by decide +kernel⟩

end EmpZk
