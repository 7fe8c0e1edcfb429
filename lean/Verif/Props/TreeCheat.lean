/-
C95: what the consistency check of an extension says about the trees.
-/
import Verif.Props.F2kVole
import Verif.Lemmas.TreeCheat

namespace EmpZk
open Finset

/-! ### the seeds over F_{2^128} -/

/-- C95 (seeds over F_{2^128}). Whatever is received in the trees: the digests from which the coefficients of `t` trees are derived are
that of the bits sent before, and then those of the empty string. None depends on a message of a tree. -/
theorem C95_digests (S : Nat) (hS : 0 < S) (pre : List SOp) (levels t : Nat) (ht : 0 < t) :
    ∃ (ds : List (List Byte)) (h0 : List Byte), ∀ (junk : List Byte) (rops : List ROp) (c : Net),
      Reach S (netInit S junk (pre ++ (List.replicate t (treeCallsF levels)).flatten) rops) c → c.sops = [] →
      c.snd.digests = ds ++ h0 :: List.replicate (t - 1) [] := by
  obtain ⟨t, rfl⟩ : ∃ u, t = u + 1 := ⟨t - 1, by omega⟩
  refine ⟨(sndFlush S (sndRun S ⟨[], [], [], []⟩ pre)).1.digests, (sndFlush S (sndRun S ⟨[], [], [], []⟩ pre)).1.hashed, ?_⟩
  intro junk rops c hr hc
  obtain ⟨dn, h1, _, h3⟩ := sndRun_of_reach hS hr
  rw [hc, List.append_nil] at h1
  rcases h3 with ⟨_, _, h3⟩ | ⟨⟨n, l, h3⟩, _⟩
  · rw [h3, ← h1, sndRun_append, List.replicate_succ, List.flatten_cons, sndRun_append]
    have hp := sndRun_buf hS pre ⟨[], [], [], []⟩ hS
    generalize sndRun S ⟨[], [], [], []⟩ pre = s1 at hp
    have hb : (sndFlush S s1).1.buf = [] := sndFlush_buf s1 hp
    rw [sndRun_treeCalls_flush hS levels s1 hp, sndRun_treeCalls levels _ hb,
      sndRun_trees levels t { (sndFlush S s1).1 with hashed := [], digests := (sndFlush S s1).1.digests ++ [(sndFlush S s1).1.hashed] } hb rfl,
      List.append_assoc]
    rfl
  · rw [hc] at h3
    cases h3

/-- A bit and two trees of one level, answered at once: the second digest is that of the empty string. -/
example : ∃ c : Net, Reach 8 (netInit 8 [] ([.bit true] ++ (List.replicate 2 (treeCallsF 1)).flatten)
      [.back (List.replicate 48 7), .back (List.replicate 48 9)]) c ∧ c.sops = [] ∧ ∃ h0, c.snd.digests = [h0, []] := by
  refine ⟨_, .sndStep (.sndStep (.sndStep (.sndStep (.sndStep (.sndStep (.sndStep (.sndStep (.rcvStep (.rcvStep .init (by rfl)) (by rfl)) (by rfl))
    (by rfl)) (by rfl)) (by rfl)) (by rfl)) (by rfl)) (by rfl)) (by rfl), by rfl, _, by rfl⟩

/-! ### trees over F_{2^128} -/

/-- C95 is false of the extension over F_{2^128}. As the digests are known before the messages of the trees are sent, a sender can spoil
every tree with them: the check accepts its ordinary answer whatever the receiver chose, and yet the MACs of the outputs in the pair around
the noise position of each tree are wrong by the digest and by one. -/
theorem C95_false (c : ExtCfg) (hl : 0 < c.levels) (hk : 0 < c.k) (hk2 : c.k < 2 ^ 31) (delta : GF128)
    (x mac key : Nat → GF128) (h : ∀ i, i < c.M → mac i = key i + x i * delta) (seed : Nat → U128) (memS memR : Nat → Mem)
    (digest : Nat → GF128) :
    ∃ S, extF2kTrees c seed memS key = some S ∧
      ∀ (b : Nat → Nat → Bool) (m : Nat → Nat → U128) (share : Nat → GF128),
        (∀ i t, S[i]? = some t → share i = t.2.2 + (digest i + 1) ∧ ∀ j p, t.2.1[j]? = some p →
          m i j = if b i j then (spoil (digest i) c.levels j p).2 else (spoil (digest i) c.levels j p).1) →
        ∃ xStar v X M K, extF2kVal c digest b m memR share x mac = some (xStar, v, X, M) ∧
          extF2kKey c digest delta key (S.map (fun t => t.1)) xStar = some (v, K) ∧
          X.length = c.n ∧ M.length = c.n ∧ K.length = c.n ∧
          ∀ q, q < c.n → ofListF M q = ofListF K q + ofListF X q * delta +
            (if q % 2 ^ c.levels / 2 = puncturedAt (b (q / 2 ^ c.levels)) c.levels / 2 then
              (if q % 2 = 0 then digest (q / 2 ^ c.levels) else 1) else 0) := by
  obtain ⟨S, h1, h2, h3⟩ := spoiled_values c.G0 c.G1 c.levels hl c.t seed memS key mac digest
  refine ⟨S, h1, ?_⟩
  intro b m share hms
  have h' : ∀ i, i ≤ c.t → mac i = key i + x i * delta := fun i hi => h i (by unfold ExtCfg.M; omega)
  obtain ⟨xStar, v, h4, h5, _⟩ := f2k_check_eq c.G0 c.G1 c.levels c.t seed b delta x key mac h' digest
  have hR := h3 b memR m share hms
  have hC := spoiled_check c.levels hl c.t b x (mac c.t) digest (fun i => leafRG c.G0 c.G1 c.levels (seed i) (b i) (mac i + key i))
  rw [h4] at hC
  have hX := setVecX_eq c.levels b x (c.t * 2 ^ c.levels) c.t (le_refl _)
  have e1 := flatten_ranges (2 ^ c.levels) (fun i k => leafRG c.G0 c.G1 c.levels (seed i) (b i) (mac i + key i) k +
    pairErr (digest i * 1) 1 (getIndex (b i) c.levels) k) c.t
  have e2 := flatten_ranges (2 ^ c.levels) (fun i => leafG c.G0 c.G1 (seed i) c.levels) c.t
  obtain ⟨X, M, K, l1, l2, l3, l4, l5, l6, l7⟩ := C34_correlation_f2k c.prp c.n c.k c.threads hk hk2 delta
    (fun q => if q / 2 ^ c.levels < c.t ∧ q % 2 ^ c.levels = getIndex (b (q / 2 ^ c.levels)) c.levels then x (q / 2 ^ c.levels) else 0)
    (fun q => leafRG c.G0 c.G1 c.levels (seed (q / 2 ^ c.levels)) (b (q / 2 ^ c.levels)) (mac (q / 2 ^ c.levels) + key (q / 2 ^ c.levels))
      (q % 2 ^ c.levels))
    (fun q => leafG c.G0 c.G1 (seed (q / 2 ^ c.levels)) c.levels (q % 2 ^ c.levels))
    (fun j => x (c.t + j)) (fun j => mac (c.t + j)) (fun j => key (c.t + j))
    (fun q hq => by
      have hqi : q / 2 ^ c.levels < c.t := Nat.div_lt_of_lt_mul (by rw [Nat.mul_comm]; exact hq)
      have ha := h' _ hqi.le
      generalize q % 2 ^ c.levels = k
      generalize q / 2 ^ c.levels = i at hqi ha ⊢
      unfold leafRG
      by_cases hk : k = getIndex (b i) c.levels
      · rw [if_pos hk, if_pos ⟨hqi, hk⟩, ha]
        have := addSelf (key i)
        linear_combination this
      · rw [if_neg hk, if_neg (fun h => hk h.2)]
        ring)
    (fun j hj => h _ (by unfold ExtCfg.M; omega))
  obtain ⟨M', r2, hM'⟩ : ∃ M', _ = some M' ∧ M' = _ := ⟨_, runF2k_eq c.prp c.k hk hk2 (fun j => mac (c.t + j)) c.n _
    (fun q => leafRG c.G0 c.G1 c.levels (seed (q / 2 ^ c.levels)) (b (q / 2 ^ c.levels)) (mac (q / 2 ^ c.levels) + key (q / 2 ^ c.levels))
      (q % 2 ^ c.levels) + pairErr (digest (q / 2 ^ c.levels) * 1) 1 (getIndex (b (q / 2 ^ c.levels)) c.levels) (q % 2 ^ c.levels))
    (mem_opsPosF2k c.n c.threads), rfl⟩
  have r1 := runF2k_eq c.prp c.k hk hk2 (fun j => mac (c.t + j)) c.n _
    (fun q => leafRG c.G0 c.G1 c.levels (seed (q / 2 ^ c.levels)) (b (q / 2 ^ c.levels)) (mac (q / 2 ^ c.levels) + key (q / 2 ^ c.levels))
      (q % 2 ^ c.levels)) (mem_opsPosF2k c.n c.threads)
  refine ⟨xStar, v, X, M', K, ?_, ?_, l4, ?_, l6, ?_⟩
  · unfold extF2kVal
    simp only [Option.bind_eq_bind]
    rw [hR, Option.bind_some, hC, Option.bind_some, ExtCfg.n, hX, Option.bind_some, e1]
    rw [ExtCfg.n] at l1 r2
    rw [l1, Option.bind_some]
    unfold lpnF2kCompute
    rw [r2, Option.bind_some]
  · unfold extF2kKey
    simp only [Option.bind_eq_bind]
    rw [h2, h5, Option.bind_some, e2]
    rw [ExtCfg.n] at l3
    rw [ExtCfg.n, l3, Option.bind_some]
  · rw [hM']; simp
  · intro q hq
    have hM : M = _ := Option.some.inj (l2.symm.trans r1)
    have g := (l7 q _ _ _ (ofListF_get X q (by omega)) (ofListF_get M q (by omega)) (ofListF_get K q (by omega))).1
    rw [← g, hM, hM']
    unfold ofListF
    rw [List.getD_eq_getElem?_getD, List.getD_eq_getElem?_getD, List.getElem?_map, List.getElem?_map, List.getElem?_range hq,
      Option.map_some, Option.map_some, Option.getD_some, Option.getD_some, ← getIndex_eq, pairErr, mul_one]
    have hq2 : q % 2 ^ c.levels % 2 = q % 2 := Nat.mod_mod_of_dvd _ (dvd_pow_self 2 (by omega))
    rw [hq2]
    ring

/-- One tree of two levels, a digest, every choice of the receiver: both noise pairs are reached. -/
example (delta s : GF128) (b : Nat → Nat → Bool) : ∃ S xStar v X M K,
    extF2kTrees ⟨2, 1, 1, 0, id, id, fun _ _ => 3⟩ (fun _ => 5) (fun _ _ => 0) (fun _ => 1) = some S ∧
    extF2kVal ⟨2, 1, 1, 0, id, id, fun _ _ => 3⟩ (fun _ => s) b
      (fun i j => match S[i]? with
        | none => 0
        | some t => match t.2.1[j]? with
          | none => 0
          | some p => if b i j then (spoil s 2 j p).2 else (spoil s 2 j p).1)
      (fun _ _ => 0) (fun i => otSumF S i + (s + 1)) (fun _ => gX) (fun _ => 1 + gX * delta) = some (xStar, v, X, M) ∧
    extF2kKey ⟨2, 1, 1, 0, id, id, fun _ _ => 3⟩ (fun _ => s) delta (fun _ => 1) (S.map fun t => t.1) xStar = some (v, K) ∧
    ofListF M (2 * (puncturedAt (b 0) 2 / 2) + 1) =
      ofListF K (2 * (puncturedAt (b 0) 2 / 2) + 1) + ofListF X (2 * (puncturedAt (b 0) 2 / 2) + 1) * delta + 1 := by
  obtain ⟨S, h1, h2⟩ := C95_false ⟨2, 1, 1, 0, id, id, fun _ _ => 3⟩ (by decide) (by decide) (by decide) delta (fun _ => gX)
    (fun _ => 1 + gX * delta) (fun _ => 1) (fun _ _ => rfl) (fun _ => 5) (fun _ _ => 0) (fun _ _ => 0) (fun _ => s)
  obtain ⟨xStar, v, X, M, K, h3, h4, _, _, _, h5⟩ := h2 b
    (fun i j => match S[i]? with
        | none => 0
        | some t => match t.2.1[j]? with
          | none => 0
          | some p => if b i j then (spoil s 2 j p).2 else (spoil s 2 j p).1)
    (fun i => otSumF S i + (s + 1)) (by
      intro i t ht
      refine ⟨by simp only [otSumF, ht], ?_⟩
      intro j p hp
      simp only [ht, hp])
  refine ⟨S, xStar, v, X, M, K, h1, h3, h4, ?_⟩
  have hp : puncturedAt (b 0) 2 < 4 := by rw [← getIndex_eq]; exact getIndex_lt (b 0) 2
  have := h5 (2 * (puncturedAt (b 0) 2 / 2) + 1) (by show _ < 4; omega)
  rw [this]
  refine congrArg _ ?_
  have e1 : (2 * (puncturedAt (b 0) 2 / 2) + 1) / 2 ^ 2 = 0 := by omega
  have e2 : (2 * (puncturedAt (b 0) 2 / 2) + 1) % 2 ^ 2 / 2 = puncturedAt (b 0) 2 / 2 := by omega
  show (if (2 * (puncturedAt (b 0) 2 / 2) + 1) % 2 ^ 2 / 2 = puncturedAt (b ((2 * (puncturedAt (b 0) 2 / 2) + 1) / 2 ^ 2)) 2 / 2 then _ else _) = _
  rw [e1, e2, if_pos rfl, if_neg (by omega)]

/-- C95 over F_{2^128}, if the seed were drawn after the messages of the trees (missing: it is not, `C95_digests`). Let `A` be trees with the
same seed, and take two receivers (choices, noise values, leaves obtained from the sender's messages). If the keys that make their leaves
valid do not have the same sums over `A`, then for all but `2 ^ levels` seeds no answer of the sender is accepted by both: the sender has
to guess which of the two it faces. -/
theorem C95_f2k_partial (levels treeN : Nat) (delta y : GF128) (A : Finset Nat) (hA : A ⊆ range treeN) (g : Nat → GF128)
    (b b' : Nat → Nat → Bool) (x x' : Nat → GF128) (w w' : Nat → Nat → GF128) (k : Nat) (hk : k < 2 ^ levels)
    (hne : ∑ i ∈ A, keyOfLeaf delta (puncturedAt (b i) levels) (x i) (w i) k ≠
      ∑ i ∈ A, keyOfLeaf delta (puncturedAt (b' i) levels) (x' i) (w' i) k)
    [DecidablePred fun s : GF128 => ∃ xs v, AcceptsF levels treeN delta y (fun i => if i ∈ A then s else g i) b x w xs v ∧
      AcceptsF levels treeN delta y (fun i => if i ∈ A then s else g i) b' x' w' xs v] :
    (univ.filter fun s : GF128 => ∃ xs v, AcceptsF levels treeN delta y (fun i => if i ∈ A then s else g i) b x w xs v ∧
      AcceptsF levels treeN delta y (fun i => if i ∈ A then s else g i) b' x' w' xs v).card ≤ 2 ^ levels := by
  simp only [← getIndex_eq] at hne
  refine card_seeds_pair (2 ^ levels) (fun k => ∑ i ∈ A, keyOfLeaf delta (getIndex (b i) levels) (x i) (w i) k)
    (fun k => ∑ i ∈ A, keyOfLeaf delta (getIndex (b' i) levels) (x' i) (w' i) k) k hk hne _ _
    (fun s ⟨xs, v, h1, h2⟩ => acceptsF_pair levels treeN delta y A hA s g b b' x x' w w' xs v h1 h2)

/-- The spoiled tree: receivers with noise in different pairs have different keys. -/
example : ∑ i ∈ ({0} : Finset Nat), keyOfLeaf gX (puncturedAt (fun _ => true) 2) 1 (fun k => pairErr gX 1 0 k + if k = 0 then gX else 0) 1 ≠
    ∑ i ∈ ({0} : Finset Nat), keyOfLeaf gX (puncturedAt (fun j => j = 1) 2) 1 (fun k => pairErr gX 1 2 k + if k = 2 then gX else 0) 1 := by
  have e1 : puncturedAt (fun _ => true) 2 = 0 := by decide
  have e2 : puncturedAt (fun j => j = 1) 2 = 2 := by decide
  rw [e1, e2, sum_singleton, sum_singleton]
  simp [keyOfLeaf, pairErr]

/-! ### trees over F_p -/

/-- C95 over F_p, where the receiver draws the seed after the trees (mpfss_reg.h:187-196). Let `A` be the trees of one task (they share a
seed), and take two receivers (choices, noise values and leaves obtained from the sender's messages). If the keys that make their leaves valid do
not have the same sums over `A`, then for all but `2 ^ levels` of the `2^61 - 1` seeds no answer is accepted by both. In particular a sender
whose trees do not fit one set of keys for every receiver has to guess the receiver's choices. -/
theorem C95_binding (levels treeN : Nat) (h0 : 0 < treeN) (d : Fp) (y : U128) (A : Finset Nat) (hA : A ⊆ range treeN) (g : Nat → W)
    (b b' : Nat → Nat → Bool) (mac mac' : Nat → U128) (hv : ∀ i, i < treeN → Canon (high64 (mac i)))
    (hv' : ∀ i, i < treeN → Canon (high64 (mac' i))) (w w' : Nat → Nat → Fp) (k : Nat) (hk : k < 2 ^ levels)
    (hne : ∑ i ∈ A, keyOfLeafP d (puncturedAt (b i) levels) (fp (high64 (mac i))) (w i) k ≠
      ∑ i ∈ A, keyOfLeafP d (puncturedAt (b' i) levels) (fp (high64 (mac' i))) (w' i) k)
    [DecidablePred fun s : Fp => ∃ xs v, AcceptsP levels treeN d y (fun i => if i ∈ A then toW s else g i) b mac w xs v ∧
      AcceptsP levels treeN d y (fun i => if i ∈ A then toW s else g i) b' mac' w' xs v] :
    (univ.filter fun s : Fp => ∃ xs v, AcceptsP levels treeN d y (fun i => if i ∈ A then toW s else g i) b mac w xs v ∧
      AcceptsP levels treeN d y (fun i => if i ∈ A then toW s else g i) b' mac' w' xs v).card ≤ 2 ^ levels := by
  simp only [← getIndex_eq] at hne
  refine card_seeds_pair (2 ^ levels) (fun k => ∑ i ∈ A, keyOfLeafP d (getIndex (b i) levels) (fp (high64 (mac i))) (w i) k)
    (fun k => ∑ i ∈ A, keyOfLeafP d (getIndex (b' i) levels) (fp (high64 (mac' i))) (w' i) k) k hk hne _ _
    (fun s ⟨xs, v, h1, h2⟩ => acceptsP_pair levels treeN h0 d y A hA s g b b' mac mac' hv hv' w w' xs v h1 h2)

/-- Two receivers of one tree whose leaves differ in one position beside the noise. -/
example : ∑ i ∈ ({0} : Finset Nat), keyOfLeafP 5 (puncturedAt (fun _ => true) 2) (fp (high64 0)) (fun _ => 3) 1 ≠
    ∑ i ∈ ({0} : Finset Nat), keyOfLeafP 5 (puncturedAt (fun j => j = 1) 2) (fp (high64 0)) (fun k => if k = 1 then 4 else 3) 1 := by
  have e1 : puncturedAt (fun _ => true) 2 = 0 := by decide
  have e2 : puncturedAt (fun j => j = 1) 2 = 2 := by decide
  rw [e1, e2, sum_singleton, sum_singleton]
  simp only [keyOfLeafP, if_true]
  rw [if_neg (by decide), if_neg (by decide)]
  decide

end EmpZk
