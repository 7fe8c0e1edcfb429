/-
C101: VOLE over F_{2^128} over the network with any number of threads.
-/
import Verif.Lemmas.ExtendNetF
import Verif.Props.ExtendNet
import Verif.Spec.F2kCommit

namespace EmpZk

/-! ### specification -/

/-- What both parties bring to one extension of a chain. The precomputed OTs: `dataS k` and `dataS k ^ D` are the verifier's blocks, `dataR k`
is one of them, its lowest bit says which. -/
structure VStageF where
  cfg : ExtCfg
  off : Nat
  seed : Nat → U128
  memS : Nat → Mem
  memR : Nat → Mem
  b : Nat → Nat → Bool
  digest : Nat → GF128
  dataS : Nat → U128
  dataR : Nat → U128
  D : U128
  bits0 : Nat → Bool

/-- The verifier's part (the precomputed OTs: `sendPre`, preot.h:38-44). -/
def VStageF.send (H : U128 → U128) (s : VStageF) : StageSendF :=
  ⟨s.cfg, s.off, s.seed, s.memS, sendPre H s.cfg.levels s.cfg.t s.dataS s.D s.bits0, s.digest⟩

/-- The prover's part. -/
def VStageF.recv (H : U128 → U128) (s : VStageF) : StageRecvF :=
  ⟨s.cfg, s.off, s.b, s.memR, recvPre H s.cfg.levels s.cfg.t s.dataR, s.digest⟩

/-- The sizes are in range and the OTs are correlated. -/
def VStageF.Ok (s : VStageF) : Prop :=
  0 < s.cfg.levels ∧ 0 < s.cfg.k ∧ s.cfg.k < 2 ^ 31 ∧
  ∀ k, k < s.cfg.levels * s.cfg.t → s.dataR k = s.dataS k ^^^ (if (s.dataR k).getLsbD 0 then s.D else 0)

/-- Every extension finds the `M` correlations it uses: `m` are there at the beginning, `n - off` after an extension. -/
def FitsF : Nat → List VStageF → Prop
  | _, [] => True
  | m, s :: l => s.cfg.M ≤ m ∧ FitsF (s.cfg.n - s.off) l

/-- `n` valid correlations: the key is the one of the pair (value, MAC) under `delta`. -/
def ValidBatchF (delta : GF128) (n : Nat) (K : List GF128) (A : List (GF128 × GF128)) : Prop :=
  A.length = n ∧ K = A.map (keyF delta)

/-- One batch of valid correlations for every extension. -/
def ValidBatchesF (delta : GF128) : List VStageF → List (List GF128) → List (List (GF128 × GF128)) → Prop
  | [], [], [] => True
  | s :: l, K :: Ks, A :: As => ValidBatchF delta s.cfg.n K A ∧ ValidBatchesF delta l Ks As
  | _, _, _ => False

/-! ### theorems -/

theorem validBatchF_of {delta : GF128} {n : Nat} {K X M : List GF128} (hK : K.length = n) (hX : X.length = n) (hM : M.length = n)
    (h : ∀ i, i < n → ofListF M i = ofListF K i + ofListF X i * delta) : ValidBatchF delta n K (X.zip M) := by
  refine ⟨by rw [List.length_zip, hX, hM, Nat.min_self], List.ext_getElem (by rw [List.length_map, List.length_zip, hX, hM, hK, Nat.min_self]) ?_⟩
  intro i h1 h2
  have hi : i < n := by omega
  have a := ofListF_get K i (by omega)
  have b := ofListF_get X i (by omega)
  have d := ofListF_get M i (by omega)
  rw [List.getElem?_eq_getElem (by omega), Option.some.injEq] at a b d
  rw [List.getElem_map, List.getElem_zip, keyF, a, b, d, h i hi]
  have := addSelf (ofListF X i * delta)
  linear_combination -this

/-- C101. One extension over the network: for all valid correlations (`M` of them) and valid precomputed OTs, for every number of threads
and every schedule of all threads of both parties, the parties never wait for each other for ever, no undefined operation is performed,
every schedule has the same number of steps, and both end with the same result: `n` correlations each, which are valid; the
prover's check passes; nothing is left on any channel. -/
theorem C101_extension (hash : GF128 → U128) (c : ExtCfg) (T : Nat) (hl : 0 < c.levels) (hk : 0 < c.k) (hk2 : c.k < 2 ^ 31) (delta : GF128)
    (x mac key : Nat → GF128) (h : ∀ i, i < c.M → mac i = key i + x i * delta) (seed : Nat → U128)
    (memS memR : Nat → Mem) (b : Nat → Nat → Bool) (digest : Nat → GF128) (H : U128 → U128) (dataS dataR : Nat → U128) (D : U128)
    (hcot : ∀ k, k < c.levels * c.t → dataR k = dataS k ^^^ (if (dataR k).getLsbD 0 then D else 0)) (bits0 : Nat → Bool) :
    ∃ K X M : List GF128, X.length = c.n ∧ M.length = c.n ∧ ValidBatchF delta c.n K (X.zip M) ∧ extF2kKeyOut c seed memS key = some K ∧
      EverySchedule (extSendF hash c T ⟨delta, seed, memS, key, sendPre H c.levels c.t dataS D bits0, digest⟩)
        (extRecvF hash c T ⟨b, memR, x, mac, recvPre H c.levels c.t dataR, digest⟩) K (some (X, M)) := by
  obtain ⟨K, X, M, h1, h2, h3, h4, h5, h6⟩ :=
    coPar_extensionF hash c T hl hk hk2 delta x mac key h seed memS memR b digest H dataS dataR D hcot bits0
  exact ⟨K, X, M, h2, h3, validBatchF_of h1 h2 h3 h4, h5, coPar_all h6⟩

theorem coPar_chainF (hash : GF128 → U128) (T : Nat) (H : U128 → U128) (delta : GF128) : ∀ (l : List VStageF) (p : List GF128)
    (q : List (GF128 × GF128)), (∀ s ∈ l, s.Ok) → FitsF p.length l → ValidBatchF delta p.length p q →
    ∃ Ks As, ValidBatchesF delta l Ks As ∧
      CoPar (chainSendF hash T delta (l.map (VStageF.send H)) p) (chainRecvF hash T (l.map (VStageF.recv H)) q) Ks (some As)
  | [], p, q, _, _, _ => ⟨[], [], trivial, CoPar.done _ _⟩
  | s :: l, p, q, hok, hf, h => by
    obtain ⟨hM, hf⟩ := hf
    obtain ⟨o1, o2, o3, o4⟩ := hok s List.mem_cons_self
    obtain ⟨hq, hp⟩ := h
    have hm : ∀ i, i < s.cfg.M → ofListF (q.map Prod.snd) i = ofListF p i + ofListF (q.map Prod.fst) i * delta := by
      intro i hi
      have a := ofListF_get p i (by omega)
      have b := ofListF_get (q.map Prod.fst) i (by rw [List.length_map]; omega)
      have d := ofListF_get (q.map Prod.snd) i (by rw [List.length_map]; omega)
      rw [hp, List.getElem?_map, List.getElem?_eq_getElem (by omega), Option.map_some, Option.some.injEq] at a
      rw [List.getElem?_map, List.getElem?_eq_getElem (by omega), Option.map_some, Option.some.injEq] at b d
      rw [hp, ← a, ← b, ← d, keyF]
      have := addSelf (q[i].1 * delta)
      linear_combination -this
    obtain ⟨K, X, M, h1, h2, h3, h4, _, h6⟩ := coPar_extensionF hash s.cfg T o1 o2 o3 delta _ _ _ hm s.seed s.memS s.memR
      s.b s.digest H s.dataS s.dataR s.D o4 s.bits0
    have hv := validBatchF_of h1 h2 h3 h4
    obtain ⟨Ks, As, g1, g2⟩ := coPar_chainF hash T H delta l (K.drop s.off) ((X.zip M).drop s.off) (fun x hx => hok x (List.mem_cons_of_mem _ hx))
      (by rw [List.length_drop, h1]; exact hf)
      ⟨by rw [List.length_drop, List.length_drop, hv.1, h1], by rw [List.map_drop, ← hv.2]⟩
    refine ⟨K :: Ks, X.zip M :: As, ⟨hv, g1⟩, ?_⟩
    simp only [List.map_cons, chainSendF, chainRecvF, VStageF.send, VStageF.recv]
    rw [if_neg (by omega), if_neg (by omega)]
    refine CoPar.bind h6 ?_
    refine CoPar.bind g2 ?_
    exact CoPar.done _ _

/-- C101. Any chain of extensions, each fed by the one before: for all randomness of all of them, every number of threads and every
schedule, both parties complete all of them and all batches are valid. -/
theorem C101_chain (hash : GF128 → U128) (T : Nat) (H : U128 → U128) (delta : GF128) (l : List VStageF) (p : List GF128)
    (q : List (GF128 × GF128)) (hok : ∀ s ∈ l, s.Ok) (hf : FitsF p.length l) (h : ValidBatchF delta p.length p q) :
    ∃ Ks As, ValidBatchesF delta l Ks As ∧
      EverySchedule (chainSendF hash T delta (l.map (VStageF.send H)) p) (chainRecvF hash T (l.map (VStageF.recv H)) q) Ks (some As) := by
  obtain ⟨Ks, As, h1, h2⟩ := coPar_chainF hash T H delta l p q hok hf h
  exact ⟨Ks, As, h1, coPar_all h2⟩

/-- C101. From the correlated OTs on: base correlations, then any chain of extensions. For every secret, all correlated OTs (`ka i j` the
prover's blocks, their lowest bits its choices), all randomness, every number of threads and every schedule, both parties complete it, no
check fails, and all batches are valid correlations under the secret. -/
theorem C101_protocol (hash : GF128 → U128) (T : Nat) (H : U128 → U128) (delta : GF128) (size : Nat) (ka kb : Nat → Nat → GF128)
    (h : ∀ i, i < size → ∀ j, j < 128 → ka i j = kb i j + bit (lsb (ka i j)) * delta) (l : List VStageF) (hok : ∀ s ∈ l, s.Ok)
    (hf : FitsF size l) :
    ∃ Ks As, ValidBatchesF delta l Ks As ∧
      EverySchedule (svoleSendF hash T delta size kb (l.map (VStageF.send H))) (svoleRecvF hash T size ka (l.map (VStageF.recv H)))
        Ks (some As) := by
  refine C101_chain hash T H delta l _ _ hok (by rw [List.length_map, List.length_range]; exact hf) ⟨by simp, ?_⟩
  rw [List.map_map]
  refine List.map_congr_left fun i hi => ?_
  have e := (C67_base delta (ka i) (kb i) (h i (List.mem_range.1 hi))).1
  rw [Function.comp_apply, keyF, e]
  have := addSelf ((f2kBaseVal (ka i)).1 * delta)
  linear_combination -this

/-- C101. All parameters the constructor of `PrimalLPNParameterF2128` accepts (svole.h:14-25: `n = t * 2^log_bin_sz`, the same for the first
extension, `n_pre ≥ k + t + 1`) and for which `buf_sz` is not negative fit: `M_pre` base correlations, the extension of the setup, then any
number of main extensions. -/
theorem C101_sizes (n t k lb nPre tPre kPre lbPre : Nat) (hc : n = t * 2 ^ lb ∧ nPre = tPre * 2 ^ lbPre ∧ k + t + 1 ≤ nPre)
    (hb : t + k + 1 ≤ n) (s0 : VStageF) (ms : List VStageF)
    (h0 : s0.cfg.levels = lbPre ∧ s0.cfg.t = tPre ∧ s0.cfg.k = kPre ∧ s0.off = 0)
    (hm : ∀ s ∈ ms, s.cfg.levels = lb ∧ s.cfg.t = t ∧ s.cfg.k = k ∧ s.off = n - t - k - 1) :
    FitsF (kPre + tPre + 1) (s0 :: ms) := by
  have main : ∀ (ms : List VStageF), (∀ s ∈ ms, s.cfg.levels = lb ∧ s.cfg.t = t ∧ s.cfg.k = k ∧ s.off = n - t - k - 1) →
      ∀ m, t + 1 + k ≤ m → FitsF m ms := by
    intro ms
    induction ms with
    | nil => intro _ _ _; trivial
    | cons s l ih =>
      intro hm m hn
      obtain ⟨a, b, c, d⟩ := hm s List.mem_cons_self
      refine ⟨by simp only [ExtCfg.M, b, c]; omega, ih (fun x hx => hm x (List.mem_cons_of_mem _ hx)) _ ?_⟩
      have e : s.cfg.n = n := by rw [hc.1]; simp only [ExtCfg.n, a, b]
      rw [d, e]
      omega
  obtain ⟨a, b, c, d⟩ := h0
  refine ⟨by simp only [ExtCfg.M, b, c]; omega, main ms hm _ ?_⟩
  have e : s0.cfg.n = nPre := by rw [hc.2.1]; simp only [ExtCfg.n, a, b]
  rw [d, e]
  omega

/-- C101. What the product buffers of the memory check take from an extension (ram-zk/ostriple.h:41-42, 315-318): batch `r` has room for
`buf_sz` products, and its keys are those of the pairs; these are the assumptions of C96, C97, C99 and C100 about the correlations. -/
theorem C101_refill {delta : GF128} : ∀ {l : List VStageF} {Ks : List (List GF128)} {As : List (List (GF128 × GF128))},
    ValidBatchesF delta l Ks As → ∀ (r : Nat) (s : VStageF), l[r]? = some s →
      ∃ K A, Ks[r]? = some K ∧ As[r]? = some A ∧ K = A.map (keyF delta) ∧ s.cfg.n - s.cfg.t - s.cfg.k - 1 ≤ A.length
  | [], [], [], _, r, s, h => by simp at h
  | _ :: _, K :: _, A :: _, hv, 0, s, h => by
      rw [List.getElem?_cons_zero, Option.some.injEq] at h
      subst h
      exact ⟨K, A, rfl, rfl, hv.1.2, by rw [hv.1.1]; omega⟩
  | _ :: _, _ :: _, _ :: _, hv, r + 1, s, h => by
      rw [List.getElem?_cons_succ] at h
      simp only [List.getElem?_cons_succ]
      exact C101_refill hv.2 r s h
  | _ :: _, [], _, hv, _, _, _ => hv.elim
  | _ :: _, _ :: _, [], hv, _, _, _ => hv.elim
  | [], _ :: _, _, hv, _, _, _ => hv.elim
  | [], [], _ :: _, hv, _, _, _ => hv.elim

/-! ### concrete cases -/

/-- The three parameter sets of the library (svole.h:29-34). -/
example : (10485760 = 1280 * 2 ^ 13 ∧ 470016 = 918 * 2 ^ 9 ∧ 425000 + 1280 + 1 ≤ 470016) ∧ 1280 + 425000 + 1 ≤ 10485760 ∧
    (10268672 = 2507 * 2 ^ 12 ∧ 268800 = 1050 * 2 ^ 8 ∧ 225000 + 2507 + 1 ≤ 268800) ∧ 2507 + 225000 + 1 ≤ 10268672 ∧
    (10180608 = 4971 * 2 ^ 11 ∧ 178944 = 699 * 2 ^ 8 ∧ 118000 + 4971 + 1 ≤ 178944) ∧ 4971 + 118000 + 1 ≤ 10180608 := by decide

/-- Eight trees of four leaves, secret of five positions, feeding itself. -/
noncomputable def stageExF (r : Nat) : VStageF :=
  { cfg := ⟨2, 8, 5, 2, fun x => x + 3, fun x => x * 5 + 1, fun i j => BitVec.ofNat 32 (i * 7 + j)⟩
    off := 18
    seed := fun i => BitVec.ofNat 128 (100 * r + i)
    memS := fun _ _ => 0
    memR := fun _ _ => 1
    b := fun i j => (i + j) % 2 == 0
    digest := fun i => gX ^ (r + i)
    dataS := fun k => BitVec.ofNat 128 (16 * k)
    dataR := fun k => BitVec.ofNat 128 (16 * k + (k % 2) * 7)
    D := 7
    bits0 := fun _ => false }

theorem stageExF_ok (r : Nat) : (stageExF r).Ok :=
  ⟨(by decide : 0 < 2), (by decide : 0 < 5), (by decide : 5 < 2 ^ 31), (stageEx_ok r).2.2.2⟩

/-- The hypotheses of `C101_protocol` are met: the secret 1, fourteen base correlations with alternating bits, three extensions with three
threads. -/
example : ∃ Ks As, ValidBatchesF 1 [stageExF 0, stageExF 1, stageExF 2] Ks As ∧
      EverySchedule (svoleSendF (fun v => v.bits + 1) 2 1 14 (fun _ _ => 0) ([stageExF 0, stageExF 1, stageExF 2].map (VStageF.send fun x => x * 3)))
        (svoleRecvF (fun v => v.bits + 1) 2 14 (fun i j => if (i + j) % 2 = 0 then 1 else 0)
          ([stageExF 0, stageExF 1, stageExF 2].map (VStageF.recv fun x => x * 3))) Ks (some As) :=
  C101_protocol _ 2 (fun x => x * 3) 1 14 (fun i j => if (i + j) % 2 = 0 then 1 else 0) (fun _ _ => 0)
    (by intro i _ j _
        by_cases hij : (i + j) % 2 = 0
        · simp only [if_pos hij, lsb_one]; simp [bit]
        · simp only [if_neg hij, lsb_zero]; simp [bit])
    [stageExF 0, stageExF 1, stageExF 2]
    (by intro s hs
        simp only [List.mem_cons, List.not_mem_nil, or_false] at hs
        rcases hs with rfl | rfl | rfl <;> exact stageExF_ok _)
    ⟨by show 14 ≤ 14; omega, by show 14 ≤ 32 - 18; omega, by show 14 ≤ 32 - 18; omega, trivial⟩

end EmpZk
