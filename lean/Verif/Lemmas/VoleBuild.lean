/-
The extensions of `Verif.Model.ArithFull` complete, with valid correlations, whenever the stock is exhausted.
-/
import Verif.Lemmas.ArithFull
import Verif.Props.ExtendNet

namespace EmpZk

/-- The main extensions of both parties as one `VLock`. -/
theorem vlock_build (f : ExtFns) (T : Nat) (H : U128 → U128) (delta : U128) (hd : Canon (low64 delta)) (n M L : Nat) (hn : n = L + M)
    (hML : M ≤ L) (st : Nat → VStage) (hst : ∀ r, (st r).Ok ∧ (st r).cfg.n = n ∧ (st r).cfg.M = M) (ps pr : List U128)
    (h0 : List.Forall₂ (fun k m => Auth (low64 delta) m k) ps pr) (hps : ps.length = M) :
    ∃ cs cr : VCfg U128,
      VLock (T := T + 1) cs cr L ps pr ⟨n, M, genSendN f T delta fun r => (st r).send H⟩ ⟨n, M, genRecvN f T fun r => (st r).recv H⟩ ∧
      ∀ r, List.Forall₂ (fun k m => Auth (low64 delta) m k) (batchOf cs.gen L ps r) (batchOf cr.gen L pr r) := by
  classical
  let gs : Nat → List U128 → List U128 := fun r p =>
    (extSendOut (st r).cfg (st r).seed (st r).memS (ofList p)).getD (List.replicate n 0)
  let good : Nat → List U128 → List U128 → Prop := fun r q Ml => Ml.length = n ∧
    List.Forall₂ (fun k m => Auth (low64 delta) m k) (gs r (seedOf gs L ps r)) Ml ∧
    CoPar (genSendN f T delta (fun r => (st r).send H) r (seedOf gs L ps r)) (genRecvN f T (fun r => (st r).recv H) r q)
      (some (gs r (seedOf gs L ps r))) (some Ml)
  let gr : Nat → List U128 → List U128 := fun r q => if h : ∃ Ml, good r q Ml then h.choose else List.replicate n 0
  have hMpos : 0 < M := by rw [← (hst 0).2.2]; unfold ExtCfg.M; omega
  have oks : (⟨n, M, gs⟩ : VCfg U128).Ok L := by
    refine ⟨hn, hMpos, hML, fun r p _ => ?_⟩
    show (Option.getD (extSendOut (st r).cfg (st r).seed (st r).memS (ofList p)) (List.replicate n 0)).length = n
    cases h : extSendOut (st r).cfg (st r).seed (st r).memS (ofList p) with
    | none => simp
    | some l => rw [Option.getD_some, extSendOut_len _ _ _ _ _ h]; exact (hst r).2.1
  have okr : (⟨n, M, gr⟩ : VCfg U128).Ok L := by
    refine ⟨hn, hMpos, hML, fun r q _ => ?_⟩
    show (if h : ∃ Ml, good r q Ml then h.choose else List.replicate n 0).length = n
    split
    · next h => exact h.choose_spec.1
    · simp
  have round : ∀ r q, List.Forall₂ (fun k m => Auth (low64 delta) m k) (seedOf gs L ps r) q → good r q (gr r q) := by
    intro r q hq
    have hlq := hq.length_eq
    have hls : (seedOf gs L ps r).length = M := seed_len oks ps hps r
    obtain ⟨⟨o1, o2, o3, o4⟩, e1, e2⟩ := hst r
    obtain ⟨K, Ml, h1, h2, h3, h4, h5⟩ := coPar_extension f (st r).cfg T o1 o2 o3 delta hd (ofList (seedOf gs L ps r)) (ofList q) (by
      intro i hi
      rw [e2] at hi
      have := (List.forall₂_iff_get.1 hq).2 i (by omega) (by omega)
      simpa [ofList, List.getD, hls, ← hlq, hi] using this) (st r).seed (st r).memS (st r).memR (st r).b (st r).sd H (st r).dataS
      (st r).dataR (st r).D o4 (st r).bits0
    have hgs : gs r (seedOf gs L ps r) = K := by show Option.getD _ _ = K; rw [h4]; rfl
    have ex : ∃ Ml, good r q Ml := by
      refine ⟨Ml, by rw [h2, e1], by rw [hgs]; exact h3, ?_⟩
      rw [hgs]
      unfold genSendN genRecvN
      have a1 : ¬ (seedOf gs L ps r).length < ((st r).send H).cfg.M := by
        show ¬ _ < (st r).cfg.M
        omega
      have a2 : ¬ q.length < ((st r).recv H).cfg.M := by
        show ¬ _ < (st r).cfg.M
        omega
      rw [if_neg a1, if_neg a2]
      have := CoPar.bind h5 (f := fun out => Par.done (some out)) (g := fun x => Par.done x) (CoPar.done _ _)
      rw [Par.bind_done] at this
      exact this
    show good r q (if h : ∃ Ml, good r q Ml then h.choose else List.replicate n 0)
    rw [dif_pos ex]
    exact ex.choose_spec
  have hseed : ∀ r, List.Forall₂ (fun k m => Auth (low64 delta) m k) (seedOf gs L ps r) (seedOf gr L pr r) := by
    intro r
    induction r with
    | zero => exact h0
    | succ r ih => exact List.forall₂_drop L (round r _ ih).2.1
  refine ⟨⟨n, M, gs⟩, ⟨n, M, gr⟩, ⟨oks, okr, hps, by rw [← h0.length_eq]; exact hps, rfl, rfl, ⟨rfl, rfl⟩, ⟨rfl, rfl⟩, ?_⟩, ?_⟩
  · intro r
    exact (round r _ (hseed r)).2.2
  · intro r
    exact (round r _ (hseed r)).2.1

theorem stream_some {α : Type} {c : VCfg α} {L : Nat} (hc : c.Ok L) (pre0 : List α) (h0 : pre0.length = c.M) (i : Nat) :
    ∃ x, streamAt c.gen L pre0 i = some x := by
  have hL : 0 < L := Nat.lt_of_lt_of_le hc.pos hc.le
  have hl := batch_len hc pre0 h0 (i / L)
  have hi := Nat.mod_lt i hL
  have := hc.size
  exact ⟨_, List.getElem?_eq_getElem (by omega)⟩

theorem keyWord_eq {k : U128} (h : high64 k = 0) : keyWord (low64 k) = k := by
  have e := makeBlock_eta k
  rw [h] at e
  apply BitVec.eq_of_toNat_eq
  have := congrArg BitVec.toNat e
  rw [makeBlock_toNat] at this
  have hl := (low64 k).isLt
  rw [← this, keyWord, BitVec.toNat_setWidth, Nat.mod_eq_of_lt (by omega)]
  simp

/-- The session on the streams of both parties. -/
theorem feeds_build {T L : Nat} {cs cr : VCfg U128} {nS nR : VNet (T + 1)} {ps pr : List U128} (H : VLock cs cr L ps pr nS nR) (j j' : U128)
    (delta : W) (hv : ∀ r, List.Forall₂ (fun k m => Auth delta m k) (batchOf cs.gen L ps r) (batchOf cr.gen L pr r)) (e : AEnv) :
    ∃ key u mac, Feeds (oneCorN nS j) (oneCorN nR j') (VSync cs cr L ps pr) { e with key := key, u := u, mac := mac } ∧
      ∀ i, Canon (key i) ∧ Canon (u i) ∧ Canon (mac i) ∧ fp (mac i) = fp (key i) + fp delta * fp (u i) := by
  choose ks hks using stream_some H.okS ps H.lenS
  choose ms hms using stream_some H.okR pr H.lenR
  have ha : ∀ i, Auth delta (ms i) (ks i) := by
    intro i
    have h := List.forall₂_iff_get.1 (hv (i / L))
    obtain ⟨a, a'⟩ := List.getElem?_eq_some_iff.1 (hks i)
    obtain ⟨b, b'⟩ := List.getElem?_eq_some_iff.1 (hms i)
    have := h.2 (i % L) a b
    rw [← a', ← b']
    exact this
  refine ⟨fun i => low64 (ks i), fun i => high64 (ms i), fun i => low64 (ms i), ?_, ?_⟩
  · intro i s s' hs
    obtain ⟨k, m, t, t', h1, h2, h3, h4⟩ := coPar_one H j j' hs
    rw [hks i, Option.some.injEq] at h1
    rw [hms i, Option.some.injEq] at h2
    subst h1; subst h2
    refine ⟨t, t', h3, ?_⟩
    simp only [AEnv.keyU, AEnv.cor, makeBlock_eta, keyWord_eq (ha i).top]
    exact h4
  · intro i
    exact ⟨(ha i).key, (ha i).value, (ha i).mac, by rw [(ha i).rel, mul_comm]⟩

/-! ### the parts of the environment that are not used -/

theorem aprvProg_congr (ne : ANetEnv) (key u mac : Nat → W) (ops : List AOp) :
    aprvProg { ne with base := { ne.base with key := key, u := u, mac := mac } } ops = aprvProg ne ops := by
  have hr : ∀ ops s, aprvRunV { ne with base := { ne.base with key := key, u := u, mac := mac } } s ops = aprvRunV ne s ops := by
    intro ops
    induction ops with
    | nil => intro s; rfl
    | cons o os ih =>
      intro s
      have hs : aprvStepV { ne with base := { ne.base with key := key, u := u, mac := mac } } s o = aprvStepV ne s o := by
        cases o <;> rfl
      simp only [aprvRunV, hs, ih]
  unfold aprvProg
  rw [hr]
  rfl

theorem averProg_congr (ne : ANetEnv) (key u mac : Nat → W) (ops : List AOp) :
    averProg { ne with base := { ne.base with key := key, u := u, mac := mac } } ops = averProg ne ops := by
  have hr : ∀ ops s, averRunV { ne with base := { ne.base with key := key, u := u, mac := mac } } s ops = averRunV ne s ops := by
    intro ops
    induction ops with
    | nil => intro s; rfl
    | cons o os ih =>
      intro s
      have hs : averStepV { ne with base := { ne.base with key := key, u := u, mac := mac } } s o = averStepV ne s o := by
        cases o <;> rfl
      simp only [averRunV, hs, ih]
  unfold averProg
  rw [hr]
  rfl

end EmpZk
