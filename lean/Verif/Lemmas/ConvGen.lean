/-
Generation of edaBits in lock step.
-/
import Verif.Lemmas.ConvEda

namespace EmpZk

section
variable {F : Type} [Field F] [BlockField F] [DecidableEq F] {ce : ConvEnv F} {S : Nat}

/-- The candidates `0..n-1` from index `pt` on: field halves `M` with keys `K`, labels `L` of the same values. -/
def CandOk (ce : ConvEnv F) (n pt : Nat) (fp fpV : List U128) (cand candV : List (List F)) (M K : Nat → U128) (L : Nat → List F) : Prop :=
  ∀ i, i < n → fp[pt + i]? = some (M i) ∧ fpV[pt + i]? = some (K i) ∧ Auth ce.base.delta (M i) (K i) ∧ cand[i]? = some (L i) ∧
    candV[i]? = some ((L i).map (keyOf ce.ne.e.delta)) ∧ (L i).map lsb = bitsW (high64 (M i))

/-- The parts that do not change during a generation. -/
def SameRest (P P' : CPrv F) (V V' : CVer F) : Prop :=
  P' = { P with b := P'.b, hashed := P'.hashed } ∧ V' = { V with b := V'.b, hashed := P'.hashed }

/-- One pass in lock step. -/
theorem lock_pass (hs : ce.ne.Sane) (hg : ce.Good) {P : CPrv F} {V : CVer F} {pl : Plain} {n rp j : Nat} {M K : Nat → U128}
    {L : Nat → List F} (hrp : rp + ce.cfg.C ≤ ce.cfg.ellF) (hj : j < ce.cfg.bm1)
    (hne : ∀ i, i < ce.cfg.N → (high64 (M i)).toNat + (high64 (M (partnerF2 ce.cfg rp j i))).toNat ≠ pN)
    (h : BRel ce.ne P.b V.b pl) (hn : P.b.gates.length = lastBatch n ce.ne.e.checkSz) (hh : V.hashed = P.hashed) (he : V.eda = P.eda)
    (hc : CandOk ce ce.cfg.ell P.eda.npPt P.fp V.fp P.cand V.cand M K L) :
    Lock S (passS ce rp P j) (passR ce rp V j) (fun P' V' => SameRest P P' V V' ∧ BRel ce.ne P'.b V'.b pl ∧
      P'.b.gates.length = lastBatch (n + ce.cfg.N * ce.sum.ands) ce.ne.e.checkSz) := by
  obtain ⟨vb, va, ve, vc, vf, vh, vo⟩ := V
  simp only at he
  subst he
  have hell := ell_eq ce.cfg
  have hrp' : rp < ce.cfg.ellF := by have := hg.C; omega
  have hpl : ∀ i, partnerF2 ce.cfg rp j i < ce.cfg.ell := fun i => partner_lt hg.N hrp' hj
  have e1 : (List.range ce.cfg.N).mapM (fun i => do
      let a ← P.fp[P.eda.npPt + i]?
      let b ← P.fp[partnerFp ce.cfg P.eda.npPt rp j i]?
      some (intfpAddA a b)) = some ((List.range ce.cfg.N).map (fun i => intfpAddA (M i) (M (partnerF2 ce.cfg rp j i)))) := by
    refine mapM_some _ _ _ ?_
    intro i hi
    rw [List.mem_range] at hi
    rw [partnerFp_eq, (hc i (by omega)).1, (hc _ (hpl i)).1]
    rfl
  have e2 : (List.range ce.cfg.N).mapM (fun i => do
      let a ← vf[P.eda.npPt + i]?
      let b ← vf[partnerFp ce.cfg P.eda.npPt rp j i]?
      some (intfpAddB a b)) = some ((List.range ce.cfg.N).map (fun i => intfpAddB (K i) (K (partnerF2 ce.cfg rp j i)))) := by
    refine mapM_some _ _ _ ?_
    intro i hi
    rw [List.mem_range] at hi
    rw [partnerFp_eq, (hc i (by omega)).2.1, (hc _ (hpl i)).2.1]
    rfl
  unfold passS passR
  rw [e1, e2]
  simp only [SProg.ofOpt, RProg.ofOpt, SProg.bind, RProg.bind]
  refine Lock.bind (lock_sums (N := ce.cfg.ell) (X := fun i => (high64 (M i)).setWidth 62) hs hg.sum
    (fun i hi => ⟨L i, (hc i hi).2.2.2.1, (hc i hi).2.2.2.2.1, by rw [(hc i hi).2.2.2.2.2, bitsW_eq]⟩) _ h hn ?_) ?_
  · intro q hq
    simp only [List.mem_map, List.mem_range] at hq
    obtain ⟨i, hi, rfl⟩ := hq
    exact ⟨by simp only; omega, hpl i⟩
  · rintro r r' ⟨k1, k2, k3, k4⟩
    rw [List.length_map, List.length_range] at k2
    refine Lock.flushC ?_
    rw [k3]
    have ha : List.Forall₂ (Auth ce.base.delta) ((List.range ce.cfg.N).map (fun i => intfpAddA (M i) (M (partnerF2 ce.cfg rp j i))))
        ((List.range ce.cfg.N).map (fun i => intfpAddB (K i) (K (partnerF2 ce.cfg rp j i)))) := by
      rw [List.forall₂_map_left_iff, List.forall₂_map_right_iff, List.forall₂_same]
      intro i hi
      rw [List.mem_range] at hi
      exact auth_intfpAdd (hc i (by omega)).2.2.1 (hc _ (hpl i)).2.2.1
    have hb : List.Forall₂ (fun m l => l.map lsb = bitsW (high64 m))
        ((List.range ce.cfg.N).map (fun i => intfpAddA (M i) (M (partnerF2 ce.cfg rp j i)))) r.2 := by
      rw [List.forall₂_map_left_iff] at k4 ⊢
      have : ∀ {l : List Nat} {q : List (List F)}, (∀ i ∈ l, i < ce.cfg.N) → List.Forall₂ (fun i (l : List F) => l.map lsb =
          bits62 (f2Sum ((high64 (M i)).setWidth 62) ((high64 (M (partnerF2 ce.cfg rp j i))).setWidth 62))) l q →
          List.Forall₂ (fun i (l : List F) => l.map lsb = bitsW (high64 (intfpAddA (M i) (M (partnerF2 ce.cfg rp j i))))) l q := by
        intro l q hl hq
        induction hq with
        | nil => exact .nil
        | cons h _ ih =>
          refine .cons ?_ (ih (fun i hi => hl i (List.mem_cons_of_mem _ hi)))
          have hi := hl _ List.mem_cons_self
          rw [h, sum_bits (hc _ (by omega)).2.2.1 (hc _ (hpl _)).2.2.1 (hne _ hi)]
      exact this (fun i hi => List.mem_range.1 hi) k4
    refine (lock_open (P := { P with b := r.1 }) (V := ⟨r'.1, va, P.eda, vc, vf, vh, vo⟩) hg.env.delta hh ha hb).mono ?_
    rintro P' V' ⟨m1, m2⟩
    refine ⟨⟨?_, ?_⟩, ?_, ?_⟩
    · rw [m1]
    · rw [m2]
    · rw [m1, m2]; exact k1
    · rw [m1]; exact k2

/-- All passes in lock step. -/
theorem lock_passes (hs : ce.ne.Sane) (hg : ce.Good) {rp : Nat} {M K : Nat → U128} {L : Nat → List F} (hrp : rp + ce.cfg.C ≤ ce.cfg.ellF)
    (hne : ∀ j i, j < ce.cfg.bm1 → i < ce.cfg.N → (high64 (M i)).toNat + (high64 (M (partnerF2 ce.cfg rp j i))).toNat ≠ pN)
    (js : List Nat) : ∀ {P : CPrv F} {V : CVer F} {pl : Plain} {n : Nat}, (∀ j ∈ js, j < ce.cfg.bm1) → BRel ce.ne P.b V.b pl →
    P.b.gates.length = lastBatch n ce.ne.e.checkSz → V.hashed = P.hashed → V.eda = P.eda →
    CandOk ce ce.cfg.ell P.eda.npPt P.fp V.fp P.cand V.cand M K L →
    Lock S (passesS ce rp P js) (passesR ce rp V js) (fun P' V' => SameRest P P' V V' ∧ BRel ce.ne P'.b V'.b pl ∧
      P'.b.gates.length = lastBatch (n + js.length * (ce.cfg.N * ce.sum.ands)) ce.ne.e.checkSz) := by
  induction js with
  | nil =>
    intro P V pl n _ h hn hh _ _
    refine Lock.pure ⟨⟨rfl, ?_⟩, h, by simpa using hn⟩
    rw [← hh]
  | cons j js ih =>
    intro P V pl n hj h hn hh he hc
    simp only [passesS, passesR]
    refine Lock.bind (lock_pass hs hg hrp (hj j List.mem_cons_self) (fun i hi => hne j i (hj j List.mem_cons_self) hi) h hn hh he hc) ?_
    rintro P1 V1 ⟨⟨a1, a2⟩, a3, a4⟩
    have hP : P1.eda = P.eda ∧ P1.fp = P.fp ∧ P1.cand = P.cand := by rw [a1]; exact ⟨rfl, rfl, rfl⟩
    have hV : V1.eda = V.eda ∧ V1.fp = V.fp ∧ V1.cand = V.cand ∧ V1.hashed = P1.hashed := by rw [a2]; exact ⟨rfl, rfl, rfl, rfl⟩
    refine (ih (fun j hj' => hj j (List.mem_cons_of_mem _ hj')) a3 a4 hV.2.2.2 (by rw [hV.1, hP.1, he])
      (by rw [hP.1, hP.2.1, hP.2.2, hV.2.1, hV.2.2.1]; exact hc)).mono ?_
    rintro P2 V2 ⟨⟨b1, b2⟩, b3, b4⟩
    refine ⟨⟨?_, ?_⟩, b3, ?_⟩
    · rw [b1, a1]
    · rw [b2, a2]
    · rw [b4, List.length_cons]
      congr 1
      ring

/-- The choice of the opened candidates in lock step. -/
theorem lock_choose (hs : ce.ne.Sane) (hg : ce.Good) {P : CPrv F} {V : CVer F} {pl : Plain} {M K : Nat → U128}
    (hrp : ce.rp (P.eda.gens - 1) + ce.cfg.C ≤ ce.cfg.ellF)
    (h : BRel ce.ne P.b V.b pl) (hh : V.hashed = P.hashed) (he : V.eda = P.eda)
    (hf : ∀ i, i < ce.cfg.ell → P.fp[P.eda.npPt + i]? = some (M i) ∧ V.fp[P.eda.npPt + i]? = some (K i) ∧ Auth ce.base.delta (M i) (K i)) :
    Lock S (chooseS ce P) (chooseR ce V) (fun r r' => r.2 = ce.rp (P.eda.gens - 1) ∧ r'.2 = ce.rp (P.eda.gens - 1) ∧
      (∃ c c', SameRest { P with cand := c } r.1 { V with cand := c' } r'.1) ∧ BRel ce.ne r.1.b r'.1.b pl ∧
      r.1.b.gates.length = P.b.gates.length ∧ ∃ L, CandOk ce ce.cfg.ell P.eda.npPt r.1.fp r'.1.fp r.1.cand r'.1.cand M K L) := by
  obtain ⟨vb, va, ve, vc, vf, vh, vo⟩ := V
  simp only at he
  subst he
  have hell := ell_eq ce.cfg
  unfold chooseS chooseR
  have e1 : pick P.fp ((List.range ce.cfg.ell).map (P.eda.npPt + ·)) = some ((List.range ce.cfg.ell).map M) := by
    unfold pick
    have := mapM_some ((List.range ce.cfg.ell).map (P.eda.npPt + ·)) (fun i => P.fp[i]?) (fun k => M (k - P.eda.npPt)) (by
      intro x hx
      simp only [List.mem_map, List.mem_range] at hx
      obtain ⟨i, hi, rfl⟩ := hx
      rw [Nat.add_sub_cancel_left, (hf i hi).1])
    rw [this, List.map_map]
    simp [Function.comp_def]
  rw [e1]
  simp only [SProg.ofOpt, SProg.bind]
  have e2 : ((List.range ce.cfg.ell).map M).flatMap (fun m => (bitsW (high64 m)).map BOp.input) =
      (((List.range ce.cfg.ell).map M).flatMap (fun m => bitsW (high64 m))).map BOp.input := by
    rw [List.map_flatMap]
  rw [e2]
  have hlen : (((List.range ce.cfg.ell).map M).flatMap (fun m => bitsW (high64 m))).length = 62 * ce.cfg.ell := by
    rw [List.length_flatMap, List.map_map]
    simp [Function.comp_def, bitsW, Nat.mul_comm]
  refine Lock.bind (lock_inputs hs _ h (by rw [List.length_replicate, hlen])) ?_
  rintro p1 v1 ⟨k1, k2, x, k3⟩
  refine Lock.flushC ?_
  refine Lock.backC (leBytes_length 4 _) (by decide) ?_
  have hsm := hg.small
  have hdec : leVal (leBytes 4 (ce.rp (P.eda.gens - 1))) = ce.rp (P.eda.gens - 1) := by
    refine leVal_leBytes 4 _ (lt_of_le_of_lt (b := ce.cfg.ell) ?_ (by norm_num at hsm ⊢; exact hsm))
    omega
  rw [hdec]
  generalize hrpe : ce.rp (P.eda.gens - 1) = rp at *
  have hx : x.map lsb = ((List.range ce.cfg.ell).map M).flatMap (fun m => bitsW (high64 m)) := by
    have := k1.plainWires
    rw [k3, List.map_append, h.plainWires] at this
    exact (List.append_cancel_left this).symm
  have hv : v1.wires = vb.wires ++ x.map (keyOf ce.ne.e.delta) := by
    rw [k1.wires, k3, List.map_append, h.wires]
  rw [k3, hv, List.drop_left, List.drop_left]
  let L : Nat → List F := fun i => (x.drop (62 * i)).take 62
  have hc1 : chunk62 ce.cfg.ell x = (List.range ce.cfg.ell).map L := rfl
  have hc2 : chunk62 ce.cfg.ell (x.map (keyOf ce.ne.e.delta)) = (List.range ce.cfg.ell).map (fun i => (L i).map (keyOf ce.ne.e.delta)) := by
    unfold chunk62
    refine List.map_congr_left ?_
    intro i _
    simp only [L, List.map_take, List.map_drop]
  have hL : ∀ i, i < ce.cfg.ell → (L i).map lsb = bitsW (high64 (M i)) := by
    intro i hi
    simp only [L, List.map_take, List.map_drop, hx]
    rw [chunk_flatMap _ (fun m => by simp [bitsW]) _ i (by simpa using hi)]
    simp
  rw [hc1, hc2]
  have hop : ∀ i ∈ openedIdx ce.cfg rp, i < ce.cfg.ell := by
    have := (openedIdx_ok ce.cfg hg.C rp).2 hrp
    simpa [List.all_eq_true] using this
  have p1' : pick ((List.range ce.cfg.ell).map L) (openedIdx ce.cfg rp) = some ((openedIdx ce.cfg rp).map L) :=
    mapM_some _ _ _ (fun i hi => by simp [hop i hi])
  have p2' : pick ((List.range ce.cfg.ell).map (fun i => (L i).map (keyOf ce.ne.e.delta))) (openedIdx ce.cfg rp) =
      some ((openedIdx ce.cfg rp).map (fun i => (L i).map (keyOf ce.ne.e.delta))) :=
    mapM_some _ _ _ (fun i hi => by simp [hop i hi])
  have hpf : ∀ (fp : List U128) (G : Nat → U128), (∀ i, i < ce.cfg.ell → fp[P.eda.npPt + i]? = some (G i)) →
      pick fp ((openedIdx ce.cfg rp).map (P.eda.npPt + ·)) = some ((openedIdx ce.cfg rp).map G) := by
    intro fp G hG
    unfold pick
    have := mapM_some ((openedIdx ce.cfg rp).map (P.eda.npPt + ·)) (fun i => fp[i]?) (fun k => G (k - P.eda.npPt)) (by
      intro x hx
      simp only [List.mem_map] at hx
      obtain ⟨i, hi, rfl⟩ := hx
      rw [Nat.add_sub_cancel_left, hG i (hop i hi)])
    rw [this, List.map_map]
    simp [Function.comp_def]
  rw [p1', p2', hpf P.fp M (fun i hi => (hf i hi).1), hpf vf K (fun i hi => (hf i hi).2.1)]
  simp only [SProg.bind, RProg.ofOpt, RProg.bind]
  rw [show (openedIdx ce.cfg rp).map (fun i => (L i).map (keyOf ce.ne.e.delta)) =
    ((openedIdx ce.cfg rp).map L).map (List.map (keyOf ce.ne.e.delta)) by rw [List.map_map]; rfl]
  have hb := h.backWires k1
  simp only at hb
  refine Lock.bind (lock_open
    (P := { P with b := { p1 with wires := P.b.wires }, cand := (List.range ce.cfg.ell).map L })
    (V := ⟨{ v1 with wires := vb.wires }, va, P.eda, (List.range ce.cfg.ell).map (fun i => (L i).map (keyOf ce.ne.e.delta)), vf, vh, vo⟩)
    hg.env.delta hh
    (ms := (openedIdx ce.cfg rp).map M) (ks := (openedIdx ce.cfg rp).map K) (ls := (openedIdx ce.cfg rp).map L) ?_ ?_) ?_
  · rw [List.forall₂_map_left_iff, List.forall₂_map_right_iff, List.forall₂_same]
    exact fun i hi => (hf i (hop i hi)).2.2
  · rw [List.forall₂_map_left_iff, List.forall₂_map_right_iff, List.forall₂_same]
    exact fun i hi => hL i (hop i hi)
  · rintro P2 V2 ⟨m1, m2⟩
    refine Lock.pure ⟨rfl, rfl, ⟨(List.range ce.cfg.ell).map L, (List.range ce.cfg.ell).map (fun i => (L i).map (keyOf ce.ne.e.delta)),
      ⟨?_, ?_⟩⟩, ?_, ?_, L, ?_⟩
    · simp only; rw [m1]
    · simp only; rw [m2]
    · simp only
      rw [m1, m2]
      exact hb
    · simp only
      rw [m1]
      show p1.gates.length = _
      rw [k2]
    · intro i hi
      simp only
      rw [m1, m2]
      refine ⟨(hf i hi).1, (hf i hi).2.1, (hf i hi).2.2, ?_, ?_, hL i hi⟩
      · simp [hi]
      · simp [hi]

/-! ### the state between instructions -/

/-- The states of two honest parties with plain values `cp`. -/
structure CRel (ce : ConvEnv F) (P : CPrv F) (V : CVer F) (cp : CPlain) : Prop where
  b : ∃ o, BRel ce.ne P.b V.b { cp.b with outs := o }
  a : ARel ce.env P.a V.a cp.a
  bg : P.b.gates.length = lastBatch cp.ands ce.ne.e.checkSz
  ag : P.a.gates.length = lastBatch cp.muls ce.base.checkSz
  eda : V.eda = P.eda
  inv : P.eda.Inv ce.cfg ce.npSz
  pos : P.eda.Pos ce.cfg ce.npSz
  num : P.eda.num = cp.stock
  fpA : P.fp = ce.candA (P.eda.ext - 1)
  fpB : V.fp = ce.candB (P.eda.ext - 1)
  hashed : V.hashed = P.hashed
  outs : P.outs = cp.b.outs ∧ V.outs = cp.b.outs
  cand : P.eda.num ≠ 0 → ∃ M K L, CandOk ce ce.cfg.N P.eda.npPt P.fp V.fp P.cand V.cand M K L

/-- The next edaBit is taken: a new generation if none is left. -/
def takeOne (ce : ConvEnv F) (s : CPlain) : CPlain :=
  if s.stock = 0 then { s with stock := ce.cfg.N - 1, ands := s.ands + ce.cfg.bm1 * (ce.cfg.N * ce.sum.ands) }
  else { s with stock := s.stock - 1 }

theorem Auth.get {delta : W} {l l' : List U128} (h : List.Forall₂ (Auth delta) l l') {i : Nat} (hi : i < l.length) :
    ∃ m k, l[i]? = some m ∧ l'[i]? = some k ∧ Auth delta m k := by
  have hi' : i < l'.length := h.length_eq ▸ hi
  exact ⟨l[i], l'[i], List.getElem?_eq_getElem hi, List.getElem?_eq_getElem hi', List.forall₂_iff_get.1 h |>.2 i hi hi'⟩

/-- A generation in lock step. -/
theorem lock_gen (hs : ce.ne.Sane) (hg : ce.Good) (hl : ce.Lucky) {P : CPrv F} {V : CVer F} {cp : CPlain} (h : CRel ce P V cp) :
    Lock S (genS ce { P with eda := { P.eda with npPt := P.eda.npRg } }) (genR ce { V with eda := { V.eda with npPt := V.eda.npRg } })
      (fun P' V' => CRel ce P' V' { cp with stock := ce.cfg.N, ands := cp.ands + ce.cfg.bm1 * (ce.cfg.N * ce.sum.ands) } ∧
        P'.eda = edaGen ce.cfg ce.npSz { P.eda with npPt := P.eda.npRg }) := by
  have hell := ell_eq ce.cfg
  have h0 : 0 < ce.cfg.ell := by have := hg.N; omega
  obtain ⟨o, hb⟩ := h.b
  have heda := h.eda
  have hfA := h.fpA
  have hfB := h.fpB
  obtain ⟨q1, q2, q3, q4, q5, q6⟩ := gen_pos h0 hg.ell h.pos
  have hinv : (edaGen ce.cfg ce.npSz { P.eda with npPt := P.eda.npRg }).Inv ce.cfg ce.npSz := by
    have := (edaReady_inv hg.N hg.ell (s := { P.eda with num := 0 }) ⟨Nat.zero_le _, fun h => absurd rfl h, fun h => absurd rfl h, h.inv.sz⟩).1
    rw [edaReady, if_pos rfl] at this
    have e : edaGen ce.cfg ce.npSz { P.eda with num := 0, npPt := P.eda.npRg } = edaGen ce.cfg ce.npSz { P.eda with npPt := P.eda.npRg } := by
      unfold edaGen
      simp only
      split <;> rfl
    rw [← e]
    exact this
  have hnum : (edaGen ce.cfg ce.npSz { P.eda with npPt := P.eda.npRg }).num = ce.cfg.N := rfl
  unfold genS genR
  -- the refill
  have hre : Lock S (refillS ce { P with eda := { P.eda with npPt := P.eda.npRg } }) (refillR ce { V with eda := { V.eda with npPt := V.eda.npRg } })
      (fun P1 V1 => P1 = { P with eda := { P.eda with npPt := P.eda.npRg }, fp := ce.candA ((edaGen ce.cfg ce.npSz { P.eda with npPt := P.eda.npRg }).ext - 1) } ∧
        V1 = { V with eda := { P.eda with npPt := P.eda.npRg }, fp := ce.candB ((edaGen ce.cfg ce.npSz { P.eda with npPt := P.eda.npRg }).ext - 1) }) := by
    unfold refillS refillR
    simp only [heda, h.a.used]
    by_cases hc : ce.npSz < P.eda.npRg + ce.cfg.ell
    · rw [if_pos hc] at q5
      simp only [if_pos hc]
      refine Lock.bind (Lock.calls (hg.ed _ _)) ?_
      intro _ _ _
      refine Lock.pure ⟨?_, ?_⟩
      · rw [q5, Nat.add_sub_cancel]
      · rw [q5, Nat.add_sub_cancel]
    · rw [if_neg hc] at q5
      simp only [if_neg hc]
      refine Lock.pure ⟨?_, ?_⟩
      · rw [q5, ← hfA]
      · rw [q5, ← hfB]
  refine Lock.bind hre ?_
  rintro P1 V1 ⟨rfl, rfl⟩
  simp only
  generalize hE : edaGen ce.cfg ce.npSz { P.eda with npPt := P.eda.npRg } = E at *
  -- the candidates
  have hpt : E.npPt + ce.cfg.ell ≤ ce.npSz := by
    have e1 := hinv.rg (by rw [hnum]; have := hg.N; omega)
    have e2 := hinv.sz
    omega
  have hM : ∀ i, ∃ m k, i < ce.cfg.ell → (ce.candA (E.ext - 1))[E.npPt + i]? = some m ∧ (ce.candB (E.ext - 1))[E.npPt + i]? = some k ∧
      Auth ce.base.delta m k := by
    intro i
    by_cases hi : i < ce.cfg.ell
    · obtain ⟨m, k, hmk⟩ := Auth.get (hg.auth (E.ext - 1)) (i := E.npPt + i) (by have := hg.room (E.ext - 1); omega)
      exact ⟨m, k, fun _ => hmk⟩
    · exact ⟨0, 0, fun h => absurd h hi⟩
  choose M K hMK using hM
  have hgens : E.gens - 1 = P.eda.gens := by rw [q3]; omega
  refine Lock.bind (lock_choose hs hg (P := { P with eda := E, fp := ce.candA (E.ext - 1) }) (V := { V with eda := E, fp := ce.candB (E.ext - 1) })
    (M := M) (K := K) (hl.point _) hb h.hashed rfl (fun i hi => hMK i hi)) ?_
  rintro ⟨P2, r⟩ ⟨V2, r'⟩ ⟨k1, k2, ⟨c, c', k3, k4⟩, k5, k6, L, k7⟩
  simp only at k1 k2 k3 k4 k5 k6 k7
  subst k1 k2
  rw [hgens]
  have e1 : P2.eda = E ∧ P2.fp = ce.candA (E.ext - 1) := by rw [k3]; exact ⟨rfl, rfl⟩
  have e2 : V2.eda = E ∧ V2.fp = ce.candB (E.ext - 1) ∧ V2.hashed = P2.hashed := by rw [k4]; exact ⟨rfl, rfl, rfl⟩
  refine Lock.bind (lock_passes hs hg (M := M) (K := K) (L := L) (hl.point _) ?_ (List.range ce.cfg.bm1) (n := cp.ands)
    (fun j hj => List.mem_range.1 hj) k5 ?_ e2.2.2 (by rw [e1.1, e2.1]) (by rw [e1.1]; exact k7)) ?_
  · intro j i hj hi
    have hpl : partnerF2 ce.cfg (ce.rp P.eda.gens) j i < ce.cfg.ell := partner_lt hg.N (by have := hl.point P.eda.gens; have := hg.C; omega) hj
    refine hl.bucket P.eda.gens j i hj hi _ _ ?_ ?_
    · have := (hMK i (by omega)).1
      rw [q1, q2, Nat.add_sub_cancel] at this
      exact this
    · have := (hMK _ hpl).1
      rw [q1, q2, Nat.add_sub_cancel] at this
      exact this
  · rw [k6]
    exact h.bg
  · rintro P3 V3 ⟨⟨m1, m2⟩, m3, m4⟩
    unfold tripleS tripleR
    refine Lock.dataC (hg.dig _) (by decide) ?_
    have e3 : V3.hashed = P3.hashed := by rw [m2]
    rw [e3, if_pos rfl]
    have hP : P3 = { P with b := P3.b, eda := E, cand := P3.cand, fp := ce.candA (E.ext - 1), hashed := P3.hashed } := by rw [m1, k3]
    have hV : V3 = { V with b := V3.b, eda := E, cand := V3.cand, fp := ce.candB (E.ext - 1), hashed := P3.hashed } := by rw [m2, k4]
    have hcd : P3.cand = P2.cand ∧ V3.cand = V2.cand := by rw [m1, m2]; exact ⟨rfl, rfl⟩
    rw [hP, hV]
    refine Lock.pure ⟨⟨⟨o, m3⟩, h.a, ?_, h.ag, rfl, hinv, q4, hnum, rfl, rfl, rfl, h.outs, ?_⟩, rfl⟩
    · simp only
      rw [m4, List.length_range]
    · intro _
      refine ⟨M, K, L, ?_⟩
      intro i hi
      have := k7 i (by omega)
      rw [e1.2, e2.2.1] at this
      simp only
      rw [hcd.1, hcd.2]
      exact this

/-- `next_edabits` in lock step. -/
theorem lock_next (hs : ce.ne.Sane) (hg : ce.Good) (hl : ce.Lucky) {P : CPrv F} {V : CVer F} {cp : CPlain} (h : CRel ce P V cp) :
    Lock S (nextS ce P) (nextR ce V) (fun r r' => CRel ce r.1 r'.1 (takeOne ce cp) ∧ r'.2.1 = r.2.1.map (keyOf ce.ne.e.delta) ∧
      r'.2.2 = r.2.2 ∧ (∃ M K, r.1.fp[r.2.2]? = some M ∧ r'.1.fp[r.2.2]? = some K ∧ Auth ce.base.delta M K ∧
        r.2.1.map lsb = bitsW (high64 M)) ∧ (cp.stock ≠ 0 → r.1.fp = P.fp ∧ r'.1.fp = V.fp)) := by
  have key : ∀ {P1 : CPrv F} {V1 : CVer F} {cp1 : CPlain}, CRel ce P1 V1 cp1 → cp1.stock ≠ 0 →
      takeOne ce cp = { cp1 with stock := cp1.stock - 1 } → (cp.stock ≠ 0 → P1.fp = P.fp ∧ V1.fp = V.fp) →
      Lock S ((SProg.ofOpt P1.cand[P1.eda.off]?).bind (fun ls =>
        .done ({ P1 with eda := { P1.eda with off := P1.eda.off + 1, num := P1.eda.num - 1 } }, ls, P1.eda.npPt + P1.eda.off)))
      ((RProg.ofOpt V1.cand[V1.eda.off]?).bind (fun ls =>
        .done ({ V1 with eda := { V1.eda with off := V1.eda.off + 1, num := V1.eda.num - 1 } }, ls, V1.eda.npPt + V1.eda.off)))
      (fun r r' => CRel ce r.1 r'.1 (takeOne ce cp) ∧ r'.2.1 = r.2.1.map (keyOf ce.ne.e.delta) ∧
      r'.2.2 = r.2.2 ∧ (∃ M K, r.1.fp[r.2.2]? = some M ∧ r'.1.fp[r.2.2]? = some K ∧ Auth ce.base.delta M K ∧
        r.2.1.map lsb = bitsW (high64 M)) ∧ (cp.stock ≠ 0 → r.1.fp = P.fp ∧ r'.1.fp = V.fp)) := by
    intro P1 V1 cp1 h1 hst ht hfp
    have hn : P1.eda.num ≠ 0 := by rw [h1.num]; exact hst
    obtain ⟨M, K, L, hc⟩ := h1.cand hn
    have ho := h1.inv.off hn
    obtain ⟨c1, c2, c3, c4, c5, c6⟩ := hc P1.eda.off (by omega)
    rw [h1.eda, c4, c5]
    simp only [SProg.ofOpt, RProg.ofOpt, SProg.bind, RProg.bind]
    refine Lock.pure ⟨?_, rfl, rfl, ⟨_, _, c1, c2, c3, c6⟩, hfp⟩
    rw [ht]
    refine ⟨h1.b, h1.a, h1.bg, h1.ag, ?_, ⟨?_, ?_, ?_, h1.inv.sz⟩, h1.pos, ?_, h1.fpA, h1.fpB, h1.hashed, h1.outs, ?_⟩
    · rfl
    · have := h1.inv.le
      simp only; omega
    · simp only; omega
    · intro _; exact h1.inv.rg hn
    · simp only; rw [h1.num]
    · intro _
      exact ⟨M, K, L, hc⟩
  unfold nextS nextR
  rw [h.eda, h.num]
  by_cases h0 : cp.stock = 0
  · rw [if_pos h0, if_pos h0]
    have := lock_gen (S := S) hs hg hl h
    rw [h.eda] at this
    refine Lock.bind this ?_
    rintro P1 V1 ⟨k1, _⟩
    refine key k1 (by have := hg.N; simp only; omega) ?_ (fun h' => absurd h0 h')
    rw [takeOne, if_pos h0]
  · rw [if_neg h0, if_neg h0]
    refine Lock.bind (Lock.pure (S := S) (Post := fun a b => a = P ∧ b = V) ⟨rfl, rfl⟩) ?_
    rintro _ _ ⟨rfl, rfl⟩
    refine key h h0 ?_ (fun _ => ⟨rfl, rfl⟩)
    rw [takeOne, if_neg h0]

end
end EmpZk
