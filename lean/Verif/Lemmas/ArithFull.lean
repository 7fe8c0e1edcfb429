/-
Whole arithmetic proofs on a VOLE that runs over the network, against the message-level functions of `Verif.Model.ArithSession`.
-/
import Verif.Lemmas.VoleNet
import Verif.Lemmas.ArithNet
import Verif.Lemmas.ArithWord

namespace EmpZk

theorem Par.bind_assoc {T : Nat} {α β γ : Type} (p : Par T α) (f : α → Par T β) (g : β → Par T γ) :
    (p.bind f).bind g = p.bind fun a => (f a).bind g := by
  induction p with
  | done a => rfl
  | fail => rfl
  | run ps k ih => simp only [Par.bind, ih]

theorem Par.bind_done {T : Nat} {α : Type} (p : Par T α) : p.bind (fun a => Par.done a) = p := by
  induction p with
  | done a => rfl
  | fail => rfl
  | run ps k ih => simp only [Par.bind, ih]

theorem Par.bindE_assoc {T : Nat} {α β γ : Type} (p : Par T (Option α)) (f : α → Par T (Option β)) (g : β → Par T (Option γ)) :
    (p.bindE f).bindE g = p.bindE fun a => (f a).bindE g := by
  unfold Par.bindE
  rw [Par.bind_assoc]
  congr 1
  funext o
  cases o <;> rfl

theorem Par.bind_bindE {T : Nat} {α β γ : Type} (p : Par T α) (f : α → Par T (Option β)) (g : β → Par T (Option γ)) :
    (p.bind f).bindE g = p.bind fun a => (f a).bindE g := Par.bind_assoc _ _ _

theorem VProg.par_bind {T : Nat} {α β σ : Type} (req : σ → Par (T + 1) (Option (U128 × σ))) (p : VProg α) (f : α → VProg β) :
    ∀ s, (p.bind f).par req s = (p.par req s).bindE fun r => (f r.1).par req r.2 := by
  induction p with
  | done a => intro s; rfl
  | fail => intro s; rfl
  | send bs k ih => intro s; simp only [VProg.bind, VProg.par, Par.bind_bindE, ih]
  | recv n k ih => intro s; simp only [VProg.bind, VProg.par, Par.bind_bindE, ih]
  | cor k ih => intro s; simp only [VProg.bind, VProg.par, Par.bindE_assoc, ih]

section session

variable {T : Nat} {σ σ' : Type} (reqS : σ → Par (T + 1) (Option (U128 × σ))) (reqR : σ' → Par (T + 1) (Option (U128 × σ')))
  (Sy : Nat → σ → σ' → Prop)

/-- From states with `n` correlations used to states with `n'` correlations used, the two programs complete together. -/
def VCo (n n' : Nat) {α β : Type} (P : VProg α) (Q : VProg β) (a : α) (b : β) : Prop :=
  ∀ s s', Sy n s s' → ∃ t t', Sy n' t t' ∧ CoPar (Q.par reqS s) (P.par reqR s') (some (b, t)) (some (a, t'))

/-- The requests deliver the correlations of `e`. -/
def Feeds (e : AEnv) : Prop :=
  ∀ n s s', Sy n s s' → ∃ t t', Sy (n + 1) t t' ∧ CoPar (reqS s) (reqR s') (some (e.keyU n, t)) (some (e.cor n, t'))

variable {reqS reqR Sy}

theorem VCo.done {α β : Type} {n : Nat} (a : α) (b : β) : VCo reqS reqR Sy n n (VProg.done a) (VProg.done b) a b :=
  fun s s' h => ⟨s, s', h, CoPar.done _ _⟩

theorem VCo.bindM {α β γ δ : Type} {n m l : Nat} {P : VProg α} {Q : VProg β} {a : α} {b : β} {f : α → VProg γ} {g : β → VProg δ}
    {x : γ} {y : δ} (h : VCo reqS reqR Sy n m P Q a b) (h' : VCo reqS reqR Sy m l (f a) (g b) x y) :
    VCo reqS reqR Sy n l (P >>= f) (Q >>= g) x y := by
  intro s s' hs
  obtain ⟨t, t', h1, h2⟩ := h s s' hs
  obtain ⟨r, r', h3, h4⟩ := h' t t' h1
  refine ⟨r, r', h3, ?_⟩
  show CoPar ((Q.bind g).par reqS s) ((P.bind f).par reqR s') _ _
  rw [VProg.par_bind, VProg.par_bind]
  exact CoPar.bindE h2 h4

theorem VCo.optL {α β γ : Type} {n m : Nat} {o : Option α} {x : α} (h : o = some x) {f : α → VProg β} {Q : VProg γ} {a : β} {b : γ}
    (k : VCo reqS reqR Sy n m (f x) Q a b) : VCo reqS reqR Sy n m (VProg.ofOpt o >>= f) Q a b := by
  subst h; exact k

theorem VCo.optR {α β γ : Type} {n m : Nat} {o : Option α} {x : α} (h : o = some x) {f : α → VProg β} {P : VProg γ} {a : γ} {b : β}
    (k : VCo reqS reqR Sy n m P (f x) a b) : VCo reqS reqR Sy n m P (VProg.ofOpt o >>= f) a b := by
  subst h; exact k

theorem VCo.opt {α β : Type} {n : Nat} {o : Option α} {o' : Option β} {x : α} {y : β} (h : o = some x) (h' : o' = some y) :
    VCo reqS reqR Sy n n (VProg.ofOpt o) (VProg.ofOpt o') x y := by
  subst h; subst h'; exact VCo.done _ _

theorem VCo.pq {n m : Nat} (bs : List Byte) (h : bs.length = m) : VCo reqS reqR Sy n n (VProg.put bs) (VProg.get m) () bs := by
  intro s s' hs
  exact ⟨s, s', hs, CoPar.bind (CoPar.one (Co.qp bs h)) (CoPar.done _ _)⟩

theorem VCo.qp {n m : Nat} (bs : List Byte) (h : bs.length = m) : VCo reqS reqR Sy n n (VProg.get m) (VProg.put bs) bs () := by
  intro s s' hs
  exact ⟨s, s', hs, CoPar.bind (CoPar.one (Co.pq bs h)) (CoPar.done _ _)⟩

theorem VCo.ask {e : AEnv} (F : Feeds reqS reqR Sy e) (n : Nat) : VCo reqS reqR Sy n (n + 1) VProg.ask VProg.ask (e.cor n) (e.keyU n) := by
  intro s s' hs
  obtain ⟨t, t', h1, h2⟩ := F n s s' hs
  exact ⟨t, t', h1, CoPar.bindE h2 (CoPar.done _ _)⟩

/-! ### the correlation in the environment -/

theorem AEnv.withKey_keyU (e : AEnv) (n m : Nat) : (e.withKey (e.keyU n)).keyU m = e.keyU n := by
  simp [AEnv.withKey, AEnv.keyU]

theorem AEnv.withCor_cor (e : AEnv) (n m : Nat) : (e.withCor (e.cor n)).cor m = e.cor n := by
  simp [AEnv.withCor, AEnv.cor, high64_makeBlock, low64_makeBlock]

theorem averMulCheck_withKey (e : AEnv) (s : AVer) (ans : W × W) : averMulCheck (e.withKey (e.keyU s.used)) s ans = averMulCheck e s ans := by
  unfold averMulCheck; rw [AEnv.withKey_keyU]; rfl

theorem averPolyCheck_withKey (e : AEnv) (s : AVer) (ans : W × W) : averPolyCheck (e.withKey (e.keyU s.used)) s ans = averPolyCheck e s ans := by
  unfold averPolyCheck; rw [AEnv.withKey_keyU]; rfl

theorem averMulPush_withKey (e : AEnv) (s : AVer) (a b : U128) (d : W) :
    averMulPush (e.withKey (e.keyU s.used)) s a b d = averMulPush e s a b d := by
  unfold averMulPush; rw [AEnv.withKey_keyU]; rfl

theorem averInput_withKey (e : AEnv) (s : AVer) (m : AMsg) (w : W) :
    averStep (e.withKey (e.keyU s.used)) s m (.input w) = averStep e s m (.input w) := by
  simp only [averStep]; rw [AEnv.withKey_keyU]; rfl

theorem aprvMulPush_withCor (e : AEnv) (s : APrv) (a b : U128) : aprvMulPush (e.withCor (e.cor s.used)) s a b = aprvMulPush e s a b := by
  unfold aprvMulPush; rw [AEnv.withCor_cor]; rfl

theorem aprvInput_withCor (e : AEnv) (s : APrv) (w : W) : aprvStep (e.withCor (e.cor s.used)) s (.input w) = aprvStep e s (.input w) := by
  simp only [aprvStep]; rw [AEnv.withCor_cor]

/-! ### the session -/

variable {ne : ANetEnv}

theorem vco_mulCheck (F : Feeds reqS reqR Sy ne.env) {P : APrv} {V : AVer} (hs : ASync P V) {P' : APrv} {V' : AVer} {ans : W × W}
    (hp : aprvMulCheck ne.env P = some (P', ans)) (hv : averMulCheck ne.env V ans = some V') :
    VCo reqS reqR Sy P.used P'.used (aprvMulCheckV ne P) (averMulCheckV ne V) P' V' ∧ ASync P' V' := by
  simp only [aprvMulCheck, Option.bind_eq_bind, Option.bind_eq_some_iff, Option.some.injEq, Prod.mk.injEq] at hp
  obtain ⟨a, ha, rfl, rfl⟩ := hp
  have hs' : ASync { P with used := P.used + 1, gates := [], mulBatches := P.mulBatches + 1 } V' := by
    simp only [averMulCheck, Option.bind_eq_bind, Option.bind_eq_some_iff, Option.some.injEq] at hv
    obtain ⟨ok, _, rfl⟩ := hv
    exact ⟨congrArg (· + 1) hs.used, rfl, hs.polys, congrArg (· + 1) hs.mulB, hs.polyB⟩
  refine ⟨?_, hs'⟩
  unfold aprvMulCheckV averMulCheckV
  refine VCo.bindM (VCo.qp _ (encBlk_length _)) ?_
  refine VCo.bindM (VCo.ask F _) ?_
  refine VCo.optL (x := a) ?_ ?_
  · rw [decBlk_encBlk, ← hs.mulB]; exact ha
  refine VCo.bindM (VCo.pq _ (encAns_length _)) ?_
  rw [decAns_encAns, hs.used, averMulCheck_withKey, hv, ← hs.used]
  exact VCo.done _ _

theorem vco_polyCheck (F : Feeds reqS reqR Sy ne.env) {P : APrv} {V : AVer} (hs : ASync P V) {P' : APrv} {V' : AVer} {ans : W × W}
    (hp : aprvPolyCheck ne.env P = some (P', ans)) (hv : averPolyCheck ne.env V ans = some V') :
    VCo reqS reqR Sy P.used P'.used (aprvPolyCheckV ne P) (averPolyCheckV ne V) P' V' ∧ ASync P' V' := by
  simp only [aprvPolyCheck, Option.bind_eq_bind, Option.bind_eq_some_iff, Option.some.injEq, Prod.mk.injEq] at hp
  obtain ⟨a, ha, rfl, rfl⟩ := hp
  have hs' : ASync { P with used := P.used + 1, polys := [], polyBatches := P.polyBatches + 1 } V' := by
    simp only [averPolyCheck, Option.bind_eq_bind, Option.bind_eq_some_iff, Option.some.injEq] at hv
    obtain ⟨ok, _, rfl⟩ := hv
    exact ⟨congrArg (· + 1) hs.used, hs.gates, rfl, hs.mulB, congrArg (· + 1) hs.polyB⟩
  refine ⟨?_, hs'⟩
  unfold aprvPolyCheckV averPolyCheckV
  refine VCo.bindM (VCo.qp _ (encW_length _)) ?_
  refine VCo.bindM (VCo.ask F _) ?_
  refine VCo.optL (x := a) ?_ ?_
  · rw [decW_encW, ← hs.polyB]; exact ha
  refine VCo.bindM (VCo.pq _ (encAns_length _)) ?_
  rw [decAns_encAns, hs.used, averPolyCheck_withKey, hv, ← hs.used]
  exact VCo.done _ _

theorem vco_mulRoom (F : Feeds reqS reqR Sy ne.env) {P : APrv} {V : AVer} (hs : ASync P V) {r : APrv × (W × W)} {V' : AVer}
    (hp : aprvMulRoom ne.env P = some r) (hv : averMulRoom ne.env V r.2 = some V') :
    VCo reqS reqR Sy P.used r.1.used (aprvMulRoomV ne P) (averMulRoomV ne V) r.1 V' ∧ ASync r.1 V' := by
  unfold aprvMulRoom at hp
  unfold averMulRoom at hv
  unfold aprvMulRoomV averMulRoomV
  rw [← hs.gates] at hv ⊢
  by_cases h : P.gates.length = ne.env.checkSz
  · rw [if_pos h] at hp hv ⊢
    rw [if_pos h]
    exact vco_mulCheck F hs hp hv
  · rw [if_neg h] at hp hv ⊢
    rw [if_neg h]
    cases hp; cases hv
    exact ⟨VCo.done _ _, hs⟩

theorem vco_polyRoom (F : Feeds reqS reqR Sy ne.env) {P : APrv} {V : AVer} (hs : ASync P V) {r : APrv × (W × W)} {V' : AVer}
    (hp : aprvPolyRoom ne.env P = some r) (hv : averPolyRoom ne.env V r.2 = some V') :
    VCo reqS reqR Sy P.used r.1.used (aprvPolyRoomV ne P) (averPolyRoomV ne V) r.1 V' ∧ ASync r.1 V' := by
  unfold aprvPolyRoom at hp
  unfold averPolyRoom at hv
  unfold aprvPolyRoomV averPolyRoomV
  have hc : (V.polys.length ≥ ne.env.polySz ∧ V.polys ≠ []) ↔ (P.polys.length ≥ ne.env.polySz ∧ P.polys ≠ []) := by
    rw [hs.polys, Ne, Ne, hs.polysNil]
  by_cases h : P.polys.length ≥ ne.env.polySz ∧ P.polys ≠ []
  · rw [if_pos h] at hp
    rw [if_pos (hc.2 h)] at hv
    rw [if_pos h, if_pos (hc.2 h)]
    exact vco_polyCheck F hs hp hv
  · rw [if_neg h] at hp
    rw [if_neg (fun k => h (hc.1 k))] at hv
    rw [if_neg h, if_neg (fun k => h (hc.1 k))]
    cases hp; cases hv
    exact ⟨VCo.done _ _, hs⟩

theorem vco_finPoly (F : Feeds reqS reqR Sy ne.env) {P : APrv} {V : AVer} (hs : ASync P V) {r : APrv × (W × W)} {V' : AVer}
    (hp : aprvFinPoly ne.env P = some r) (hv : averFinPoly ne.env V r.2 = some V') :
    VCo reqS reqR Sy P.used r.1.used (aprvFinPolyV ne P) (averFinPolyV ne V) r.1 V' ∧ ASync r.1 V' := by
  unfold aprvFinPoly at hp
  unfold averFinPoly at hv
  unfold aprvFinPolyV averFinPolyV
  have hc := hs.polysNil
  by_cases h : P.polys = []
  · simp only [h, hc.1 h, ne_eq, not_true_eq_false, if_false, Option.some.injEq] at hp hv ⊢
    cases hp; cases hv
    exact ⟨VCo.done _ _, hs⟩
  · simp only [ne_eq, h, mt hc.2 h, not_false_eq_true, if_true] at hp hv ⊢
    exact vco_polyCheck F hs hp hv

theorem vco_finMul (F : Feeds reqS reqR Sy ne.env) {P : APrv} {V : AVer} (hs : ASync P V) {r : APrv × (W × W)} {V' : AVer}
    (hp : aprvFinMul ne.env P = some r) (hv : averFinMul ne.env V r.2 = some V') :
    VCo reqS reqR Sy P.used r.1.used (aprvFinMulV ne P) (averFinMulV ne V) r.1 V' ∧ ASync r.1 V' := by
  unfold aprvFinMul at hp
  unfold averFinMul at hv
  unfold aprvFinMulV averFinMulV
  have hc := hs.gatesNil
  by_cases h : P.gates = []
  · simp only [h, hc.1 h, ne_eq, not_true_eq_false, if_false, Option.some.injEq] at hp hv ⊢
    cases hp; cases hv
    exact ⟨VCo.done _ _, hs⟩
  · simp only [ne_eq, h, mt hc.2 h, not_false_eq_true, if_true] at hp hv ⊢
    exact vco_mulCheck F hs hp hv

theorem vco_step (F : Feeds reqS reqR Sy ne.env) {P : APrv} {V : AVer} (hs : ASync P V) {r : APrv × AMsg} {V' : AVer} {op : AOp}
    (hp : aprvStep ne.env P op = some r) (hv : averStep ne.env V r.2 op = some V') :
    VCo reqS reqR Sy P.used r.1.used (aprvStepV ne P op) (averStepV ne V op) r.1 V' ∧ ASync r.1 V' := by
  cases op with
  | input w =>
    have hu : r.1.used = V.used + 1 := by
      simp only [aprvStep, Option.some.injEq] at hp
      subst hp
      exact congrArg (· + 1) hs.used
    have hs' : ASync r.1 V' := by
      simp only [aprvStep, averStep, Option.some.injEq] at hp hv
      subst hp; subst hv
      exact ⟨congrArg (· + 1) hs.used, hs.gates, hs.polys, hs.mulB, hs.polyB⟩
    refine ⟨?_, hs'⟩
    simp only [aprvStepV, averStepV]
    refine VCo.bindM (VCo.ask F _) ?_
    rw [aprvInput_withCor]
    refine VCo.optL hp ?_
    refine VCo.bindM (f := fun _ => pure r.1) (VCo.pq _ (encW_length _)) ?_
    rw [decW_encW, hs.used, averInput_withKey, hu]
    have : averStep ne.env V ⟨r.2.w, 0, 0⟩ (.input w) = some V' := hv
    rw [this]
    exact VCo.done _ _
  | pub w =>
    have hs' : ASync r.1 V' ∧ r.1.used = P.used := by
      simp only [aprvStep, averStep, Option.some.injEq] at hp hv
      subst hp; subst hv
      exact ⟨⟨hs.used, hs.gates, hs.polys, hs.mulB, hs.polyB⟩, rfl⟩
    refine ⟨?_, hs'.1⟩
    rw [hs'.2]
    simp only [aprvStepV, averStepV]
    refine VCo.optL hp ?_
    have : averStep ne.env V ⟨0, 0, 0⟩ (.pub w) = some V' := hv
    rw [this]
    exact VCo.done _ _
  | add i j =>
    have hs' : ASync r.1 V' ∧ r.1.used = P.used := by
      simp only [aprvStep, averStep, Option.bind_eq_bind, Option.bind_eq_some_iff, Option.some.injEq] at hp hv
      obtain ⟨_, _, _, _, rfl⟩ := hp; obtain ⟨_, _, _, _, rfl⟩ := hv
      exact ⟨⟨hs.used, hs.gates, hs.polys, hs.mulB, hs.polyB⟩, rfl⟩
    refine ⟨?_, hs'.1⟩
    rw [hs'.2]
    simp only [aprvStepV, averStepV]
    refine VCo.optL hp ?_
    have : averStep ne.env V ⟨0, 0, 0⟩ (.add i j) = some V' := hv
    rw [this]
    exact VCo.done _ _
  | mul i j =>
    simp only [aprvStep, averStep, Option.bind_eq_bind, Option.bind_eq_some_iff, Option.some.injEq] at hp hv
    obtain ⟨a, ha, b, hb, q, hq, t, ht, rfl⟩ := hp
    obtain ⟨a', ha', b', hb', V1, hV1, hv⟩ := hv
    obtain ⟨k1, k2⟩ := vco_mulRoom F hs hq hV1
    have hs' : ASync t.1 V' ∧ t.1.used = V1.used + 1 := by
      unfold aprvMulPush at ht
      unfold averMulPush at hv
      split at ht
      · split at hv
        · cases ht; cases hv
          refine ⟨⟨congrArg (· + 1) k2.used, ?_, k2.polys, k2.mulB, k2.polyB⟩, congrArg (· + 1) k2.used⟩
          simp [k2.gates]
        · cases hv
      · cases ht
    refine ⟨?_, hs'.1⟩
    simp only [aprvStepV, averStepV]
    refine VCo.optL ha (VCo.optL hb (VCo.optR ha' (VCo.optR hb' ?_)))
    refine VCo.bindM k1 ?_
    refine VCo.bindM (VCo.ask F _) ?_
    rw [aprvMulPush_withCor]
    refine VCo.optL ht ?_
    refine VCo.bindM (f := fun _ => pure t.1) (VCo.pq _ (encW_length _)) ?_
    rw [decW_encW, k2.used, averMulPush_withKey, hv, hs'.2]
    exact VCo.done _ _
  | mulc i c =>
    have hs' : ASync r.1 V' ∧ r.1.used = P.used := by
      simp only [aprvStep, averStep, Option.bind_eq_bind, Option.bind_eq_some_iff, Option.some.injEq] at hp hv
      obtain ⟨_, _, rfl⟩ := hp; obtain ⟨_, _, rfl⟩ := hv
      exact ⟨⟨hs.used, hs.gates, hs.polys, hs.mulB, hs.polyB⟩, rfl⟩
    refine ⟨?_, hs'.1⟩
    rw [hs'.2]
    simp only [aprvStepV, averStepV]
    refine VCo.optL hp ?_
    have : averStep ne.env V ⟨0, 0, 0⟩ (.mulc i c) = some V' := hv
    rw [this]
    exact VCo.done _ _
  | reveal i =>
    have hs' : ASync r.1 V' ∧ r.1.used = P.used := by
      simp only [aprvStep, averStep, Option.bind_eq_bind, Option.bind_eq_some_iff, Option.some.injEq] at hp hv
      obtain ⟨_, _, rfl⟩ := hp; obtain ⟨_, _, rfl⟩ := hv
      exact ⟨⟨hs.used, hs.gates, hs.polys, hs.mulB, hs.polyB⟩, rfl⟩
    refine ⟨?_, hs'.1⟩
    rw [hs'.2]
    simp only [aprvStepV, averStepV]
    refine VCo.optL hp ?_
    refine VCo.bindM (f := fun _ => pure r.1) (VCo.pq _ (encW_length _)) ?_
    rw [decW_encW]
    have : averStep ne.env V ⟨r.2.w, 0, 0⟩ (.reveal i) = some V' := hv
    rw [this]
    exact VCo.done _ _
  | revealCheck i x =>
    have hs' : ASync r.1 V' ∧ r.1.used = P.used := by
      simp only [aprvStep, averStep, Option.bind_eq_bind, Option.bind_eq_some_iff, Option.some.injEq] at hp hv
      obtain ⟨_, _, rfl⟩ := hp; obtain ⟨_, _, rfl⟩ := hv
      exact ⟨⟨hs.used, hs.gates, hs.polys, hs.mulB, hs.polyB⟩, rfl⟩
    refine ⟨?_, hs'.1⟩
    rw [hs'.2]
    simp only [aprvStepV, averStepV]
    refine VCo.optL hp ?_
    refine VCo.bindM (f := fun _ => pure r.1) (VCo.pq _ (encW_length _)) ?_
    rw [decW_encW]
    have : averStep ne.env V ⟨r.2.w, 0, 0⟩ (.revealCheck i x) = some V' := hv
    rw [this]
    exact VCo.done _ _
  | revealZero i =>
    have hs' : ASync r.1 V' ∧ r.1.used = P.used := by
      simp only [aprvStep, averStep, Option.bind_eq_bind, Option.bind_eq_some_iff, Option.some.injEq] at hp hv
      obtain ⟨_, _, rfl⟩ := hp; obtain ⟨_, _, rfl⟩ := hv
      exact ⟨⟨hs.used, hs.gates, hs.polys, hs.mulB, hs.polyB⟩, rfl⟩
    refine ⟨?_, hs'.1⟩
    rw [hs'.2]
    simp only [aprvStepV, averStepV]
    refine VCo.optL hp ?_
    have : averStep ne.env V ⟨0, 0, 0⟩ (.revealZero i) = some V' := hv
    rw [this]
    exact VCo.done _ _
  | poly st =>
    simp only [aprvStep, averStep, Option.bind_eq_bind, Option.bind_eq_some_iff, Option.some.injEq] at hp hv
    obtain ⟨p, hpl, q, hq, t, ht, rfl⟩ := hp
    obtain ⟨p', hpl', V1, hV1, hv⟩ := hv
    obtain ⟨k1, k2⟩ := vco_polyRoom F hs hq hV1
    have hs' : ASync t V' ∧ t.used = q.1.used := by
      unfold aprvPolyPush at ht
      unfold averPolyPush at hv
      split at ht
      · split at hv
        · cases ht; cases hv
          refine ⟨⟨k2.used, k2.gates, ?_, k2.mulB, k2.polyB⟩, rfl⟩
          simp [k2.polys]
        · cases hv
      · cases ht
    refine ⟨?_, hs'.1⟩
    simp only [aprvStepV, averStepV]
    refine VCo.optL hpl (VCo.optR hpl' ?_)
    refine VCo.bindM k1 ?_
    rw [hs'.2]
    exact VCo.opt ht hv

theorem vco_run (F : Feeds reqS reqR Sy ne.env) (ops : List AOp) : ∀ {P : APrv} {V : AVer}, ASync P V → ∀ {r : APrv × List AMsg} {V' : AVer},
    aprvRun ne.env P ops = some r → averRun ne.env V ops r.2 = some V' →
    VCo reqS reqR Sy P.used r.1.used (aprvRunV ne P ops) (averRunV ne V ops) r.1 V' ∧ ASync r.1 V' := by
  induction ops with
  | nil =>
    intro P V hs r V' hp hv
    simp only [aprvRun, Option.some.injEq] at hp
    subst hp
    simp only [averRun, Option.some.injEq] at hv
    subst hv
    exact ⟨VCo.done _ _, hs⟩
  | cons o os ih =>
    intro P V hs r V' hp hv
    simp only [aprvRun, Option.bind_eq_bind, Option.bind_eq_some_iff, Option.some.injEq] at hp
    obtain ⟨q, hq, t, ht, rfl⟩ := hp
    simp only [averRun, Option.bind_eq_bind, Option.bind_eq_some_iff] at hv
    obtain ⟨V1, h1, h2⟩ := hv
    obtain ⟨k1, k2⟩ := vco_step F hs hq h1
    obtain ⟨k3, k4⟩ := ih k2 ht h2
    exact ⟨VCo.bindM k1 k3, k4⟩

theorem vco_finalize (F : Feeds reqS reqR Sy ne.env) {P : APrv} {V : AVer} (hs : ASync P V) {r : APrv × AFin} {V' : AVer}
    (hp : aprvFinalize ne.env P = some r) (hv : averFinalize ne.env V r.2 = some V') :
    VCo reqS reqR Sy P.used r.1.used (aprvFinalizeV ne P) (averFinalizeV ne V) r.1 V' := by
  simp only [aprvFinalize, Option.bind_eq_bind, Option.bind_eq_some_iff, Option.some.injEq] at hp
  obtain ⟨q, hq, t, ht, rfl⟩ := hp
  simp only [averFinalize, Option.bind_eq_bind, Option.bind_eq_some_iff, Option.some.injEq] at hv
  obtain ⟨V1, h1, V2, h2, rfl⟩ := hv
  obtain ⟨k1, k2⟩ := vco_finPoly F hs hq h1
  obtain ⟨k3, _⟩ := vco_finMul F k2 ht h2
  unfold aprvFinalizeV averFinalizeV
  refine VCo.bindM k1 (VCo.bindM k3 (VCo.bindM (f := fun _ => pure t.1) (VCo.pq _ (encDig_length _)) ?_))
  rw [decDig_encDig]
  exact VCo.done _ _

/-- Honest parties: the two programs can run to the end, with the results of the message-level session. -/
theorem vco_session (F : Feeds reqS reqR Sy ne.env) (ops : List AOp) {P : APrv} {ms : List AMsg} {fin : AFin} {V : AVer}
    (hp : aprvSession ne.env ops = some (P, ms, fin)) (hv : averSession ne.env ops ms fin = some V) :
    VCo reqS reqR Sy 0 P.used (aprvProg ne ops) (averProg ne ops) P V := by
  simp only [aprvSession, Option.bind_eq_bind, Option.bind_eq_some_iff, Option.some.injEq, Prod.mk.injEq] at hp
  obtain ⟨r, hr, q, hq, rfl, rfl, rfl⟩ := hp
  simp only [averSession, Option.bind_eq_bind, Option.bind_eq_some_iff] at hv
  obtain ⟨V1, h1, h2⟩ := hv
  obtain ⟨k1, k2⟩ := vco_run F ops ASync.init hr h1
  exact VCo.bindM (VCo.ask F 0) (VCo.bindM k1 (vco_finalize F k2 hq h2))

end session

end EmpZk
