/-
The two processes of `Verif.Model.ArithNet` against the message-level functions of `Verif.Model.ArithSession`.
-/
import Verif.Lemmas.Proc
import Verif.Model.ArithNet

namespace EmpZk

theorem encW_length (w : W) : (encW w).length = 8 := leBytes_length _ _
theorem encBlk_length (b : U128) : (encBlk b).length = 16 := leBytes_length _ _
theorem encAns_length (a : W × W) : (encAns a).length = 16 := by simp [encAns, encW_length]
theorem encDig_length (h : BitVec 256) : (encDig h).length = 32 := leBytes_length _ _

theorem decW_encW (w : W) : decW (encW w) = w := by
  rw [decW, encW, leVal_leBytes 8 w.toNat (by have := w.isLt; norm_num at this ⊢; exact this)]
  simp

theorem decBlk_encBlk (w : U128) : decBlk (encBlk w) = w := by
  rw [decBlk, encBlk, leVal_leBytes 16 w.toNat (by have := w.isLt; norm_num at this ⊢; exact this)]
  simp

theorem decDig_encDig (w : BitVec 256) : decDig (encDig w) = w := by
  rw [decDig, encDig, leVal_leBytes 32 w.toNat (by have := w.isLt; norm_num at this ⊢; exact this)]
  simp

theorem decAns_encAns (a : W × W) : decAns (encAns a) = a := by
  have h : (encW a.1).length = 8 := encW_length _
  simp only [decAns, encAns]
  rw [List.take_append_of_le_length (by omega), List.drop_append_of_le_length (by omega), List.take_of_length_le (by omega),
    List.drop_of_length_le (by omega), List.nil_append, decW_encW, decW_encW]

/-- Both parties have consumed and buffered the same amounts. -/
structure ASync (P : APrv) (V : AVer) : Prop where
  used : P.used = V.used
  gates : P.gates.length = V.gates.length
  polys : P.polys.length = V.polys.length
  mulB : P.mulBatches = V.mulBatches
  polyB : P.polyBatches = V.polyBatches

theorem ASync.init : ASync APrv.init AVer.init := ⟨rfl, rfl, rfl, rfl, rfl⟩

theorem ASync.polysNil {P : APrv} {V : AVer} (h : ASync P V) : P.polys = [] ↔ V.polys = [] := by
  rw [← List.length_eq_zero_iff, ← List.length_eq_zero_iff, h.polys]

theorem ASync.gatesNil {P : APrv} {V : AVer} (h : ASync P V) : P.gates = [] ↔ V.gates = [] := by
  rw [← List.length_eq_zero_iff, ← List.length_eq_zero_iff, h.gates]

/-- A local computation of the first party. -/
theorem Co.optL {α β γ : Type} {o : Option α} {x : α} (h : o = some x) {f : α → Proc β} {Q : Proc γ} {a : β} {b : γ}
    (k : Co (f x) Q a b) : Co (Proc.ofOpt o >>= f) Q a b := by
  subst h; exact k

theorem Co.optR {α β γ : Type} {o : Option α} {x : α} (h : o = some x) {f : α → Proc β} {P : Proc γ} {a : γ} {b : β}
    (k : Co P (f x) a b) : Co P (Proc.ofOpt o >>= f) a b := by
  subst h; exact k

theorem Co.opt {α β : Type} {o : Option α} {o' : Option β} {x : α} {y : β} (h : o = some x) (h' : o' = some y) :
    Co (Proc.ofOpt o) (Proc.ofOpt o') x y := by
  subst h; subst h'; exact Co.done _ _

theorem Co.bindM {α β γ δ : Type} {P : Proc α} {Q : Proc β} {a : α} {b : β} {f : α → Proc γ} {g : β → Proc δ} {x : γ} {y : δ}
    (h : Co P Q a b) (h' : Co (f a) (g b) x y) : Co (P >>= f) (Q >>= g) x y := Co.bind h h'

theorem co_mulCheck (ne : ANetEnv) {P : APrv} {V : AVer} (hs : ASync P V) {P' : APrv} {V' : AVer} {ans : W × W}
    (hp : aprvMulCheck ne.env P = some (P', ans)) (hv : averMulCheck ne.env V ans = some V') :
    Co (aprvMulCheckN ne P) (averMulCheckN ne V) P' V' ∧ ASync P' V' := by
  simp only [aprvMulCheck, Option.bind_eq_bind, Option.bind_eq_some_iff, Option.some.injEq, Prod.mk.injEq] at hp
  obtain ⟨a, ha, rfl, rfl⟩ := hp
  have hs' : ASync { P with used := P.used + 1, gates := [], mulBatches := P.mulBatches + 1 } V' := by
    simp only [averMulCheck, Option.bind_eq_bind, Option.bind_eq_some_iff, Option.some.injEq] at hv
    obtain ⟨ok, _, rfl⟩ := hv
    exact ⟨congrArg (· + 1) hs.used, rfl, hs.polys, congrArg (· + 1) hs.mulB, hs.polyB⟩
  refine ⟨?_, hs'⟩
  unfold aprvMulCheckN averMulCheckN
  refine Co.bindM (Co.qp _ (encBlk_length _)) ?_
  refine Co.optL (x := a) ?_ ?_
  · rw [decBlk_encBlk, ← hs.mulB]; exact ha
  rw [hs.used]
  refine Co.bindM (Co.script _) ?_
  refine Co.bindM (Co.pq _ (encAns_length _)) ?_
  rw [decAns_encAns, hv, ← hs.used]
  exact Co.done _ _

theorem co_polyCheck (ne : ANetEnv) {P : APrv} {V : AVer} (hs : ASync P V) {P' : APrv} {V' : AVer} {ans : W × W}
    (hp : aprvPolyCheck ne.env P = some (P', ans)) (hv : averPolyCheck ne.env V ans = some V') :
    Co (aprvPolyCheckN ne P) (averPolyCheckN ne V) P' V' ∧ ASync P' V' := by
  simp only [aprvPolyCheck, Option.bind_eq_bind, Option.bind_eq_some_iff, Option.some.injEq, Prod.mk.injEq] at hp
  obtain ⟨a, ha, rfl, rfl⟩ := hp
  have hs' : ASync { P with used := P.used + 1, polys := [], polyBatches := P.polyBatches + 1 } V' := by
    simp only [averPolyCheck, Option.bind_eq_bind, Option.bind_eq_some_iff, Option.some.injEq] at hv
    obtain ⟨ok, _, rfl⟩ := hv
    exact ⟨congrArg (· + 1) hs.used, hs.gates, rfl, hs.mulB, congrArg (· + 1) hs.polyB⟩
  refine ⟨?_, hs'⟩
  unfold aprvPolyCheckN averPolyCheckN
  refine Co.bindM (Co.qp _ (encW_length _)) ?_
  refine Co.optL (x := a) ?_ ?_
  · rw [decW_encW, ← hs.polyB]; exact ha
  rw [hs.used]
  refine Co.bindM (Co.script _) ?_
  refine Co.bindM (Co.pq _ (encAns_length _)) ?_
  rw [decAns_encAns, hv, ← hs.used]
  exact Co.done _ _

theorem co_mulRoom (ne : ANetEnv) {P : APrv} {V : AVer} (hs : ASync P V) {r : APrv × (W × W)} {V' : AVer}
    (hp : aprvMulRoom ne.env P = some r) (hv : averMulRoom ne.env V r.2 = some V') :
    Co (aprvMulRoomN ne P) (averMulRoomN ne V) r.1 V' ∧ ASync r.1 V' := by
  unfold aprvMulRoom at hp
  unfold averMulRoom at hv
  unfold aprvMulRoomN averMulRoomN
  rw [← hs.gates] at hv ⊢
  by_cases h : P.gates.length = ne.env.checkSz
  · rw [if_pos h] at hp hv ⊢
    rw [if_pos h]
    exact co_mulCheck ne hs hp hv
  · rw [if_neg h] at hp hv ⊢
    rw [if_neg h]
    cases hp; cases hv
    exact ⟨Co.done _ _, hs⟩

theorem co_polyRoom (ne : ANetEnv) {P : APrv} {V : AVer} (hs : ASync P V) {r : APrv × (W × W)} {V' : AVer}
    (hp : aprvPolyRoom ne.env P = some r) (hv : averPolyRoom ne.env V r.2 = some V') :
    Co (aprvPolyRoomN ne P) (averPolyRoomN ne V) r.1 V' ∧ ASync r.1 V' := by
  unfold aprvPolyRoom at hp
  unfold averPolyRoom at hv
  unfold aprvPolyRoomN averPolyRoomN
  have hc : (V.polys.length ≥ ne.env.polySz ∧ V.polys ≠ []) ↔ (P.polys.length ≥ ne.env.polySz ∧ P.polys ≠ []) := by
    rw [hs.polys, Ne, Ne, hs.polysNil]
  by_cases h : P.polys.length ≥ ne.env.polySz ∧ P.polys ≠ []
  · rw [if_pos h] at hp
    rw [if_pos (hc.2 h)] at hv
    rw [if_pos h, if_pos (hc.2 h)]
    exact co_polyCheck ne hs hp hv
  · rw [if_neg h] at hp
    rw [if_neg (fun k => h (hc.1 k))] at hv
    rw [if_neg h, if_neg (fun k => h (hc.1 k))]
    cases hp; cases hv
    exact ⟨Co.done _ _, hs⟩

theorem co_finPoly (ne : ANetEnv) {P : APrv} {V : AVer} (hs : ASync P V) {r : APrv × (W × W)} {V' : AVer}
    (hp : aprvFinPoly ne.env P = some r) (hv : averFinPoly ne.env V r.2 = some V') :
    Co (aprvFinPolyN ne P) (averFinPolyN ne V) r.1 V' ∧ ASync r.1 V' := by
  unfold aprvFinPoly at hp
  unfold averFinPoly at hv
  unfold aprvFinPolyN averFinPolyN
  have hc := hs.polysNil
  by_cases h : P.polys = []
  · simp only [h, hc.1 h, ne_eq, not_true_eq_false, if_false, Option.some.injEq] at hp hv ⊢
    cases hp; cases hv
    exact ⟨Co.done _ _, hs⟩
  · simp only [ne_eq, h, mt hc.2 h, not_false_eq_true, if_true] at hp hv ⊢
    exact co_polyCheck ne hs hp hv

theorem co_finMul (ne : ANetEnv) {P : APrv} {V : AVer} (hs : ASync P V) {r : APrv × (W × W)} {V' : AVer}
    (hp : aprvFinMul ne.env P = some r) (hv : averFinMul ne.env V r.2 = some V') :
    Co (aprvFinMulN ne P) (averFinMulN ne V) r.1 V' ∧ ASync r.1 V' := by
  unfold aprvFinMul at hp
  unfold averFinMul at hv
  unfold aprvFinMulN averFinMulN
  have hc := hs.gatesNil
  by_cases h : P.gates = []
  · simp only [h, hc.1 h, ne_eq, not_true_eq_false, if_false, Option.some.injEq] at hp hv ⊢
    cases hp; cases hv
    exact ⟨Co.done _ _, hs⟩
  · simp only [ne_eq, h, mt hc.2 h, not_false_eq_true, if_true] at hp hv ⊢
    exact co_mulCheck ne hs hp hv

theorem co_step (ne : ANetEnv) {P : APrv} {V : AVer} (hs : ASync P V) {r : APrv × AMsg} {V' : AVer} {op : AOp}
    (hp : aprvStep ne.env P op = some r) (hv : averStep ne.env V r.2 op = some V') :
    Co (aprvStepN ne P op) (averStepN ne V op) r.1 V' ∧ ASync r.1 V' := by
  cases op with
  | input w =>
    have hs' : ASync r.1 V' := by
      simp only [aprvStep, averStep, Option.some.injEq] at hp hv
      subst hp; subst hv
      exact ⟨congrArg (· + 1) hs.used, hs.gates, hs.polys, hs.mulB, hs.polyB⟩
    refine ⟨?_, hs'⟩
    simp only [aprvStepN, averStepN]
    rw [hs.used]
    refine Co.bindM (Co.script _) ?_
    refine Co.optL hp ?_
    refine Co.bindM (f := fun _ => pure r.1) (Co.pq _ (encW_length _)) ?_
    rw [decW_encW]
    have : averStep ne.env V ⟨r.2.w, 0, 0⟩ (.input w) = some V' := hv
    rw [this]
    exact Co.done _ _
  | pub w =>
    have hs' : ASync r.1 V' := by
      simp only [aprvStep, averStep, Option.some.injEq] at hp hv
      subst hp; subst hv
      exact ⟨hs.used, hs.gates, hs.polys, hs.mulB, hs.polyB⟩
    refine ⟨?_, hs'⟩
    simp only [aprvStepN, averStepN]
    refine Co.optL hp ?_
    have : averStep ne.env V ⟨0, 0, 0⟩ (.pub w) = some V' := hv
    rw [this]
    exact Co.done _ _
  | add i j =>
    have hs' : ASync r.1 V' := by
      simp only [aprvStep, averStep, Option.bind_eq_bind, Option.bind_eq_some_iff, Option.some.injEq] at hp hv
      obtain ⟨_, _, _, _, rfl⟩ := hp; obtain ⟨_, _, _, _, rfl⟩ := hv
      exact ⟨hs.used, hs.gates, hs.polys, hs.mulB, hs.polyB⟩
    refine ⟨?_, hs'⟩
    simp only [aprvStepN, averStepN]
    refine Co.optL hp ?_
    have : averStep ne.env V ⟨0, 0, 0⟩ (.add i j) = some V' := hv
    rw [this]
    exact Co.done _ _
  | mul i j =>
    simp only [aprvStep, averStep, Option.bind_eq_bind, Option.bind_eq_some_iff, Option.some.injEq] at hp hv
    obtain ⟨a, ha, b, hb, q, hq, t, ht, rfl⟩ := hp
    obtain ⟨a', ha', b', hb', V1, hV1, hv⟩ := hv
    obtain ⟨k1, k2⟩ := co_mulRoom ne hs hq hV1
    have hs' : ASync t.1 V' := by
      unfold aprvMulPush at ht
      unfold averMulPush at hv
      split at ht
      · split at hv
        · cases ht; cases hv
          refine ⟨congrArg (· + 1) k2.used, ?_, k2.polys, k2.mulB, k2.polyB⟩
          simp [k2.gates]
        · cases hv
      · cases ht
    refine ⟨?_, hs'⟩
    simp only [aprvStepN, averStepN]
    refine Co.optL ha (Co.optL hb (Co.optR ha' (Co.optR hb' ?_)))
    refine Co.bindM k1 ?_
    rw [k2.used]
    refine Co.bindM (Co.script _) ?_
    refine Co.optL ht ?_
    refine Co.bindM (f := fun _ => pure t.1) (Co.pq _ (encW_length _)) ?_
    rw [decW_encW, hv]
    exact Co.done _ _
  | mulc i c =>
    have hs' : ASync r.1 V' := by
      simp only [aprvStep, averStep, Option.bind_eq_bind, Option.bind_eq_some_iff, Option.some.injEq] at hp hv
      obtain ⟨_, _, rfl⟩ := hp; obtain ⟨_, _, rfl⟩ := hv
      exact ⟨hs.used, hs.gates, hs.polys, hs.mulB, hs.polyB⟩
    refine ⟨?_, hs'⟩
    simp only [aprvStepN, averStepN]
    refine Co.optL hp ?_
    have : averStep ne.env V ⟨0, 0, 0⟩ (.mulc i c) = some V' := hv
    rw [this]
    exact Co.done _ _
  | reveal i =>
    have hs' : ASync r.1 V' := by
      simp only [aprvStep, averStep, Option.bind_eq_bind, Option.bind_eq_some_iff, Option.some.injEq] at hp hv
      obtain ⟨_, _, rfl⟩ := hp; obtain ⟨_, _, rfl⟩ := hv
      exact ⟨hs.used, hs.gates, hs.polys, hs.mulB, hs.polyB⟩
    refine ⟨?_, hs'⟩
    simp only [aprvStepN, averStepN]
    refine Co.optL hp ?_
    refine Co.bindM (f := fun _ => pure r.1) (Co.pq _ (encW_length _)) ?_
    rw [decW_encW]
    have : averStep ne.env V ⟨r.2.w, 0, 0⟩ (.reveal i) = some V' := hv
    rw [this]
    exact Co.done _ _
  | revealCheck i x =>
    have hs' : ASync r.1 V' := by
      simp only [aprvStep, averStep, Option.bind_eq_bind, Option.bind_eq_some_iff, Option.some.injEq] at hp hv
      obtain ⟨_, _, rfl⟩ := hp; obtain ⟨_, _, rfl⟩ := hv
      exact ⟨hs.used, hs.gates, hs.polys, hs.mulB, hs.polyB⟩
    refine ⟨?_, hs'⟩
    simp only [aprvStepN, averStepN]
    refine Co.optL hp ?_
    refine Co.bindM (f := fun _ => pure r.1) (Co.pq _ (encW_length _)) ?_
    rw [decW_encW]
    have : averStep ne.env V ⟨r.2.w, 0, 0⟩ (.revealCheck i x) = some V' := hv
    rw [this]
    exact Co.done _ _
  | revealZero i =>
    have hs' : ASync r.1 V' := by
      simp only [aprvStep, averStep, Option.bind_eq_bind, Option.bind_eq_some_iff, Option.some.injEq] at hp hv
      obtain ⟨_, _, rfl⟩ := hp; obtain ⟨_, _, rfl⟩ := hv
      exact ⟨hs.used, hs.gates, hs.polys, hs.mulB, hs.polyB⟩
    refine ⟨?_, hs'⟩
    simp only [aprvStepN, averStepN]
    refine Co.optL hp ?_
    have : averStep ne.env V ⟨0, 0, 0⟩ (.revealZero i) = some V' := hv
    rw [this]
    exact Co.done _ _
  | poly st =>
    simp only [aprvStep, averStep, Option.bind_eq_bind, Option.bind_eq_some_iff, Option.some.injEq] at hp hv
    obtain ⟨p, hpl, q, hq, t, ht, rfl⟩ := hp
    obtain ⟨p', hpl', V1, hV1, hv⟩ := hv
    obtain ⟨k1, k2⟩ := co_polyRoom ne hs hq hV1
    have hs' : ASync t V' := by
      unfold aprvPolyPush at ht
      unfold averPolyPush at hv
      split at ht
      · split at hv
        · cases ht; cases hv
          refine ⟨k2.used, k2.gates, ?_, k2.mulB, k2.polyB⟩
          simp [k2.polys]
        · cases hv
      · cases ht
    refine ⟨?_, hs'⟩
    simp only [aprvStepN, averStepN]
    refine Co.optL hpl (Co.optR hpl' ?_)
    exact Co.bindM k1 (Co.opt ht hv)

theorem co_run (ne : ANetEnv) (ops : List AOp) : ∀ {P : APrv} {V : AVer}, ASync P V → ∀ {r : APrv × List AMsg} {V' : AVer},
    aprvRun ne.env P ops = some r → averRun ne.env V ops r.2 = some V' →
    Co (aprvRunN ne P ops) (averRunN ne V ops) r.1 V' ∧ ASync r.1 V' := by
  induction ops with
  | nil =>
    intro P V hs r V' hp hv
    simp only [aprvRun, Option.some.injEq] at hp
    subst hp
    simp only [averRun, Option.some.injEq] at hv
    subst hv
    exact ⟨Co.done _ _, hs⟩
  | cons o os ih =>
    intro P V hs r V' hp hv
    simp only [aprvRun, Option.bind_eq_bind, Option.bind_eq_some_iff, Option.some.injEq] at hp
    obtain ⟨q, hq, t, ht, rfl⟩ := hp
    simp only [averRun, Option.bind_eq_bind, Option.bind_eq_some_iff] at hv
    obtain ⟨V1, h1, h2⟩ := hv
    obtain ⟨k1, k2⟩ := co_step ne hs hq h1
    obtain ⟨k3, k4⟩ := ih k2 ht h2
    exact ⟨Co.bindM k1 k3, k4⟩

theorem co_finalize (ne : ANetEnv) {P : APrv} {V : AVer} (hs : ASync P V) {r : APrv × AFin} {V' : AVer}
    (hp : aprvFinalize ne.env P = some r) (hv : averFinalize ne.env V r.2 = some V') :
    Co (aprvFinalizeN ne P) (averFinalizeN ne V) r.1 V' := by
  simp only [aprvFinalize, Option.bind_eq_bind, Option.bind_eq_some_iff, Option.some.injEq] at hp
  obtain ⟨q, hq, t, ht, rfl⟩ := hp
  simp only [averFinalize, Option.bind_eq_bind, Option.bind_eq_some_iff, Option.some.injEq] at hv
  obtain ⟨V1, h1, V2, h2, rfl⟩ := hv
  obtain ⟨k1, k2⟩ := co_finPoly ne hs hq h1
  obtain ⟨k3, _⟩ := co_finMul ne k2 ht h2
  unfold aprvFinalizeN averFinalizeN
  refine Co.bindM k1 (Co.bindM k3 (Co.bindM (f := fun _ => pure t.1) (Co.pq _ (encDig_length _)) ?_))
  rw [decDig_encDig]
  exact Co.done _ _

/-- Honest parties: the two processes can run to the end, with the results of the message-level session. -/
theorem co_session (ne : ANetEnv) (ops : List AOp) {P : APrv} {ms : List AMsg} {fin : AFin} {V : AVer}
    (hp : aprvSession ne.env ops = some (P, ms, fin)) (hv : averSession ne.env ops ms fin = some V) :
    Co (aprvNet ne ops) (averNet ne ops) P V := by
  simp only [aprvSession, Option.bind_eq_bind, Option.bind_eq_some_iff, Option.some.injEq, Prod.mk.injEq] at hp
  obtain ⟨r, hr, q, hq, rfl, rfl, rfl⟩ := hp
  simp only [averSession, Option.bind_eq_bind, Option.bind_eq_some_iff] at hv
  obtain ⟨V1, h1, h2⟩ := hv
  obtain ⟨k1, k2⟩ := co_run ne ops ASync.init hr h1
  exact Co.bindM (Co.script _) (Co.bindM k1 (co_finalize ne k2 hq h2))

end EmpZk
