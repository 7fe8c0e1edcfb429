/-
The verifier's process of `Verif.Model.ArithNet` alone on arbitrary bytes.
-/
import Verif.Lemmas.Proc
import Verif.Spec.ArithWire

namespace EmpZk

/-- The party ends with `a` when these bytes arrive, leaving `r`. -/
def Ends {α : Type} (P : Proc α) (bs : List Byte) (a : α) (r : List Byte) : Prop := P.on bs = .ends a r

theorem ends_pure {α : Type} {x a : α} {bs r : List Byte} : Ends (pure x) bs a r ↔ x = a ∧ bs = r := by
  show Proc.Out.ends x bs = .ends a r ↔ _
  rw [Proc.Out.ends.injEq]

theorem ends_bind {α β : Type} {P : Proc α} {f : α → Proc β} {bs r : List Byte} {b : β} :
    Ends (P >>= f) bs b r ↔ ∃ a r', Ends P bs a r' ∧ Ends (f a) r' b r := by
  show (P.bind f).on bs = _ ↔ _
  rw [Proc.on_bind]
  unfold Ends
  cases h : P.on bs with
  | waits => simp
  | fails => simp
  | ends a r' => simp

theorem ends_ofOpt {α : Type} {o : Option α} {a : α} {bs r : List Byte} : Ends (Proc.ofOpt o) bs a r ↔ o = some a ∧ bs = r := by
  cases o with
  | none => simp [Ends, Proc.ofOpt, Proc.on]
  | some x => simp [Ends, Proc.ofOpt, Proc.on]

theorem ends_put {x bs r : List Byte} {u : Unit} : Ends (Proc.put x) bs u r ↔ bs = r := by
  simp [Ends, Proc.put, Proc.on]

theorem ends_get {n : Nat} {x bs r : List Byte} : Ends (Proc.get n) bs x r ↔ takeN n bs = some (x, r) := by
  unfold Ends Proc.get Proc.on takeN
  split <;> simp [Proc.on]

theorem ends_script {l : List (Bool × List Byte)} : ∀ {bs r : List Byte} {u : Unit},
    Ends (Proc.script false l) bs u r ↔ skipExt l bs = some r := by
  induction l with
  | nil => intro bs r u; simp [Ends, Proc.script, Proc.on, skipExt]
  | cons x l ih =>
    intro bs r u
    obtain ⟨b, m⟩ := x
    cases b with
    | true =>
      simp only [Proc.script, Bool.true_eq_false, if_false, skipExt]
      by_cases h : m.length ≤ bs.length
      · rw [if_pos h, ← ih (u := u)]
        unfold Ends
        rw [Proc.on, if_pos h]
      · rw [if_neg h]
        unfold Ends
        rw [Proc.on, if_neg h]
        simp
    | false =>
      simp only [Proc.script, if_true, skipExt]
      rw [← ih (u := u)]
      rfl

/-- How far the verifier is. -/
def AVer.cnt (s : AVer) : ACnt := ⟨s.used, s.gates.length, s.polys.length⟩

/-- The wire format of a session. -/
def ANetEnv.wire (ne : ANetEnv) : AWire := ⟨ne.ext, ne.base.checkSz, ne.base.polySz⟩

theorem ends_extAns {α : Type} {w : AWire} {n : Nat} {f : List Byte → Proc α} {g : W × W → Option α}
    (hf : ∀ x, f x = Proc.ofOpt (g (decAns x))) {bs r : List Byte} {a : α} :
    Ends (Proc.script false (w.ext n) >>= fun _ => Proc.get 16 >>= f) bs a r ↔ ∃ ans, w.answer n bs = some (ans, r) ∧ g ans = some a := by
  rw [ends_bind]
  simp only [ends_bind, ends_script, ends_get, hf, ends_ofOpt, AWire.answer, Option.bind_eq_bind, Option.bind_eq_some_iff,
    Option.some.injEq, Prod.mk.injEq]
  constructor
  · rintro ⟨_, b, h1, x, r', h2, h3, rfl⟩
    exact ⟨decAns x, ⟨b, h1, (x, r'), h2, rfl, rfl⟩, h3⟩
  · rintro ⟨ans, ⟨b, h1, ⟨x, r'⟩, h2, rfl, rfl⟩, h3⟩
    exact ⟨(), b, h1, x, r', h2, h3, rfl⟩

theorem ends_extWord {α : Type} {w : AWire} {n : Nat} {f : List Byte → Proc α} {g : W → Option α}
    (hf : ∀ x, f x = Proc.ofOpt (g (decW x))) {bs r : List Byte} {a : α} :
    Ends (Proc.script false (w.ext n) >>= fun _ => Proc.get 8 >>= f) bs a r ↔ ∃ x, w.extWord n bs = some (x, r) ∧ g x = some a := by
  rw [ends_bind]
  simp only [ends_bind, ends_script, ends_get, hf, ends_ofOpt, AWire.extWord, AWire.word, Option.bind_eq_bind, Option.bind_eq_some_iff,
    Option.some.injEq, Prod.mk.injEq]
  constructor
  · rintro ⟨_, b, h1, x, r', h2, h3, rfl⟩
    exact ⟨decW x, ⟨b, h1, (x, r'), h2, rfl, rfl⟩, h3⟩
  · rintro ⟨ans, ⟨b, h1, ⟨x, r'⟩, h2, rfl, rfl⟩, h3⟩
    exact ⟨(), b, h1, x, r', h2, h3, rfl⟩

theorem ends_word {α : Type} {f : List Byte → Proc α} {g : W → Option α}
    (hf : ∀ x, f x = Proc.ofOpt (g (decW x))) {bs r : List Byte} {a : α} :
    Ends (Proc.get 8 >>= f) bs a r ↔ ∃ x, AWire.word bs = some (x, r) ∧ g x = some a := by
  rw [ends_bind]
  simp only [ends_get, hf, ends_ofOpt, AWire.word, Option.bind_eq_bind, Option.bind_eq_some_iff,
    Option.some.injEq, Prod.mk.injEq]
  constructor
  · rintro ⟨x, r', h2, h3, rfl⟩
    exact ⟨decW x, ⟨(x, r'), h2, rfl, rfl⟩, h3⟩
  · rintro ⟨ans, ⟨⟨x, r'⟩, h2, rfl, rfl⟩, h3⟩
    exact ⟨x, r', h2, h3, rfl⟩

theorem ends_mulCheck (ne : ANetEnv) {V V' : AVer} {bs r : List Byte} :
    Ends (averMulCheckN ne V) bs V' r ↔ ∃ ans, ne.wire.answer V.used bs = some (ans, r) ∧ averMulCheck ne.env V ans = some V' := by
  unfold averMulCheckN
  rw [ends_bind]
  simp only [ends_put]
  constructor
  · rintro ⟨_, _, rfl, h⟩
    exact (ends_extAns (w := ne.wire) (n := V.used) (fun _ => rfl)).1 h
  · intro h
    exact ⟨(), bs, rfl, (ends_extAns (w := ne.wire) (n := V.used) (fun _ => rfl)).2 h⟩

theorem ends_polyCheck (ne : ANetEnv) {V V' : AVer} {bs r : List Byte} :
    Ends (averPolyCheckN ne V) bs V' r ↔ ∃ ans, ne.wire.answer V.used bs = some (ans, r) ∧ averPolyCheck ne.env V ans = some V' := by
  unfold averPolyCheckN
  rw [ends_bind]
  simp only [ends_put]
  constructor
  · rintro ⟨_, _, rfl, h⟩
    exact (ends_extAns (w := ne.wire) (n := V.used) (fun _ => rfl)).1 h
  · intro h
    exact ⟨(), bs, rfl, (ends_extAns (w := ne.wire) (n := V.used) (fun _ => rfl)).2 h⟩

theorem averMulCheck_cnt {e : AEnv} {V V' : AVer} {ans : W × W} (h : averMulCheck e V ans = some V') :
    V'.cnt = { V.cnt with used := V.used + 1, gates := 0 } := by
  simp only [averMulCheck, Option.bind_eq_bind, Option.bind_eq_some_iff, Option.some.injEq] at h
  obtain ⟨_, _, rfl⟩ := h
  rfl

theorem averPolyCheck_cnt {e : AEnv} {V V' : AVer} {ans : W × W} (h : averPolyCheck e V ans = some V') :
    V'.cnt = { V.cnt with used := V.used + 1, polys := 0 } := by
  simp only [averPolyCheck, Option.bind_eq_bind, Option.bind_eq_some_iff, Option.some.injEq] at h
  obtain ⟨_, _, rfl⟩ := h
  rfl

/-- A check that is made when `full`, at message level and in bytes. -/
theorem ends_if {ne : ANetEnv} {V V' : AVer} {bs r : List Byte} {N : AVer → Proc AVer} {chk : AVer → W × W → Option AVer}
    (hN : ∀ {V' bs r}, Ends (N V) bs V' r ↔ ∃ ans, ne.wire.answer V.used bs = some (ans, r) ∧ chk V ans = some V')
    (full full' : Prop) [Decidable full] [Decidable full'] (hf : full ↔ full') :
    Ends (if full then N V else pure V) bs V' r ↔
      ∃ ans, ne.wire.answerIf full' V.used bs = some (ans, r) ∧ (if full then chk V ans else some V) = some V' := by
  by_cases h : full
  · simp only [AWire.answerIf, if_pos h, if_pos (hf.1 h)]
    exact hN
  · simp only [AWire.answerIf, if_neg h, if_neg (fun k => h (hf.2 k)), ends_pure, Option.some.injEq, Prod.mk.injEq]
    constructor
    · rintro ⟨rfl, rfl⟩; exact ⟨_, ⟨rfl, rfl⟩, rfl⟩
    · rintro ⟨_, ⟨rfl, rfl⟩, rfl⟩; exact ⟨rfl, rfl⟩

theorem ends_mulRoom (ne : ANetEnv) {V V' : AVer} {bs r : List Byte} : Ends (averMulRoomN ne V) bs V' r ↔
    ∃ ans, ne.wire.answerIf (V.cnt.gates = ne.wire.checkSz) V.used bs = some (ans, r) ∧ averMulRoom ne.env V ans = some V' :=
  ends_if (ne := ne) (chk := averMulCheck ne.env) (ends_mulCheck ne) _ _ Iff.rfl

theorem polyFull (ne : ANetEnv) (V : AVer) :
    (V.polys.length ≥ ne.env.polySz ∧ V.polys ≠ []) ↔ (ne.wire.polySz ≤ V.cnt.polys ∧ V.cnt.polys ≠ 0) := by
  show (ne.base.polySz ≤ V.polys.length ∧ V.polys ≠ []) ↔ (ne.base.polySz ≤ V.polys.length ∧ V.polys.length ≠ 0)
  rw [Ne, Ne, List.length_eq_zero_iff]

theorem ends_polyRoom (ne : ANetEnv) {V V' : AVer} {bs r : List Byte} : Ends (averPolyRoomN ne V) bs V' r ↔
    ∃ ans, ne.wire.answerIf (ne.wire.polySz ≤ V.cnt.polys ∧ V.cnt.polys ≠ 0) V.used bs = some (ans, r) ∧
      averPolyRoom ne.env V ans = some V' :=
  ends_if (ne := ne) (chk := averPolyCheck ne.env) (ends_polyCheck ne) _ _ (polyFull ne V)

theorem ends_finPoly (ne : ANetEnv) {V V' : AVer} {bs r : List Byte} : Ends (averFinPolyN ne V) bs V' r ↔
    ∃ ans, ne.wire.answerIf (V.cnt.polys ≠ 0) V.used bs = some (ans, r) ∧ averFinPoly ne.env V ans = some V' :=
  ends_if (ne := ne) (chk := averPolyCheck ne.env) (ends_polyCheck ne) _ _ (not_congr List.length_eq_zero_iff.symm)

theorem ends_finMul (ne : ANetEnv) {V V' : AVer} {bs r : List Byte} : Ends (averFinMulN ne V) bs V' r ↔
    ∃ ans, ne.wire.answerIf (V.cnt.gates ≠ 0) V.used bs = some (ans, r) ∧ averFinMul ne.env V ans = some V' :=
  ends_if (ne := ne) (chk := averMulCheck ne.env) (ends_mulCheck ne) _ _ (not_congr List.length_eq_zero_iff.symm)

theorem averMulRoom_cnt {ne : ANetEnv} {V V' : AVer} {ans : W × W} (h : averMulRoom ne.env V ans = some V') :
    V'.cnt = if V.cnt.gates = ne.wire.checkSz then { V.cnt with used := V.used + 1, gates := 0 } else V.cnt := by
  unfold averMulRoom at h
  by_cases k : V.gates.length = ne.env.checkSz
  · rw [if_pos k] at h
    rw [averMulCheck_cnt h]
    exact (if_pos k).symm
  · rw [if_neg k] at h
    cases h
    exact (if_neg k).symm

theorem averPolyRoom_cnt {ne : ANetEnv} {V V' : AVer} {ans : W × W} (h : averPolyRoom ne.env V ans = some V') :
    V'.cnt = if ne.wire.polySz ≤ V.cnt.polys ∧ V.cnt.polys ≠ 0 then { V.cnt with used := V.used + 1, polys := 0 } else V.cnt := by
  unfold averPolyRoom at h
  by_cases k : V.polys.length ≥ ne.env.polySz ∧ V.polys ≠ []
  · rw [if_pos k] at h
    rw [averPolyCheck_cnt h]
    exact (if_pos ((polyFull ne V).1 k)).symm
  · rw [if_neg k] at h
    cases h
    exact (if_neg (fun j => k ((polyFull ne V).2 j))).symm

theorem averMulPush_cnt {e : AEnv} {V V' : AVer} {a b : U128} {d : W} (h : averMulPush e V a b d = some V') :
    V'.cnt = { V.cnt with used := V.used + 1, gates := V.cnt.gates + 1 } := by
  unfold averMulPush at h
  split at h
  · cases h; simp [AVer.cnt]
  · cases h

theorem averPolyPush_cnt {e : AEnv} {V V' : AVer} {p : APoly U128} (h : averPolyPush e V p = some V') :
    V'.cnt = { V.cnt with polys := V.cnt.polys + 1 } := by
  unfold averPolyPush at h
  split at h
  · cases h; simp [AVer.cnt]
  · cases h

/-- One instruction. -/
theorem ends_step (ne : ANetEnv) {V V' : AVer} {bs r : List Byte} {op : AOp} : Ends (averStepN ne V op) bs V' r ↔
    ∃ m, ne.wire.step V.cnt op bs = some (m, V'.cnt, r) ∧ averStep ne.env V m op = some V' := by
  cases op with
  | input w =>
    simp only [averStepN]
    rw [show Proc.script false (ne.ext V.used) = Proc.script false (ne.wire.ext V.used) from rfl,
      ends_extWord (w := ne.wire) (n := V.used) (g := fun x => averStep ne.env V ⟨x, 0, 0⟩ (.input w)) (fun _ => rfl)]
    simp only [AWire.step, Option.bind_eq_bind, Option.bind_eq_some_iff, Option.some.injEq, Prod.mk.injEq]
    constructor
    · rintro ⟨x, h1, h2⟩
      refine ⟨⟨x, 0, 0⟩, ⟨(x, r), h1, rfl, ?_, rfl⟩, h2⟩
      simp only [averStep, Option.some.injEq] at h2
      subst h2; rfl
    · rintro ⟨_, ⟨⟨x, r'⟩, h1, rfl, _, rfl⟩, h2⟩
      exact ⟨x, h1, h2⟩
  | pub w =>
    simp only [averStepN, ends_ofOpt, AWire.step, Option.some.injEq, Prod.mk.injEq]
    constructor
    · rintro ⟨h, rfl⟩
      refine ⟨_, ⟨rfl, ?_, rfl⟩, h⟩
      simp only [averStep, Option.some.injEq] at h
      subst h; rfl
    · rintro ⟨_, ⟨rfl, _, rfl⟩, h⟩; exact ⟨h, rfl⟩
  | add i j =>
    simp only [averStepN, ends_ofOpt, AWire.step, Option.some.injEq, Prod.mk.injEq]
    constructor
    · rintro ⟨h, rfl⟩
      refine ⟨_, ⟨rfl, ?_, rfl⟩, h⟩
      simp only [averStep, Option.bind_eq_bind, Option.bind_eq_some_iff, Option.some.injEq] at h
      obtain ⟨_, _, _, _, rfl⟩ := h; rfl
    · rintro ⟨_, ⟨rfl, _, rfl⟩, h⟩; exact ⟨h, rfl⟩
  | mulc i c =>
    simp only [averStepN, ends_ofOpt, AWire.step, Option.some.injEq, Prod.mk.injEq]
    constructor
    · rintro ⟨h, rfl⟩
      refine ⟨_, ⟨rfl, ?_, rfl⟩, h⟩
      simp only [averStep, Option.bind_eq_bind, Option.bind_eq_some_iff, Option.some.injEq] at h
      obtain ⟨_, _, rfl⟩ := h; rfl
    · rintro ⟨_, ⟨rfl, _, rfl⟩, h⟩; exact ⟨h, rfl⟩
  | revealZero i =>
    simp only [averStepN, ends_ofOpt, AWire.step, Option.some.injEq, Prod.mk.injEq]
    constructor
    · rintro ⟨h, rfl⟩
      refine ⟨_, ⟨rfl, ?_, rfl⟩, h⟩
      simp only [averStep, Option.bind_eq_bind, Option.bind_eq_some_iff, Option.some.injEq] at h
      obtain ⟨_, _, rfl⟩ := h; rfl
    · rintro ⟨_, ⟨rfl, _, rfl⟩, h⟩; exact ⟨h, rfl⟩
  | reveal i =>
    simp only [averStepN]
    rw [ends_word (g := fun x => averStep ne.env V ⟨x, 0, 0⟩ (.reveal i)) (fun _ => rfl)]
    simp only [AWire.step, Option.bind_eq_bind, Option.bind_eq_some_iff, Option.some.injEq, Prod.mk.injEq]
    constructor
    · rintro ⟨x, h1, h2⟩
      refine ⟨⟨x, 0, 0⟩, ⟨(x, r), h1, rfl, ?_, rfl⟩, h2⟩
      simp only [averStep, Option.bind_eq_bind, Option.bind_eq_some_iff, Option.some.injEq] at h2
      obtain ⟨_, _, rfl⟩ := h2; rfl
    · rintro ⟨_, ⟨⟨x, r'⟩, h1, rfl, _, rfl⟩, h2⟩
      exact ⟨x, h1, h2⟩
  | revealCheck i y =>
    simp only [averStepN]
    rw [ends_word (g := fun x => averStep ne.env V ⟨x, 0, 0⟩ (.revealCheck i y)) (fun _ => rfl)]
    simp only [AWire.step, Option.bind_eq_bind, Option.bind_eq_some_iff, Option.some.injEq, Prod.mk.injEq]
    constructor
    · rintro ⟨x, h1, h2⟩
      refine ⟨⟨x, 0, 0⟩, ⟨(x, r), h1, rfl, ?_, rfl⟩, h2⟩
      simp only [averStep, Option.bind_eq_bind, Option.bind_eq_some_iff, Option.some.injEq] at h2
      obtain ⟨_, _, rfl⟩ := h2; rfl
    · rintro ⟨_, ⟨⟨x, r'⟩, h1, rfl, _, rfl⟩, h2⟩
      exact ⟨x, h1, h2⟩
  | mul i j =>
    simp only [averStepN, ends_bind (P := Proc.ofOpt _), ends_bind (P := averMulRoomN ne V), ends_ofOpt, ends_mulRoom]
    simp only [AWire.step, averStep, Option.bind_eq_bind, Option.bind_eq_some_iff, Option.some.injEq, Prod.mk.injEq]
    constructor
    · rintro ⟨a, _, ⟨ha, rfl⟩, b, _, ⟨hb, rfl⟩, V1, r1, ⟨ans, h1, h2⟩, h3⟩
      obtain ⟨x, h4, h5⟩ := (ends_extWord (w := ne.wire) (n := V1.used) (fun _ => rfl)).1 h3
      have k := averMulRoom_cnt h2
      refine ⟨⟨x, ans⟩, ⟨(ans, r1), h1, (x, r), ?_, rfl, ?_, rfl⟩, a, ha, b, hb, V1, h2, h5⟩
      · simp only
        rw [show (if V.cnt.gates = ne.wire.checkSz then ({ V.cnt with used := V.cnt.used + 1, gates := 0 } : ACnt) else V.cnt) = V1.cnt
          from k.symm]
        exact h4
      · rw [show (if V.cnt.gates = ne.wire.checkSz then ({ V.cnt with used := V.cnt.used + 1, gates := 0 } : ACnt) else V.cnt) = V1.cnt
          from k.symm, averMulPush_cnt h5]
        rfl
    · rintro ⟨_, ⟨⟨ans, r1⟩, h1, ⟨x, r'⟩, h4, rfl, _, rfl⟩, a, ha, b, hb, V1, h2, h5⟩
      have k := averMulRoom_cnt h2
      rw [show (if V.cnt.gates = ne.wire.checkSz then ({ V.cnt with used := V.cnt.used + 1, gates := 0 } : ACnt) else V.cnt) = V1.cnt
          from k.symm] at h4
      refine ⟨a, _, ⟨ha, rfl⟩, b, _, ⟨hb, rfl⟩, V1, r1, ⟨ans, h1, h2⟩, ?_⟩
      exact (ends_extWord (w := ne.wire) (n := V1.used) (fun _ => rfl)).2 ⟨x, h4, h5⟩
  | poly st =>
    simp only [averStepN, ends_bind (P := Proc.ofOpt _), ends_bind (P := averPolyRoomN ne V), ends_ofOpt, ends_polyRoom]
    simp only [AWire.step, averStep, Option.bind_eq_bind, Option.bind_eq_some_iff, Option.some.injEq, Prod.mk.injEq]
    constructor
    · rintro ⟨p, _, ⟨hp, rfl⟩, V1, r1, ⟨ans, h1, h2⟩, h3, rfl⟩
      have k := averPolyRoom_cnt h2
      refine ⟨⟨0, ans⟩, ⟨(ans, r1), h1, rfl, ?_, rfl⟩, p, hp, V1, h2, h3⟩
      rw [averPolyPush_cnt h3, k]
      rfl
    · rintro ⟨_, ⟨⟨ans, r1⟩, h1, rfl, _, rfl⟩, p, hp, V1, h2, h3⟩
      exact ⟨p, _, ⟨hp, rfl⟩, V1, r1, ⟨ans, h1, h2⟩, h3, rfl⟩

theorem wire_step_cnt {ne : ANetEnv} {V V' : AVer} {bs r : List Byte} {op : AOp} {m : AMsg} {c : ACnt}
    (h : ne.wire.step V.cnt op bs = some (m, c, r)) (hv : averStep ne.env V m op = some V') : c = V'.cnt := by
  cases op with
  | input w =>
    simp only [AWire.step, Option.bind_eq_bind, Option.bind_eq_some_iff, Option.some.injEq, Prod.mk.injEq] at h
    obtain ⟨_, _, _, rfl, _⟩ := h
    simp only [averStep, Option.some.injEq] at hv
    subst hv; rfl
  | pub w =>
    simp only [AWire.step, Option.some.injEq, Prod.mk.injEq] at h
    simp only [averStep, Option.some.injEq] at hv
    subst hv; exact h.2.1.symm
  | add i j =>
    simp only [AWire.step, Option.some.injEq, Prod.mk.injEq] at h
    simp only [averStep, Option.bind_eq_bind, Option.bind_eq_some_iff, Option.some.injEq] at hv
    obtain ⟨_, _, _, _, rfl⟩ := hv; exact h.2.1.symm
  | mulc i c =>
    simp only [AWire.step, Option.some.injEq, Prod.mk.injEq] at h
    simp only [averStep, Option.bind_eq_bind, Option.bind_eq_some_iff, Option.some.injEq] at hv
    obtain ⟨_, _, rfl⟩ := hv; exact h.2.1.symm
  | revealZero i =>
    simp only [AWire.step, Option.some.injEq, Prod.mk.injEq] at h
    simp only [averStep, Option.bind_eq_bind, Option.bind_eq_some_iff, Option.some.injEq] at hv
    obtain ⟨_, _, rfl⟩ := hv; exact h.2.1.symm
  | reveal i =>
    simp only [AWire.step, Option.bind_eq_bind, Option.bind_eq_some_iff, Option.some.injEq, Prod.mk.injEq] at h
    obtain ⟨_, _, _, h, _⟩ := h
    simp only [averStep, Option.bind_eq_bind, Option.bind_eq_some_iff, Option.some.injEq] at hv
    obtain ⟨_, _, rfl⟩ := hv; exact h.symm
  | revealCheck i x =>
    simp only [AWire.step, Option.bind_eq_bind, Option.bind_eq_some_iff, Option.some.injEq, Prod.mk.injEq] at h
    obtain ⟨_, _, _, h, _⟩ := h
    simp only [averStep, Option.bind_eq_bind, Option.bind_eq_some_iff, Option.some.injEq] at hv
    obtain ⟨_, _, rfl⟩ := hv; exact h.symm
  | mul i j =>
    simp only [AWire.step, Option.bind_eq_bind, Option.bind_eq_some_iff, Option.some.injEq, Prod.mk.injEq] at h
    obtain ⟨_, _, _, _, _, h, _⟩ := h
    simp only [averStep, Option.bind_eq_bind, Option.bind_eq_some_iff] at hv
    obtain ⟨_, _, _, _, V1, h2, h5⟩ := hv
    rw [← h, averMulPush_cnt h5, averMulRoom_cnt h2]
    have k := averMulRoom_cnt h2
    have k' : V1.used = (if V.cnt.gates = ne.wire.checkSz then ({ V.cnt with used := V.used + 1, gates := 0 } : ACnt) else V.cnt).used :=
      congrArg ACnt.used k
    rw [k']
    rfl
  | poly st =>
    simp only [AWire.step, Option.bind_eq_bind, Option.bind_eq_some_iff, Option.some.injEq, Prod.mk.injEq] at h
    obtain ⟨_, _, _, h, _⟩ := h
    simp only [averStep, Option.bind_eq_bind, Option.bind_eq_some_iff] at hv
    obtain ⟨_, _, V1, h2, h5⟩ := hv
    rw [← h, averPolyPush_cnt h5, averPolyRoom_cnt h2]
    rfl

theorem ends_run (ne : ANetEnv) (ops : List AOp) : ∀ {V V' : AVer} {bs r : List Byte}, Ends (averRunN ne V ops) bs V' r ↔
    ∃ ms, ne.wire.run V.cnt ops bs = some (ms, V'.cnt, r) ∧ averRun ne.env V ops ms = some V' := by
  induction ops with
  | nil =>
    intro V V' bs r
    simp only [averRunN, ends_pure, AWire.run, Option.some.injEq, Prod.mk.injEq]
    constructor
    · rintro ⟨rfl, rfl⟩; exact ⟨[], ⟨rfl, rfl, rfl⟩, rfl⟩
    · rintro ⟨_, ⟨rfl, _, rfl⟩, h⟩
      simp only [averRun, Option.some.injEq] at h
      exact ⟨h, rfl⟩
  | cons o os ih =>
    intro V V' bs r
    simp only [averRunN, ends_bind, ends_step, ih, AWire.run, Option.bind_eq_bind, Option.bind_eq_some_iff, Option.some.injEq,
      Prod.mk.injEq]
    constructor
    · rintro ⟨V1, r1, ⟨m, h1, h2⟩, ms, h3, h4⟩
      refine ⟨m :: ms, ⟨(m, V1.cnt, r1), h1, (ms, V'.cnt, r), h3, rfl, rfl⟩, ?_⟩
      simp only [averRun, Option.bind_eq_bind, h2, Option.bind_some, h4]
    · rintro ⟨_, ⟨⟨m, c1, r1⟩, h1, ⟨ms, y⟩, h3, rfl, rfl⟩, h4⟩
      simp only [averRun, Option.bind_eq_bind, Option.bind_eq_some_iff] at h4
      obtain ⟨V1, h5, h6⟩ := h4
      obtain rfl := wire_step_cnt h1 h5
      exact ⟨V1, r1, ⟨m, h1, h5⟩, ms, h3, h6⟩

theorem wire_run_cnt {ne : ANetEnv} (ops : List AOp) : ∀ {V V' : AVer} {bs r : List Byte} {ms : List AMsg} {c : ACnt},
    ne.wire.run V.cnt ops bs = some (ms, c, r) → averRun ne.env V ops ms = some V' → c = V'.cnt := by
  induction ops with
  | nil =>
    intro V V' bs r ms c h hv
    simp only [AWire.run, Option.some.injEq, Prod.mk.injEq] at h
    obtain ⟨rfl, rfl, _⟩ := h
    simp only [averRun, Option.some.injEq] at hv
    rw [hv]
  | cons o os ih =>
    intro V V' bs r ms c h hv
    simp only [AWire.run, Option.bind_eq_bind, Option.bind_eq_some_iff, Option.some.injEq, Prod.mk.injEq] at h
    obtain ⟨⟨m, c1, r1⟩, h1, ⟨ms', y⟩, h3, rfl, rfl⟩ := h
    simp only [averRun, Option.bind_eq_bind, Option.bind_eq_some_iff] at hv
    obtain ⟨V1, h5, h6⟩ := hv
    obtain rfl := wire_step_cnt h1 h5
    exact ih h3 h6

theorem averFinPoly_cnt {e : AEnv} {V V' : AVer} {ans : W × W} (h : averFinPoly e V ans = some V') :
    V'.cnt.gates = V.cnt.gates ∧ V'.used = if V.cnt.polys ≠ 0 then V.used + 1 else V.used := by
  unfold averFinPoly at h
  have k : V.polys ≠ [] ↔ V.cnt.polys ≠ 0 := not_congr List.length_eq_zero_iff.symm
  by_cases hp : V.polys ≠ []
  · rw [if_pos hp] at h
    have := averPolyCheck_cnt h
    rw [if_pos (k.1 hp)]
    exact ⟨by rw [this], by rw [show V'.used = V'.cnt.used from rfl, this]⟩
  · rw [if_neg hp] at h
    cases h
    exact ⟨rfl, (if_neg (fun j => hp (k.2 j))).symm⟩

theorem ends_finalize (ne : ANetEnv) {V V' : AVer} {bs r : List Byte} : Ends (averFinalizeN ne V) bs V' r ↔
    ∃ fin, ne.wire.fin V.cnt bs = some (fin, r) ∧ averFinalize ne.env V fin = some V' := by
  simp only [averFinalizeN, ends_bind, ends_finPoly, ends_finMul, ends_get, ends_pure, AWire.fin, averFinalize,
    Option.bind_eq_bind, Option.bind_eq_some_iff, Option.some.injEq, Prod.mk.injEq]
  constructor
  · rintro ⟨V1, r1, ⟨a, h1, h2⟩, V2, r2, ⟨b, h3, h4⟩, x, r3, h5, rfl, rfl⟩
    obtain ⟨k1, k2⟩ := averFinPoly_cnt h2
    simp only [k1, k2] at h3
    exact ⟨⟨a, b, decDig x⟩, ⟨(a, r1), h1, (b, r2), h3, (x, r3), h5, rfl, rfl⟩, V1, h2, V2, h4, rfl⟩
  · rintro ⟨_, ⟨⟨a, r1⟩, h1, ⟨b, r2⟩, h3, ⟨x, r3⟩, h5, rfl, rfl⟩, V1, h2, V2, h4, rfl⟩
    obtain ⟨k1, k2⟩ := averFinPoly_cnt h2
    refine ⟨V1, r1, ⟨a, h1, h2⟩, V2, r2, ⟨b, ?_, h4⟩, x, r3, h5, rfl, rfl⟩
    simp only [k1, k2]
    exact h3

/-- The verifier's process on any bytes: it ends exactly when the bytes contain all messages and the message-level verifier ends on
them. -/
theorem ends_session (ne : ANetEnv) (ops : List AOp) {V : AVer} {bs r : List Byte} : Ends (averNet ne ops) bs V r ↔
    ∃ ms fin, ne.wire.session ops bs = some (ms, fin, r) ∧ averSession ne.env ops ms fin = some V := by
  simp only [averNet, ends_bind, ends_script, ends_run, ends_finalize, AWire.session, averSession,
    Option.bind_eq_bind, Option.bind_eq_some_iff, Option.some.injEq, Prod.mk.injEq]
  constructor
  · rintro ⟨_, r0, h0, V1, r1, ⟨ms, h1, h2⟩, fin, h3, h4⟩
    exact ⟨ms, fin, ⟨r0, h0, (ms, V1.cnt, r1), h1, (fin, r), h3, rfl, rfl, rfl⟩, V1, h2, h4⟩
  · rintro ⟨ms, fin, ⟨r0, h0, ⟨ms', c1, r1⟩, h1, ⟨fin', r'⟩, h3, rfl, rfl, rfl⟩, V1, h2, h4⟩
    obtain rfl := wire_run_cnt (V := AVer.init) ops h1 h2
    exact ⟨(), r0, h0, V1, r1, ⟨ms', h1, h2⟩, fin', h3, h4⟩

end EmpZk
