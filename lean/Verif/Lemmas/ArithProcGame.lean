/-
C87: from a prover process to a family of messages.
-/
import Verif.Lemmas.ArithFamilyError
import Verif.Lemmas.ArithProcUpto
import Verif.Lemmas.ArithLike

namespace EmpZk

/-! ### parts of the verifier -/

theorem proc_assoc {α β γ : Type} (P : Proc α) (f : α → Proc β) (g : β → Proc γ) : ((P >>= f) >>= g) = (P >>= fun a => f a >>= g) := by
  induction P with
  | done a => rfl
  | fail => rfl
  | send bs k ih => exact congrArg (Proc.send bs) ih
  | recv n k ih => exact congrArg (Proc.recv n) (funext ih)

theorem averRunN_append (ne : ANetEnv) (l l' : List AOp) : ∀ V, averRunN ne V (l ++ l') = (averRunN ne V l >>= fun s => averRunN ne s l') := by
  induction l with
  | nil => intro V; rfl
  | cons o os ih =>
    intro V
    simp only [List.cons_append, averRunN, proc_assoc, ih]

/-- The first `k` instructions of the verifier. -/
def averPart (ne : ANetEnv) (ops : List AOp) (k : Nat) : Proc AVer := do
  Proc.script false (ne.ext 0)
  averRunN ne AVer.init (ops.take k)

theorem averNet_part (ne : ANetEnv) (ops : List AOp) (k : Nat) :
    averNet ne ops = (averPart ne ops k >>= fun s => averRunN ne s (ops.drop k) >>= averFinalizeN ne) := by
  unfold averNet averPart
  rw [proc_assoc]
  congr 1
  funext _
  rw [← List.take_append_drop k ops, averRunN_append, proc_assoc, List.take_append_drop]

theorem part_like {ne ne' : ANetEnv} (ha : ne.Alike ne') (ops : List AOp) (k : Nat) :
    Proc.Like AVer.Level (averPart ne ops k) (averPart ne' ops k) := by
  unfold averPart
  rw [ha.ext]
  exact (Proc.Like.refl _).bindM fun _ _ _ => like_run ha _ ⟨rfl, rfl, rfl⟩

/-! ### bytes that follow do not matter -/

theorem on_strip {α : Type} (P : Proc α) : ∀ {bs r : List Byte} {a : α}, P.on bs = .ends a r →
    ∃ t, bs = t ++ r ∧ ∀ r', P.on (t ++ r') = .ends a r' := by
  induction P with
  | done a =>
    intro bs r x h
    simp only [Proc.on, Proc.Out.ends.injEq] at h
    obtain ⟨rfl, rfl⟩ := h
    exact ⟨[], rfl, fun _ => rfl⟩
  | fail => intro bs r x h; cases h
  | send b k ih => intro bs r x h; exact ih h
  | recv n k ih =>
    intro bs r x h
    simp only [Proc.on] at h
    split at h
    · rename_i hn
      obtain ⟨t, h1, h2⟩ := ih _ h
      refine ⟨bs.take n ++ t, ?_, ?_⟩
      · rw [List.append_assoc, ← h1, List.take_append_drop]
      · intro r'
        have hl : (bs.take n).length = n := by rw [List.length_take]; omega
        rw [List.append_assoc]
        simp only [Proc.on]
        rw [if_pos (by rw [List.length_append]; omega), List.take_append_of_le_length (by omega), List.take_of_length_le (by omega),
          List.drop_append_of_le_length (by omega), List.drop_of_length_le (by omega), List.nil_append]
        exact h2 r'
    · cases h

theorem takeN_more {n : Nat} {bs x r : List Byte} (h : takeN n bs = some (x, r)) (t : List Byte) : takeN n (bs ++ t) = some (x, r ++ t) := by
  unfold takeN at h ⊢
  split at h
  · rename_i hn
    simp only [Option.some.injEq, Prod.mk.injEq] at h
    obtain ⟨rfl, rfl⟩ := h
    rw [if_pos (by rw [List.length_append]; omega), List.take_append_of_le_length hn, List.drop_append_of_le_length hn]
  · cases h

theorem skipExt_more (l : List (Bool × List Byte)) : ∀ {bs r : List Byte}, skipExt l bs = some r → ∀ t, skipExt l (bs ++ t) = some (r ++ t) := by
  induction l with
  | nil => intro bs r h t; simp only [skipExt, Option.some.injEq] at h ⊢; rw [h]
  | cons x l ih =>
    obtain ⟨b, y⟩ := x
    intro bs r h t
    cases b with
    | false => exact ih h t
    | true =>
      simp only [skipExt] at h ⊢
      split at h
      · rename_i hn
        rw [if_pos (by rw [List.length_append]; omega), List.drop_append_of_le_length hn]
        exact ih h t
      · cases h

theorem word_more {bs r : List Byte} {x : W} (h : AWire.word bs = some (x, r)) (t : List Byte) : AWire.word (bs ++ t) = some (x, r ++ t) := by
  simp only [AWire.word, Option.bind_eq_bind, Option.bind_eq_some_iff, Option.some.injEq, Prod.mk.injEq] at h ⊢
  obtain ⟨⟨y, r'⟩, h1, rfl, rfl⟩ := h
  exact ⟨_, takeN_more h1 t, rfl, rfl⟩

theorem extWord_more {w : AWire} {n : Nat} {bs r : List Byte} {x : W} (h : w.extWord n bs = some (x, r)) (t : List Byte) :
    w.extWord n (bs ++ t) = some (x, r ++ t) := by
  simp only [AWire.extWord, Option.bind_eq_bind, Option.bind_eq_some_iff] at h ⊢
  obtain ⟨b, h1, h2⟩ := h
  exact ⟨_, skipExt_more _ h1 t, word_more h2 t⟩

theorem answerIf_more {w : AWire} {full : Prop} [Decidable full] {n : Nat} {bs r : List Byte} {x : W × W}
    (h : w.answerIf full n bs = some (x, r)) (t : List Byte) : w.answerIf full n (bs ++ t) = some (x, r ++ t) := by
  unfold AWire.answerIf at h ⊢
  split at h
  · rename_i hf
    rw [if_pos hf]
    simp only [AWire.answer, Option.bind_eq_bind, Option.bind_eq_some_iff, Option.some.injEq, Prod.mk.injEq] at h ⊢
    obtain ⟨b, h1, ⟨y, r'⟩, h2, rfl, rfl⟩ := h
    exact ⟨_, skipExt_more _ h1 t, _, takeN_more h2 t, rfl, rfl⟩
  · rename_i hf
    rw [if_neg hf]
    simp only [Option.some.injEq, Prod.mk.injEq] at h ⊢
    obtain ⟨rfl, rfl⟩ := h
    exact ⟨rfl, rfl⟩

theorem step_more {w : AWire} {c c' : ACnt} {op : AOp} {bs r : List Byte} {m : AMsg} (h : w.step c op bs = some (m, c', r))
    (t : List Byte) : w.step c op (bs ++ t) = some (m, c', r ++ t) := by
  cases op with
  | input x =>
    simp only [AWire.step, Option.bind_eq_bind, Option.bind_eq_some_iff, Option.some.injEq, Prod.mk.injEq] at h ⊢
    obtain ⟨⟨y, r'⟩, h1, rfl, rfl, rfl⟩ := h
    exact ⟨_, extWord_more h1 t, rfl, rfl, rfl⟩
  | mul i j =>
    simp only [AWire.step, Option.bind_eq_bind, Option.bind_eq_some_iff, Option.some.injEq, Prod.mk.injEq] at h ⊢
    obtain ⟨⟨y, r1⟩, h1, ⟨z, r2⟩, h2, rfl, rfl, rfl⟩ := h
    exact ⟨_, answerIf_more h1 t, _, extWord_more h2 t, rfl, rfl, rfl⟩
  | reveal i =>
    simp only [AWire.step, Option.bind_eq_bind, Option.bind_eq_some_iff, Option.some.injEq, Prod.mk.injEq] at h ⊢
    obtain ⟨⟨y, r'⟩, h1, rfl, rfl, rfl⟩ := h
    exact ⟨_, word_more h1 t, rfl, rfl, rfl⟩
  | revealCheck i x =>
    simp only [AWire.step, Option.bind_eq_bind, Option.bind_eq_some_iff, Option.some.injEq, Prod.mk.injEq] at h ⊢
    obtain ⟨⟨y, r'⟩, h1, rfl, rfl, rfl⟩ := h
    exact ⟨_, word_more h1 t, rfl, rfl, rfl⟩
  | poly st =>
    simp only [AWire.step, Option.bind_eq_bind, Option.bind_eq_some_iff, Option.some.injEq, Prod.mk.injEq] at h ⊢
    obtain ⟨⟨y, r1⟩, h1, rfl, rfl, rfl⟩ := h
    exact ⟨_, answerIf_more h1 t, rfl, rfl, rfl⟩
  | pub x => simp only [AWire.step, Option.some.injEq, Prod.mk.injEq] at h ⊢; exact ⟨h.1, h.2.1, by rw [h.2.2]⟩
  | add i j => simp only [AWire.step, Option.some.injEq, Prod.mk.injEq] at h ⊢; exact ⟨h.1, h.2.1, by rw [h.2.2]⟩
  | mulc i x => simp only [AWire.step, Option.some.injEq, Prod.mk.injEq] at h ⊢; exact ⟨h.1, h.2.1, by rw [h.2.2]⟩
  | revealZero i => simp only [AWire.step, Option.some.injEq, Prod.mk.injEq] at h ⊢; exact ⟨h.1, h.2.1, by rw [h.2.2]⟩

theorem run_more {w : AWire} (ops : List AOp) : ∀ {c c' : ACnt} {bs r : List Byte} {ms : List AMsg}, w.run c ops bs = some (ms, c', r) →
    ∀ t, w.run c ops (bs ++ t) = some (ms, c', r ++ t) := by
  induction ops with
  | nil =>
    intro c c' bs r ms h t
    simp only [AWire.run, Option.some.injEq, Prod.mk.injEq] at h ⊢
    exact ⟨h.1, h.2.1, by rw [h.2.2]⟩
  | cons o os ih =>
    intro c c' bs r ms h t
    simp only [AWire.run, Option.bind_eq_bind, Option.bind_eq_some_iff, Option.some.injEq, Prod.mk.injEq] at h ⊢
    obtain ⟨⟨m, c1, r1⟩, h1, ⟨ms', c2, r2⟩, h2, rfl, rfl, rfl⟩ := h
    exact ⟨_, step_more h1 t, _, ih h2 t, rfl, rfl⟩

theorem run_length {w : AWire} (ops : List AOp) : ∀ {c c' : ACnt} {bs r : List Byte} {ms : List AMsg}, w.run c ops bs = some (ms, c', r) →
    ms.length = ops.length := by
  induction ops with
  | nil => intro c c' bs r ms h; simp only [AWire.run, Option.some.injEq, Prod.mk.injEq] at h; rw [← h.1]; rfl
  | cons o os ih =>
    intro c c' bs r ms h
    simp only [AWire.run, Option.bind_eq_bind, Option.bind_eq_some_iff, Option.some.injEq, Prod.mk.injEq] at h
    obtain ⟨⟨m, c1, r1⟩, h1, ⟨ms', c2, r2⟩, h2, rfl, rfl, rfl⟩ := h
    rw [List.length_cons, List.length_cons, ih h2]

theorem run_append {w : AWire} (l l' : List AOp) : ∀ {c c' : ACnt} {bs r : List Byte} {ms : List AMsg},
    w.run c (l ++ l') bs = some (ms, c', r) →
    ∃ ms1 c1 r1 ms2, w.run c l bs = some (ms1, c1, r1) ∧ w.run c1 l' r1 = some (ms2, c', r) ∧ ms = ms1 ++ ms2 := by
  induction l with
  | nil => intro c c' bs r ms h; exact ⟨[], c, bs, ms, rfl, h, rfl⟩
  | cons o os ih =>
    intro c c' bs r ms h
    simp only [List.cons_append, AWire.run, Option.bind_eq_bind, Option.bind_eq_some_iff, Option.some.injEq, Prod.mk.injEq] at h
    obtain ⟨⟨m, c1, r1⟩, h1, ⟨ms', c2, r2⟩, h2, rfl, rfl, rfl⟩ := h
    obtain ⟨ms1, c3, r3, ms2, h3, h4, rfl⟩ := ih h2
    refine ⟨m :: ms1, c3, r3, ms2, ?_, h4, rfl⟩
    simp only [AWire.run, Option.bind_eq_bind, h1, Option.bind_some, h3]

/-! ### the messages of a prover process -/

section process
variable {α : Type} (A : Proc α) (v : AView) (expand : U128 → Nat → U128) (ext : Nat → List (Bool × List Byte)) (ops : List AOp) {B Q : Nat}

/-- The verifier comes, under some schedule, to the end of its first `k` instructions, having received the bytes `bs`. -/
def PartTo (ne : ANetEnv) (k : Nat) (V : AVer) (bs : List Byte) : Prop :=
  ∃ n A' pq qp, Duo.Reach n ⟨A, (averPart ne ops k).log [], [], []⟩ ⟨A', .done (V, bs), pq, qp⟩

/-- The messages of the first `k` instructions in the bytes `bs`. -/
def parsePart (w : AWire) (k : Nat) (bs : List Byte) : Option (List AMsg) := do
  let b ← skipExt (w.ext 0) bs
  let x ← w.run ⟨1, 0, 0⟩ (ops.take k) b
  some x.1

variable {A ops}

theorem logged_unique {β γ : Type} {P : Proc β} {P' : Proc γ} {R : β → γ → Prop} (hl : Proc.Like R P P') {n n' : Nat}
    {A1 A2 : Proc α} {V : β} {V' : γ} {bs bs' pq qp pq' qp' : List Byte}
    (h : Duo.Reach n ⟨A, P.log [], [], []⟩ ⟨A1, .done (V, bs), pq, qp⟩)
    (h' : Duo.Reach n' ⟨A, P'.log [], [], []⟩ ⟨A2, .done (V', bs'), pq', qp'⟩) : bs = bs' := by
  obtain ⟨t, h1, h2⟩ := reach_like (fun (x : β × List Byte) (y : γ × List Byte) => R x.1 y.1) h rfl
  rcases h2 (P'.log []) (like_log hl []) with ⟨m, a, k1, k2⟩ | ⟨b', m, a, k1, k2, k3⟩
  · exact (Duo.done_not_fail h' k1 rfl k2).elim
  · have := Duo.done_unique h' k1 rfl k2
    subst this
    have e1 := (on_log _ h1).2
    have e2 := (on_log _ k3).2
    simp only [List.nil_append] at e1 e2
    exact List.append_cancel_right (e1.trans e2.symm)

theorem part_of_run {ne : ANetEnv} {V : AVer} {bs : List Byte} {ms : List AMsg} {fin : AFin} (h : RunsTo A ne ops V bs)
    (hs : ne.wire.session ops bs = some (ms, fin, [])) (k : Nat) :
    ∃ V1 b1, PartTo A ops ne k V1 b1 ∧ parsePart ops ne.wire k b1 = some (ms.take k) := by
  obtain ⟨n, A', pq, qp, h⟩ := h
  rw [averNet_part ne ops k, log_bind] at h
  obtain ⟨n1, ⟨V1, b1⟩, p', pq', qp', h1, n2, h2⟩ := reach_split h rfl rfl
  refine ⟨V1, b1, ⟨n1, p', pq', qp', h1⟩, ?_⟩
  obtain ⟨t1, k1, _⟩ := reach_like (fun _ (_ : Unit) => True) h1 rfl
  obtain ⟨t2, k2, _⟩ := reach_like (fun _ (_ : Unit) => True) h2 rfl
  obtain ⟨j1, j2⟩ := on_log _ k1
  obtain ⟨j3, j4⟩ := on_log _ k2
  simp only [List.nil_append] at j1 j2 j3 j4
  obtain ⟨u, hu, hu'⟩ := on_strip _ j3
  have hb : bs = b1 ++ u := by
    have : bs ++ pq = (b1 ++ u) ++ pq := by rw [j4, List.append_assoc, ← hu]
    exact List.append_cancel_right this
  obtain ⟨u1, hu1, hu1'⟩ := on_strip _ j1
  have hb1 : u1 = b1 := by
    have : u1 ++ pq' = b1 ++ pq' := by rw [← hu1, j2]
    exact List.append_cancel_right this
  subst hb1
  have h5 := hu1' []
  rw [List.append_nil] at h5
  have h5 : Ends (averPart ne ops k) u1 V1 [] := h5
  unfold averPart at h5
  rw [ends_bind] at h5
  obtain ⟨_, r0, h6, h7⟩ := h5
  rw [ends_script] at h6
  rw [ends_run] at h7
  obtain ⟨ms1, h8, _⟩ := h7
  have h6' := skipExt_more _ h6 u
  have h8' := run_more _ h8 u
  simp only [AWire.session, Option.bind_eq_bind, Option.bind_eq_some_iff, Option.some.injEq, Prod.mk.injEq] at hs
  obtain ⟨r, g1, ⟨ms0, c0, r1⟩, g2, y, g3, rfl, rfl, g4⟩ := hs
  rw [hb] at g1
  have e1 : r0 ++ u = r := Option.some.inj (h6'.symm.trans g1)
  subst e1
  rw [← List.take_append_drop k ops] at g2
  obtain ⟨msa, ca, ra, msb, g5, g6, rfl⟩ := run_append _ _ g2
  have g5' := h8'.symm.trans g5
  simp only [Option.some.injEq, Prod.mk.injEq] at g5'
  obtain ⟨rfl, _, _⟩ := g5'
  have hlen := run_length _ h8
  have e2 : ∃ c, ne.wire.run ⟨1, 0, 0⟩ (ops.take k) r0 = some (ms1, c, []) := ⟨_, h8⟩
  obtain ⟨c, e2⟩ := e2
  unfold parsePart
  simp only [Option.bind_eq_bind, Option.bind_eq_some_iff, Option.some.injEq]
  refine ⟨r0, h6, _, e2, ?_⟩
  simp only
  rcases Nat.le_total k ops.length with hk | hk
  · rw [List.take_append_of_le_length (by rw [hlen, List.length_take]; omega), List.take_of_length_le (by rw [hlen, List.length_take]; omega)]
  · have hb0 : msb = [] := by
      have := run_length _ g6
      rw [List.drop_of_length_le hk] at this
      exact List.length_eq_zero_iff.1 this
    rw [hb0, List.append_nil, List.take_of_length_le (by rw [hlen, List.length_take]; omega)]

variable (A ops)

/-- `m` is the message of instruction `k` when the verifier has drawn `σ` and `τ`. -/
def IsMsg (k : Nat) (σ : Fin B → U128) (τ : Fin Q → W) (m : AMsg) : Prop :=
  ∃ w V bs ms, PartTo A ops (v.drawnNet expand ext σ τ w) (k + 1) V bs ∧ parsePart ops (v.wireOf ext) (k + 1) bs = some ms ∧
    ms[k]? = some m

/-- `f` are the messages at the end when the verifier has drawn `σ` and `τ`. -/
def IsFin (σ : Fin B → U128) (τ : Fin Q → W) (f : AFin) : Prop :=
  ∃ w V bs ms, RunsTo A (v.drawnNet expand ext σ τ w) ops V bs ∧ (v.wireOf ext).session ops bs = some (ms, f, [])

open Classical in
noncomputable def msgAt (k : Nat) (σ : Fin B → U128) (τ : Fin Q → W) : AMsg :=
  if h : ∃ m, IsMsg A v expand ext ops k σ τ m then h.choose else ⟨0, 0, 0⟩

open Classical in
noncomputable def famFin (σ : Fin B → U128) (τ : Fin Q → W) : AFin :=
  if h : ∃ m, IsFin A v expand ext ops σ τ m then h.choose else ⟨(0, 0), (0, 0), 0⟩

noncomputable def famMsgs (σ : Fin B → U128) (τ : Fin Q → W) : List AMsg :=
  (List.range ops.length).map fun k => msgAt A v expand ext ops k σ τ

variable {A ops}

theorem drawn_alike (σ : Fin B → U128) (τ : Fin Q → W) (w w' : W) :
    (v.drawnNet expand ext σ τ w).Alike (v.drawnNet expand ext σ τ w') := ⟨rfl, rfl, rfl, rfl, rfl⟩

theorem isMsg_unique {k : Nat} {σ : Fin B → U128} {τ : Fin Q → W} {m m' : AMsg} (h : IsMsg A v expand ext ops k σ τ m)
    (h' : IsMsg A v expand ext ops k σ τ m') : m = m' := by
  obtain ⟨w, V, bs, ms, ⟨n, A1, pq, qp, h1⟩, h2, h3⟩ := h
  obtain ⟨w', V', bs', ms', ⟨n', A2, pq', qp', h1'⟩, h2', h3'⟩ := h'
  obtain rfl := logged_unique (part_like (drawn_alike v expand ext σ τ w w') ops (k + 1)) h1 h1'
  obtain rfl := Option.some.inj (h2.symm.trans h2')
  exact Option.some.inj (h3.symm.trans h3')

theorem msgAt_eq {k : Nat} {σ : Fin B → U128} {τ : Fin Q → W} {m : AMsg} (h : IsMsg A v expand ext ops k σ τ m) :
    msgAt A v expand ext ops k σ τ = m := by
  unfold msgAt
  have hex : ∃ m, IsMsg A v expand ext ops k σ τ m := ⟨m, h⟩
  rw [dif_pos hex]
  exact isMsg_unique v expand ext hex.choose_spec h

theorem famFin_eq {σ : Fin B → U128} {τ : Fin Q → W} {f : AFin} (h : IsFin A v expand ext ops σ τ f) :
    famFin A v expand ext ops σ τ = f := by
  unfold famFin
  have hex : ∃ m, IsFin A v expand ext ops σ τ m := ⟨f, h⟩
  rw [dif_pos hex]
  obtain ⟨w, V, bs, ms, ⟨n, A1, pq, qp, h1⟩, h2⟩ := hex.choose_spec
  obtain ⟨w', V', bs', ms', ⟨n', A2, pq', qp', h1'⟩, h2'⟩ := h
  obtain rfl := logged_unique (like_net (drawn_alike v expand ext σ τ w w') ops) h1 h1'
  have := h2.symm.trans h2'
  simp only [Option.some.injEq, Prod.mk.injEq] at this
  exact this.2.1

/-- A run that returns has processed the messages of the family. -/
theorem fam_of_run {σ : Fin B → U128} {τ : Fin Q → W} {w : W} {V : AVer} {bs : List Byte} {ms : List AMsg} {fin : AFin}
    (h : RunsTo A (v.drawnNet expand ext σ τ w) ops V bs) (hs : (v.wireOf ext).session ops bs = some (ms, fin, [])) :
    ms = famMsgs A v expand ext ops σ τ ∧ fin = famFin A v expand ext ops σ τ ∧
      averSession ((v.drawn expand σ τ).env (fp w)) ops ms fin = some V := by
  have hs' : (v.drawnNet expand ext σ τ w).wire.session ops bs = some (ms, fin, []) := hs
  have hlen : ms.length = ops.length := by
    simp only [AWire.session, Option.bind_eq_bind, Option.bind_eq_some_iff, Option.some.injEq, Prod.mk.injEq] at hs
    obtain ⟨r, g1, ⟨ms0, c0, r1⟩, g2, y, g3, rfl, rfl, g4⟩ := hs
    exact run_length _ g2
  refine ⟨?_, ?_, ?_⟩
  · apply List.ext_getElem
    · simp [famMsgs, hlen]
    · intro k h1 h2
      simp only [famMsgs, List.getElem_map, List.getElem_range]
      symm
      apply msgAt_eq
      obtain ⟨V1, b1, k1, k2⟩ := part_of_run h hs' (k + 1)
      refine ⟨w, V1, b1, _, k1, k2, ?_⟩
      rw [List.getElem?_take_of_lt (by omega), List.getElem?_eq_getElem h1]
  · exact (famFin_eq v expand ext ⟨w, V, bs, ms, h, hs⟩).symm
  · obtain ⟨n, A', pq, qp, h⟩ := h
    obtain ⟨t, k1, _⟩ := reach_like (fun _ (_ : Unit) => True) h rfl
    obtain ⟨j1, j2⟩ := on_log _ k1
    simp only [List.nil_append] at j1 j2
    obtain ⟨u, hu, hu'⟩ := on_strip _ j1
    have hb : u = bs := by
      have : u ++ pq = bs ++ pq := by rw [← hu, j2]
      exact List.append_cancel_right this
    subst hb
    have h5 := hu' []
    rw [List.append_nil] at h5
    obtain ⟨ms', fin', h6, h7⟩ := (ends_session _ ops).1 h5
    have e := hs'.symm.trans h6
    simp only [Option.some.injEq, Prod.mk.injEq] at e
    obtain ⟨rfl, rfl, _⟩ := e
    exact h7

theorem part_congr_mul {σ σ' : Fin B → U128} (τ : Fin Q → W) (w : W) {b k : Nat} (h : ∀ j : Fin B, j.1 < b → σ j = σ' j)
    (hk : mulCount (ops.take k) ≤ (b + 1) * v.checkSz) :
    averPart (v.drawnNet expand ext σ' τ w) ops k = averPart (v.drawnNet expand ext σ τ w) ops k := by
  have e : v.drawnNet expand ext σ' τ w = (v.drawnNet expand ext σ τ w).reseed (fun i => expand (drawAt 0 σ' i)) (drawAt 0 τ) (drawAt 0 σ') := rfl
  unfold averPart
  rw [e, run_reseed (b := b) (q := 0)]
  · rfl
  · refine .inr ⟨fun i hi => drawAt_congr 0 σ' σ b (fun j hj => (h j hj).symm) i hi, ?_⟩
    show 0 * v.checkSz + 0 + mulCount (ops.take k) ≤ (b + 1) * v.checkSz
    omega
  · exact .inl fun _ => rfl

theorem part_congr_poly (σ : Fin B → U128) {τ τ' : Fin Q → W} (w : W) {b k : Nat} (h : ∀ j : Fin Q, j.1 < b → τ j = τ' j)
    (hk : stmtCount (ops.take k) ≤ (b + 1) * v.polySz) :
    averPart (v.drawnNet expand ext σ τ' w) ops k = averPart (v.drawnNet expand ext σ τ w) ops k := by
  have e : v.drawnNet expand ext σ τ' w = (v.drawnNet expand ext σ τ w).reseed (fun i => expand (drawAt 0 σ i)) (drawAt 0 τ') (drawAt 0 σ) := rfl
  unfold averPart
  rw [e, run_reseed (b := 0) (q := b)]
  · rfl
  · exact .inl fun _ => rfl
  · refine .inr ⟨fun i hi => drawAt_congr 0 τ' τ b (fun j hj => (h j hj).symm) i hi, ?_⟩
    show 0 * v.polySz + 0 + stmtCount (ops.take k) ≤ (b + 1) * v.polySz
    omega

theorem msgAt_congr {k : Nat} {σ σ' : Fin B → U128} {τ τ' : Fin Q → W}
    (h : ∀ w, averPart (v.drawnNet expand ext σ' τ' w) ops (k + 1) = averPart (v.drawnNet expand ext σ τ w) ops (k + 1)) :
    msgAt A v expand ext ops k σ τ = msgAt A v expand ext ops k σ' τ' := by
  have e : IsMsg A v expand ext ops k σ τ = IsMsg A v expand ext ops k σ' τ' := by
    funext m
    unfold IsMsg PartTo
    simp only [h]
  unfold msgAt
  rw [e]

variable (A ops)

theorem fam_causal : Causal v ops (famMsgs (B := B) (Q := Q) A v expand ext ops) := by
  constructor
  · intro σ σ' τ b h
    apply List.ext_getElem
    · simp [famMsgs]
    · intro i h1 h2
      simp only [List.length_take, famMsgs, List.length_map, List.length_range] at h1
      simp only [List.getElem_take, famMsgs, List.getElem_map, List.getElem_range]
      refine msgAt_congr v expand ext fun w => part_congr_mul v expand ext τ w h ?_
      have hm := counter_mul.mono ops (show i + 1 ≤ batchEnd mulCount ops v.checkSz b by omega)
      exact hm.trans (lastIdx_spec (fun k => mulCount (ops.take k)) _ _ (counter_mul.zero ops))
  · intro σ τ τ' b h
    apply List.ext_getElem
    · simp [famMsgs]
    · intro i h1 h2
      simp only [List.length_take, famMsgs, List.length_map, List.length_range] at h1
      simp only [List.getElem_take, famMsgs, List.getElem_map, List.getElem_range]
      refine msgAt_congr v expand ext fun w => part_congr_poly v expand ext σ w h ?_
      have hm := counter_stmt.mono ops (show i + 1 ≤ batchEnd stmtCount ops v.polySz b by omega)
      exact hm.trans (lastIdx_spec (fun k => stmtCount (ops.take k)) _ _ (counter_stmt.zero ops))

end process

end EmpZk
