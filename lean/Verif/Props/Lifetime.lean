import Verif.Lemmas.LifetimeInv
/-!
C60: lifetimes of sessions. C71: what the verdict of a session covers.
-/
namespace EmpZk

/-- The calls of test/arith/abconversion.cpp (finalisation in that order), then an arithmetic session without conversions. -/
def twoSessions : List LEv :=
  [.setupBool, .setupArith true, .convOp, .finBool true false 0 0, .finArith true false 0, .setupArith false, .arithOp 0,
    .finArith true false 0]

/-- C60. For every allowed history of calls, at either party: the execution is undefined exactly when an arithmetic session without
conversions is closed after one with conversions had been opened (`EdaBits::conv` is deleted again); otherwise it is defined. -/
theorem C60_undefined_iff (al : Bool) (es : List LEv) (s : LSess) (h : LSess.init.run es = some s) :
    (lRun al es LSt.init = .error .ub ↔ closesPlainAfterConv LSess.init es = true) ∧
    ((∃ σ, lRun al es LSt.init = .ok σ) ↔ closesPlainAfterConv LSess.init es = false) := by
  obtain ⟨h1, h2⟩ := LInv.run (LInv.init al) h
  cases hc : closesPlainAfterConv LSess.init es with
  | true =>
    rw [h1 hc]
    simp
  | false =>
    obtain ⟨σ, _, _, _, h3, _⟩ := h2 hc
    rw [h3]
    simp

/-- C60 is false of the code: an allowed history that deletes an object twice, at both parties. -/
theorem C60_false : ∃ es s, LSess.init.run es = some s ∧ ∀ al, lRun al es LSt.init = .error .ub := by
  have h : LSess.init.run twoSessions = some ⟨false, true, none, true, 2⟩ := rfl
  exact ⟨twoSessions, _, h, fun al => (C60_undefined_iff al twoSessions _ h).1.2 (by decide)⟩

/-- C60 (what is left in memory). After every allowed and defined history with all sessions closed, the objects left are exactly the
thread pools of the arithmetic sessions, one for each: `~FpOSTriple` does not delete its pool. -/
theorem C60_left_behind (al : Bool) (es : List LEv) (s : LSess) (h : LSess.init.run es = some s) (σ : LSt)
    (hr : lRun al es LSt.init = .ok σ) (hb : s.bool = false) (ha : s.arith = none) :
    ∃ lk : List Nat, lk.Nodup ∧ lk.length = s.done ∧ ∀ x o, σ.heap x = some o ↔ x ∈ lk ∧ o = ⟨.fpPool, []⟩ := by
  obtain ⟨_, h2⟩ := LInv.run (LInv.init al) h
  obtain ⟨σ', b, a, lk, h3, hI, _⟩ := h2 ((C60_undefined_iff al es s h).2.1 ⟨σ, hr⟩)
  rw [hr, Except.ok.injEq] at h3
  subst h3
  refine ⟨lk, hI.leak.1, hI.leak.2.1, ?_⟩
  intro x o
  constructor
  · intro hx
    rcases hI.live x o hx with h | ⟨c, h, _⟩ | h
    · rw [hb] at h; simp at h
    · rw [ha] at h; simp at h
    · refine ⟨h, ?_⟩
      have := (hI.leak.2.2 x h).1
      rw [hx, Option.some.injEq] at this
      exact this
  · rintro ⟨h, rfl⟩
    exact (hI.leak.2.2 x h).1

/-- Hence one arithmetic session already leaves an object behind. -/
theorem C60_leak_false : ∃ es s σ x o, LSess.init.run es = some s ∧ s.bool = false ∧ s.arith = none ∧
    lRun true es LSt.init = .ok σ ∧ σ.heap x = some o := by
  have h : LSess.init.run [.setupArith false, .arithOp 0, .finArith true false 0] = some ⟨false, false, none, false, 1⟩ := rfl
  obtain ⟨σ, hσ⟩ := (C60_undefined_iff true _ _ h).2.2 (by decide)
  obtain ⟨lk, _, h2, h3⟩ := C60_left_behind true _ _ h σ hσ rfl rfl
  obtain ⟨x, hx⟩ := List.exists_mem_of_length_pos (l := lk) (by rw [h2]; decide)
  exact ⟨_, _, σ, x, _, h, rfl, rfl, hσ, (h3 x ⟨.fpPool, []⟩).2 ⟨hx, rfl⟩⟩

theorem plain_no_close : ∀ (es : List LEv) (s s' : LSess), s.run es = some s' → s.seen = false → (∀ e ∈ es, e ≠ .setupArith true) →
    closesPlainAfterConv s es = false
  | [], _, _, _, _, _ => rfl
  | e :: es, s, s', h, hs, he => by
    simp only [LSess.run] at h
    obtain ⟨s1, h1, h2⟩ := Option.bind_eq_some_iff.1 h
    have hseen : s1.seen = false := by
      cases e with
      | setupArith c =>
        have hc : c = false := by
          cases c
          · rfl
          · exact absurd rfl (he _ List.mem_cons_self)
        subst hc
        simp only [LSess.step] at h1
        split at h1
        · simp at h1
        · simp only [Option.some.injEq] at h1
          rw [← h1]
          simp [hs]
      | _ =>
        simp only [LSess.step] at h1
        split at h1
        all_goals first
          | (simp only [Option.some.injEq] at h1; rw [← h1]; exact hs)
          | simp at h1
    have ih := plain_no_close es s1 s' h2 hseen (fun e' h' => he e' (List.mem_cons_of_mem _ h'))
    cases e <;> simp [closesPlainAfterConv, h1, ih, hs]

theorem conv_no_close : ∀ (es : List LEv) (s s' : LSess), s.run es = some s' → s.arith ≠ some false → (∀ e ∈ es, e ≠ .setupArith false) →
    closesPlainAfterConv s es = false
  | [], _, _, _, _, _ => rfl
  | e :: es, s, s', h, hs, he => by
    simp only [LSess.run] at h
    obtain ⟨s1, h1, h2⟩ := Option.bind_eq_some_iff.1 h
    have hseen : s1.arith ≠ some false := by
      cases e with
      | setupArith c =>
        have hc : c = true := by
          cases c
          · exact absurd rfl (he _ List.mem_cons_self)
          · rfl
        subst hc
        simp only [LSess.step] at h1
        split at h1
        · simp at h1
        · simp only [Option.some.injEq] at h1
          rw [← h1]
          simp
      | finArith _ _ _ =>
        simp only [LSess.step] at h1
        split at h1
        · simp only [Option.some.injEq] at h1
          rw [← h1]
          simp
        · simp at h1
      | _ =>
        simp only [LSess.step] at h1
        split at h1
        all_goals first
          | (simp only [Option.some.injEq] at h1; rw [← h1]; exact hs)
          | simp at h1
    have ih := conv_no_close es s1 s' h2 hseen (fun e' h' => he e' (List.mem_cons_of_mem _ h'))
    cases e <;> simp [closesPlainAfterConv, h1, ih, hs]

/-- C60, the part that holds (the full statement has no restriction on conversions and leaves nothing in memory): allowed histories in
which no arithmetic session, or every arithmetic session, has conversions are defined, and when all sessions are closed everything is
freed (deletion twice would be undefined) except one thread pool for each arithmetic session; without arithmetic sessions everything
is freed. -/
theorem C60_partial (al : Bool) (es : List LEv) (s : LSess) (h : LSess.init.run es = some s)
    (hc : (∀ e ∈ es, e ≠ .setupArith true) ∨ (∀ e ∈ es, e ≠ .setupArith false)) :
    ∃ σ, lRun al es LSt.init = .ok σ ∧ (s.bool = false → s.arith = none →
      (∃ lk : List Nat, lk.Nodup ∧ lk.length = s.done ∧ ∀ x o, σ.heap x = some o ↔ x ∈ lk ∧ o = ⟨.fpPool, []⟩) ∧
      (s.done = 0 → ∀ x, σ.heap x = none)) := by
  have hn : closesPlainAfterConv LSess.init es = false := by
    rcases hc with hc | hc
    · exact plain_no_close es _ s h rfl hc
    · exact conv_no_close es _ s h (by simp [LSess.init]) hc
  obtain ⟨σ, hσ⟩ := (C60_undefined_iff al es s h).2.2 hn
  refine ⟨σ, hσ, fun hb ha => ?_⟩
  obtain ⟨lk, l1, l2, l3⟩ := C60_left_behind al es s h σ hσ hb ha
  refine ⟨⟨lk, l1, l2, l3⟩, fun hd x => ?_⟩
  cases hx : σ.heap x with
  | none => rfl
  | some o =>
    have := ((l3 x o).1 hx).1
    rw [hd] at l2
    rw [List.length_eq_zero_iff.1 l2] at this
    simp at this

/-- Two boolean sessions one after the other. -/
example : ∃ σ, lRun true [.setupBool, .boolOp 0, .finBool true true 0 0, .setupBool, .boolOp 1, .finBool true false 0 0] LSt.init = .ok σ ∧
    ∀ x, σ.heap x = none := by
  obtain ⟨σ, h1, h2⟩ := C60_partial true [.setupBool, .boolOp 0, .finBool true true 0 0, .setupBool, .boolOp 1, .finBool true false 0 0]
    ⟨false, true, none, false, 0⟩ rfl (Or.inl (by simp))
  exact ⟨σ, h1, (h2 rfl rfl).2 rfl⟩

/-- C60 (dangling pointers). After an allowed and defined history no global pointer of a closed session is null: each points to a deleted
object. -/
theorem C60_dangling (al : Bool) (es : List LEv) (s : LSess) (h : LSess.init.run es = some s) (σ : LSt)
    (hr : lRun al es LSt.init = .ok σ) :
    (s.bool = false → s.everB = true → ∃ x y, σ.circ = some x ∧ σ.prot = some y ∧ σ.heap x = none ∧ σ.heap y = none) ∧
    (s.arith = none → 0 < s.done → ∃ x y, σ.zk = some x ∧ σ.fppoly = some y ∧ σ.heap x = none ∧ σ.heap y = none) ∧
    (s.arith = none → s.seen = true → ∃ x, σ.conv = some x ∧ σ.heap x = none) := by
  obtain ⟨_, h2⟩ := LInv.run (LInv.init al) h
  obtain ⟨σ', b, a, lk, h3, hI, _⟩ := h2 ((C60_undefined_iff al es s h).2.1 ⟨σ, hr⟩)
  rw [hr, Except.ok.injEq] at h3
  subst h3
  refine ⟨fun h1 h2 => ?_, fun h1 h2 => ?_, fun h1 h2 => ?_⟩
  · obtain ⟨x, y, k1, k2, k3, k4, _⟩ := hI.bClosed h1 h2
    exact ⟨x, y, k1, k2, k3, k4⟩
  · obtain ⟨x, y, k1, k2, k3, k4, _⟩ := hI.aClosed h1 h2
    exact ⟨x, y, k1, k2, k3, k4⟩
  · obtain ⟨x, k1, k2, _⟩ := hI.stale (by rw [h1]; simp) h2
    exact ⟨x, k1, k2⟩

example : ∃ σ x, lRun false [.setupBool, .finBool true true 0 0] LSt.init = .ok σ ∧ σ.circ = some x ∧ σ.heap x = none := by
  obtain ⟨σ, h1, _⟩ := C60_partial false [.setupBool, .finBool true true 0 0] ⟨false, true, none, false, 0⟩ rfl (Or.inl (by simp))
  obtain ⟨x, y, k1, _, k3, _⟩ := (C60_dangling false _ _ rfl σ h1).1 rfl rfl
  exact ⟨σ, x, h1, k1, k3⟩

theorem lGet_add_dead {s : LSt} {h : Nat → Option LObj} {n p : Nat} {L : List LObj} (hh : h p = none) (hp : p < n) :
    lGet p (s.add h n L) = .error .ub := by
  have : (s.add h n L).heap p = none := (putSeg_out (Or.inl hp)).trans hh
  rw [lGet, this]

/-- C60 (the guard of `setup_zk_arith`). After an allowed and defined history with no arithmetic session open and no boolean session open,
asking for conversions ends with the error message only if there never was a boolean session; if there was one, the guard passes and the
execution is undefined. -/
theorem C60_guard (al : Bool) (es : List LEv) (s : LSess) (h : LSess.init.run es = some s) (σ : LSt)
    (hr : lRun al es LSt.init = .ok σ) (hb : s.bool = false) :
    setupArith al true σ = .error (if s.everB then .ub else .exit) := by
  obtain ⟨_, h2⟩ := LInv.run (LInv.init al) h
  obtain ⟨σ', b, a, lk, h3, hI, _⟩ := h2 ((C60_undefined_iff al es s h).2.1 ⟨σ, hr⟩)
  rw [hr, Except.ok.injEq] at h3
  subst h3
  cases he : s.everB with
  | false =>
    obtain ⟨_, k, _⟩ := hI.bNever he
    simp only [setupArith, lbind, lget, ebind_ok, k, if_true, lthrow, ebind_err, Bool.false_eq_true, if_false]
  | true =>
    obtain ⟨x, y, k1, k2, k3, k4, k5, k6⟩ := hI.bClosed hb he
    conv_lhs => rw [LSt.add_nil σ]
    cases al
    all_goals
      lrun [setupArith, newFpTriple, newFpPoly, newEda, pubFeed, k1, k2, lGet_add_dead k4 k6, ebind_err, reduceCtorEq]

example : ∃ σ, lRun true [.setupBool, .finBool false false 0 0] LSt.init = .ok σ ∧ setupArith true true σ = .error .ub := by
  obtain ⟨σ, h1, _⟩ := C60_partial true [.setupBool, .finBool false false 0 0] ⟨false, true, none, false, 0⟩ rfl (Or.inl (by simp))
  exact ⟨σ, h1, C60_guard true _ ⟨false, true, none, false, 0⟩ rfl σ h1 rfl⟩

/-! ### C71 -/

/-- C71. For every allowed and defined history, the values returned by `finalize_zk_bool` are the expected verdicts: was a message
recorded since the `setup_zk_bool` of that session? -/
theorem C71_verdicts (al : Bool) (es : List LEv) (s : LSess) (h : LSess.init.run es = some s) (σ : LSt)
    (hr : lRun al es LSt.init = .ok σ) : σ.rets = verdicts 0 es := by
  obtain ⟨_, h2⟩ := LInv.run (LInv.init al) h
  obtain ⟨σ', b, a, lk, h3, _, hl⟩ := h2 ((C60_undefined_iff al es s h).2.1 ⟨σ, hr⟩)
  rw [hr, Except.ok.injEq] at h3
  subst h3
  have := congrArg Prod.snd hl
  simp only at this
  rw [this, logRun_verdicts]
  rfl

/-- A failed boolean check is reported, and not again for the next session. -/
example : ∃ σ, lRun false [.setupBool, .boolOp 1, .finBool true true 0 0, .setupBool, .boolOp 0, .finBool true true 0 0] LSt.init = .ok σ ∧
    σ.rets = [true, false] := by
  obtain ⟨σ, h1, _⟩ := C60_partial false [.setupBool, .boolOp 1, .finBool true true 0 0, .setupBool, .boolOp 0, .finBool true true 0 0]
    ⟨false, true, none, false, 0⟩ rfl (Or.inl (by simp))
  exact ⟨σ, h1, C71_verdicts false _ _ rfl σ h1⟩

/-- C71 is false of the code: an allowed history with one failed polynomial proof in the arithmetic session, finalised in the order of
test/arith/abconversion.cpp, whose only verdict says that nobody cheated. -/
theorem C71_false : ∃ es s, LSess.init.run es = some s ∧ s.bool = false ∧ s.arith = none ∧ (∃ e ∈ es, e.cheats ≠ 0) ∧
    ∀ al, ∃ σ, lRun al es LSt.init = .ok σ ∧ σ.rets = [false] := by
  have h : LSess.init.run [.setupBool, .setupArith true, .arithOp 0, .convOp, .finBool true false 0 0, .finArith true true 1] =
    some ⟨false, true, none, true, 1⟩ := rfl
  refine ⟨_, _, h, rfl, rfl, ⟨.finArith true true 1, by simp, by decide⟩, fun al => ?_⟩
  obtain ⟨σ, hσ⟩ := (C60_undefined_iff al _ _ h).2.2 (by decide)
  exact ⟨σ, hσ, C71_verdicts al _ _ h σ hσ⟩

/-- Every message is recorded while a boolean session is open (or by its `finalize_zk_bool`). -/
def cheatsInside : LSess → List LEv → Prop
  | _, [] => True
  | s, e :: es => (e.cheats = 0 ∨ s.bool = true) ∧ ∀ s', s.step e = some s' → cheatsInside s' es

theorem or_swap_in {A B C : Prop} : A ∨ B ∨ C ↔ (B ∨ A) ∨ C := by
  rw [← or_assoc, or_comm (a := A)]

theorem verdicts_mem : ∀ (es : List LEv) (m : Nat) (s s' : LSess), s.run es = some s' → s'.bool = false → cheatsInside s es →
    (true ∈ verdicts m es ↔ (∃ e ∈ es, e.cheats ≠ 0) ∨ (s.bool = true ∧ m ≠ 0))
  | [], m, s, s', h, hb, _ => by
    simp only [LSess.run, Option.some.injEq] at h
    rw [h, hb]
    simp [verdicts]
  | e :: es, m, s, s', h, hb, hc => by
    simp only [LSess.run] at h
    obtain ⟨s1, h1, h2⟩ := Option.bind_eq_some_iff.1 h
    obtain ⟨hc1, hc2⟩ := hc
    have ih := fun m => verdicts_mem es m s1 s' h2 hb (hc2 s1 h1)
    cases e with
    | setupBool =>
      simp only [LSess.step] at h1
      split at h1
      · simp at h1
      next hbf =>
      rw [verdicts, ih 0]
      simp [LEv.cheats, hbf]
    | finBool a p nA nP =>
      simp only [LSess.step] at h1
      split at h1
      next hbt =>
        simp only [Option.some.injEq] at h1
        have hs1 : s1.bool = false := by rw [← h1]
        rw [verdicts, List.mem_cons, ih, hs1, hbt]
        simp only [Bool.false_eq_true, false_and, or_false, List.mem_cons, exists_eq_or_imp, true_and]
        rw [eq_comm, decide_eq_true_eq]
        have : (m + (LEv.finBool a p nA nP).cheats ≠ 0) ↔ ((LEv.finBool a p nA nP).cheats ≠ 0 ∨ m ≠ 0) := by omega
        rw [this]
        exact or_right_comm
      · simp at h1
    | boolOp n =>
      simp only [LSess.step] at h1
      split at h1
      next hbt =>
        simp only [Option.some.injEq] at h1
        have hs1 : s1.bool = true := by rw [← h1]; exact hbt
        rw [verdicts, ih, hs1, hbt]
        simp only [List.mem_cons, exists_eq_or_imp, true_and]
        have : (m + (LEv.boolOp n).cheats ≠ 0) ↔ ((LEv.boolOp n).cheats ≠ 0 ∨ m ≠ 0) := by omega
        rw [this]
        exact or_swap_in
        all_goals simp
      · simp at h1
    | arithOp n =>
      have hs1 : s1.bool = s.bool := by
        simp only [LSess.step] at h1
        split at h1
        · simp only [Option.some.injEq] at h1
          rw [← h1]
        · simp at h1
      rw [verdicts, ih, hs1]
      · simp only [List.mem_cons, exists_eq_or_imp]
        have : (m + (LEv.arithOp n).cheats ≠ 0) ↔ ((LEv.arithOp n).cheats ≠ 0 ∨ m ≠ 0) := by omega
        rw [this]
        rcases hc1 with h0 | h0
        · rw [h0]; simp
        · rw [h0]; simp only [true_and]; exact or_swap_in
      all_goals simp
    | finArith a p n =>
      have hs1 : s1.bool = s.bool := by
        simp only [LSess.step] at h1
        split at h1
        · simp only [Option.some.injEq] at h1
          rw [← h1]
        · simp at h1
      rw [verdicts, ih, hs1]
      · simp only [List.mem_cons, exists_eq_or_imp]
        have : (m + (LEv.finArith a p n).cheats ≠ 0) ↔ ((LEv.finArith a p n).cheats ≠ 0 ∨ m ≠ 0) := by omega
        rw [this]
        rcases hc1 with h0 | h0
        · rw [h0]; simp
        · rw [h0]; simp only [true_and]; exact or_swap_in
      all_goals simp
    | setupArith c =>
      have hs1 : s1.bool = s.bool := by
        simp only [LSess.step] at h1
        split at h1
        · simp at h1
        · simp only [Option.some.injEq] at h1
          rw [← h1]
      rw [verdicts, ih, hs1]
      · simp [LEv.cheats]
      all_goals simp
    | convOp =>
      have hs1 : s1.bool = s.bool := by
        simp only [LSess.step] at h1
        split at h1
        · simp only [Option.some.injEq] at h1
          rw [← h1]
        · simp at h1
      rw [verdicts, ih, hs1]
      · simp [LEv.cheats]
      all_goals simp

/-- C71, the part that holds (the full statement has no restriction on the order): for every allowed and defined history that ends with the
boolean session closed and in which every message is recorded while a boolean session is open, some verdict is "cheated" if and only if a
message was recorded. -/
theorem C71_partial (al : Bool) (es : List LEv) (s : LSess) (h : LSess.init.run es = some s) (σ : LSt)
    (hr : lRun al es LSt.init = .ok σ) (hb : s.bool = false) (hi : cheatsInside LSess.init es) :
    true ∈ σ.rets ↔ ∃ e ∈ es, e.cheats ≠ 0 := by
  rw [C71_verdicts al es s h σ hr, verdicts_mem es 0 _ s h hb hi]
  simp [LSess.init]

/-- The arithmetic session closed first. -/
example : ∃ σ, lRun false [.setupBool, .setupArith true, .finArith true true 1, .finBool true true 0 0] LSt.init = .ok σ ∧
    true ∈ σ.rets := by
  obtain ⟨σ, h1, _⟩ := C60_partial false [.setupBool, .setupArith true, .finArith true true 1, .finBool true true 0 0]
    ⟨false, true, none, true, 1⟩ rfl (Or.inr (by simp))
  refine ⟨σ, h1, (C71_partial false _ _ rfl σ h1 rfl ?_).2 ⟨.finArith true true 1, by simp, by decide⟩⟩
  simp [cheatsInside, LSess.init, LSess.step, LEv.cheats]

end EmpZk
