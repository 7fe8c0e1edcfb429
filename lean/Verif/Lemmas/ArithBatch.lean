/-
Batched calls of the arithmetic protocol against single calls.
-/
import Verif.Lemmas.ArithLike
import Verif.Lemmas.ArithNet
import Verif.Spec.ArithBatch

namespace EmpZk

theorem voleMany_succ (f : Nat → U128) (n len : Nat) : voleMany f n (len + 1) = f n :: voleMany f (n + 1) len := by
  unfold voleMany
  rw [List.range_succ_eq_map, List.map_cons, List.map_map]
  congr 1
  apply List.map_congr_left
  intro i _
  show f (n + (i + 1)) = f (n + 1 + i)
  congr 1; omega

theorem voleMany_length (f : Nat → U128) (n len : Nat) : (voleMany f n len).length = len := by simp [voleMany]

/-! ### Prover -/

theorem aprvRun_inputs (e : AEnv) (ws : List W) : ∀ s : APrv, aprvRun e s (ws.map .input) =
    some ({ s with wires := s.wires ++ (List.zipWith feedA (voleMany e.cor s.used ws.length) ws).map Prod.fst,
                   used := s.used + ws.length },
      ((List.zipWith feedA (voleMany e.cor s.used ws.length) ws).map Prod.snd).map AMsg.ofW) := by
  induction ws with
  | nil => intro s; simp [aprvRun]
  | cons w ws ih =>
    intro s
    simp only [List.map_cons, aprvRun, aprvStep, Option.bind_eq_bind, Option.bind_some, ih, List.length_cons, voleMany_succ,
      List.zipWith_cons_cons, List.append_assoc, List.singleton_append]
    rw [show s.used + 1 + ws.length = s.used + (ws.length + 1) by omega]
    rfl

theorem aprvRun_reveals (e : AEnv) (is : List Nat) : ∀ s : APrv, aprvRun e s (is.map .reveal) =
    (is.mapM fun i => s.wires[i]?).map fun ls =>
      ({ s with outs := s.outs ++ ls.map high64, stored := s.stored ++ ls.map low64 }, (ls.map high64).map AMsg.ofW) := by
  induction is with
  | nil => intro s; simp [aprvRun]
  | cons i is ih =>
    intro s
    simp only [List.map_cons, aprvRun, aprvStep, Option.bind_eq_bind, List.mapM_cons]
    cases h : s.wires[i]? with
    | none => rfl
    | some a =>
      simp only [Option.bind_some, ih]
      cases k : is.mapM (fun i => s.wires[i]?) with
      | none => rfl
      | some ls => simp [AMsg.ofW]

theorem aprvRun_checks (e : AEnv) (is : List (Nat × W)) : ∀ s : APrv, aprvRun e s (is.map fun p => .revealCheck p.1 p.2) =
    (is.mapM fun p => s.wires[p.1]?).map fun ls =>
      ({ s with stored := s.stored ++ ls.map low64 }, (ls.map high64).map AMsg.ofW) := by
  induction is with
  | nil => intro s; simp [aprvRun]
  | cons i is ih =>
    intro s
    simp only [List.map_cons, aprvRun, aprvStep, Option.bind_eq_bind, List.mapM_cons]
    cases h : s.wires[i.1]? with
    | none => rfl
    | some a =>
      simp only [Option.bind_some, ih]
      cases k : is.mapM (fun p => s.wires[p.1]?) with
      | none => rfl
      | some ls => simp [AMsg.ofW]

theorem aprvRun_zeros (e : AEnv) (is : List Nat) : ∀ s : APrv, aprvRun e s (is.map .revealZero) =
    (is.mapM fun i => s.wires[i]?).map fun ls =>
      ({ s with stored := s.stored ++ ls.map low64 }, is.map fun _ => AMsg.ofW 0) := by
  induction is with
  | nil => intro s; simp [aprvRun]
  | cons i is ih =>
    intro s
    simp only [List.map_cons, aprvRun, aprvStep, Option.bind_eq_bind, List.mapM_cons]
    cases h : s.wires[i]? with
    | none => rfl
    | some a =>
      simp only [Option.bind_some, ih]
      cases k : is.mapM (fun i => s.wires[i]?) with
      | none => rfl
      | some ls => simp [AMsg.ofW]

theorem mapM_opt_length {α β : Type} {f : α → Option β} {l : List α} : ∀ {r : List β}, l.mapM f = some r → r.length = l.length := by
  induction l with
  | nil => intro r h; simp at h; subst h; rfl
  | cons a l ih =>
    intro r h
    simp only [List.mapM_cons, Option.bind_eq_bind, Option.bind_eq_some_iff, Option.pure_def, Option.some.injEq] at h
    obtain ⟨b, _, r', h2, rfl⟩ := h
    simp [ih h2]

theorem aprvCall_run (e : AEnv) (s : APrv) (c : ACall) :
    ((aprvCall e s c).bind fun r => (c.flat r.2).map fun ms => (r.1, ms)) = aprvRun e s c.ops := by
  cases c with
  | one o =>
    simp only [aprvCall, ACall.ops, aprvRun, Option.bind_eq_bind]
    cases aprvStep e s o with
    | none => rfl
    | some r => rfl
  | feed ws =>
    simp only [aprvCall, ACall.ops, aprvRun_inputs, Option.bind_some, ACall.flat]
    rw [if_pos (by simp [voleMany_length])]
    rfl
  | reveal is =>
    simp only [aprvCall, ACall.ops, aprvRun_reveals, Option.bind_eq_bind]
    cases h : is.mapM (fun i => s.wires[i]?) with
    | none => rfl
    | some ls =>
      simp only [Option.bind_some, ACall.flat]
      rw [if_pos (by rw [List.length_map, mapM_opt_length h])]
      rfl
  | check is =>
    simp only [aprvCall, ACall.ops, aprvRun_checks, Option.bind_eq_bind]
    cases h : is.mapM (fun p => s.wires[p.1]?) with
    | none => rfl
    | some ls =>
      simp only [Option.bind_some, ACall.flat]
      rw [if_pos (by rw [List.length_map, mapM_opt_length h])]
      rfl
  | zero is =>
    simp only [aprvCall, ACall.ops, aprvRun_zeros, Option.bind_eq_bind]
    cases h : is.mapM (fun i => s.wires[i]?) with
    | none => rfl
    | some ls => rfl

theorem aprvRun_append (e : AEnv) (l : List AOp) : ∀ (s : APrv) (l' : List AOp), aprvRun e s (l ++ l') =
    (aprvRun e s l).bind fun r => (aprvRun e r.1 l').map fun q => (q.1, r.2 ++ q.2) := by
  induction l with
  | nil => intro s l'; simp [aprvRun]
  | cons o l ih =>
    intro s l'
    simp only [List.cons_append, aprvRun, Option.bind_eq_bind]
    cases aprvStep e s o with
    | none => rfl
    | some r =>
      simp only [Option.bind_some, ih]
      cases aprvRun e r.1 l with
      | none => rfl
      | some q =>
        simp only [Option.bind_some]
        cases aprvRun e q.1 l' with
        | none => rfl
        | some t => rfl

theorem aprvCalls_run (e : AEnv) (cs : List ACall) : ∀ s : APrv,
    ((aprvCalls e s cs).bind fun r => (flatCalls cs r.2).map fun ms => (r.1, ms)) = aprvRun e s (callOps cs) := by
  induction cs with
  | nil => intro s; rfl
  | cons c cs ih =>
    intro s
    have hc : callOps (c :: cs) = c.ops ++ callOps cs := rfl
    rw [hc, aprvRun_append, ← aprvCall_run]
    simp only [aprvCalls, Option.bind_eq_bind]
    cases aprvCall e s c with
    | none => rfl
    | some r =>
      simp only [Option.bind_some]
      cases h1 : c.flat r.2 with
      | none =>
        cases aprvCalls e r.1 cs with
        | none => rfl
        | some q => simp [flatCalls, h1]
      | some x =>
        simp only [Option.map_some, Option.bind_some]
        rw [← ih]
        cases aprvCalls e r.1 cs with
        | none => rfl
        | some q =>
          simp only [Option.bind_some, flatCalls, h1, Option.bind_eq_bind]
          cases flatCalls cs q.2 with
          | none => rfl
          | some y => rfl

/-! ### Verifier -/

theorem averRun_inputs (e : AEnv) (ws : List W) : ∀ (s : AVer) (xs : List W), averRun e s (ws.map .input) (xs.map AMsg.ofW) =
    if xs.length = ws.length then
      some { s with wires := s.wires ++ List.zipWith (feedB e.delta) (voleMany e.keyU s.used ws.length) xs, used := s.used + ws.length }
    else none := by
  induction ws with
  | nil =>
    intro s xs
    cases xs with
    | nil => simp [averRun]
    | cons x xs => simp [averRun]
  | cons w ws ih =>
    intro s xs
    cases xs with
    | nil => simp [averRun]
    | cons x xs =>
      simp only [List.map_cons, averRun, averStep, Option.bind_eq_bind, Option.bind_some, ih, List.length_cons, voleMany_succ,
        List.zipWith_cons_cons, List.append_assoc, List.singleton_append, Nat.add_right_cancel_iff]
      rw [show s.used + 1 + ws.length = s.used + (ws.length + 1) by omega]
      rfl

theorem averRun_reveals (e : AEnv) (is : List Nat) : ∀ (s : AVer) (xs : List W), averRun e s (is.map .reveal) (xs.map AMsg.ofW) =
    if xs.length = is.length then
      (is.mapM fun i => s.wires[i]?).map fun ls =>
        { s with outs := s.outs ++ xs, stored := s.stored ++ List.zipWith (openB e.delta) xs ls }
    else none := by
  induction is with
  | nil =>
    intro s xs
    cases xs with
    | nil => simp [averRun]
    | cons x xs => simp [averRun]
  | cons i is ih =>
    intro s xs
    cases xs with
    | nil => simp [averRun]
    | cons x xs =>
      simp only [List.map_cons, averRun, averStep, Option.bind_eq_bind, List.mapM_cons, List.length_cons, Nat.add_right_cancel_iff]
      cases h : s.wires[i]? with
      | none => simp
      | some a =>
        simp only [Option.bind_some, ih]
        split
        · cases k : is.mapM (fun i => s.wires[i]?) with
          | none => rfl
          | some ls => simp [AMsg.ofW]
        · rfl

theorem averRun_checks (e : AEnv) (is : List (Nat × W)) : ∀ (s : AVer) (xs : List W),
    averRun e s (is.map fun p => .revealCheck p.1 p.2) (xs.map AMsg.ofW) =
    if xs.length = is.length then
      (is.mapM fun p => s.wires[p.1]?).map fun ls =>
        { s with
          stored := s.stored ++ List.zipWith (openB e.delta) xs ls, aborted := s.aborted || !(is.map Prod.snd == xs),
          expLog := s.expLog ++ List.zip (is.map Prod.snd) xs }
    else none := by
  induction is with
  | nil =>
    intro s xs
    cases xs with
    | nil => simp [averRun]
    | cons x xs => simp [averRun]
  | cons i is ih =>
    intro s xs
    cases xs with
    | nil => simp [averRun]
    | cons x xs =>
      simp only [List.map_cons, averRun, averStep, Option.bind_eq_bind, List.mapM_cons, List.length_cons, Nat.add_right_cancel_iff]
      cases h : s.wires[i.1]? with
      | none => simp
      | some a =>
        simp only [Option.bind_some, ih]
        split
        · cases k : is.mapM (fun p => s.wires[p.1]?) with
          | none => rfl
          | some ls => simp [AMsg.ofW, Bool.or_assoc, Bool.not_and]
        · rfl

theorem averRun_zeros (e : AEnv) (is : List Nat) : ∀ (s : AVer), averRun e s (is.map .revealZero) (is.map fun _ => AMsg.ofW 0) =
    (is.mapM fun i => s.wires[i]?).map fun ls => { s with stored := s.stored ++ ls.map low64 } := by
  induction is with
  | nil => intro s; simp [averRun]
  | cons i is ih =>
    intro s
    simp only [List.map_cons, averRun, averStep, Option.bind_eq_bind, List.mapM_cons]
    cases h : s.wires[i]? with
    | none => rfl
    | some a =>
      simp only [Option.bind_some, ih]
      cases k : is.mapM (fun i => s.wires[i]?) with
      | none => rfl
      | some ls => simp

theorem averCall_run (e : AEnv) (s : AVer) (c : ACall) (m : ACallMsg) : averCall e s m c = (c.flat m).bind (averRun e s c.ops) := by
  cases c with
  | one o =>
    cases m with
    | words xs => rfl
    | one m =>
      simp only [averCall, ACall.flat, ACall.ops, Option.bind_some, averRun, Option.bind_eq_bind]
      cases averStep e s m o <;> rfl
  | feed ws =>
    cases m with
    | one m => rfl
    | words xs =>
      simp only [averCall, ACall.flat, ACall.ops]
      split
      · next h => rw [Option.bind_some, averRun_inputs, if_pos h]
      · rfl
  | reveal is =>
    cases m with
    | one m => rfl
    | words xs =>
      simp only [averCall, ACall.flat, ACall.ops]
      split
      · next h =>
        rw [Option.bind_some, averRun_reveals, if_pos h]
        cases is.mapM (fun i => s.wires[i]?) <;> rfl
      · rfl
  | check is =>
    cases m with
    | one m => rfl
    | words xs =>
      simp only [averCall, ACall.flat, ACall.ops]
      split
      · next h =>
        rw [Option.bind_some, averRun_checks, if_pos h]
        cases is.mapM (fun p => s.wires[p.1]?) <;> rfl
      · rfl
  | zero is =>
    cases m with
    | one m => rfl
    | words xs =>
      simp only [averCall, ACall.flat, ACall.ops]
      split
      · next h =>
        rw [Option.bind_some, averRun_zeros]
        cases is.mapM (fun i => s.wires[i]?) <;> rfl
      · rfl

theorem averRun_append (e : AEnv) (l : List AOp) : ∀ (s : AVer) (l' : List AOp) (ms ms' : List AMsg), ms.length = l.length →
    averRun e s (l ++ l') (ms ++ ms') = (averRun e s l ms).bind fun s' => averRun e s' l' ms' := by
  induction l with
  | nil =>
    intro s l' ms ms' h
    rw [List.length_nil, List.length_eq_zero_iff] at h
    subst h
    simp [averRun]
  | cons o l ih =>
    intro s l' ms ms' h
    cases ms with
    | nil => simp at h
    | cons m ms =>
      simp only [List.cons_append, averRun, Option.bind_eq_bind]
      cases averStep e s m o with
      | none => rfl
      | some s' => exact ih s' l' ms ms' (by simpa using h)

theorem flat_length {c : ACall} {m : ACallMsg} {ms : List AMsg} (h : c.flat m = some ms) : ms.length = c.ops.length := by
  cases c <;> cases m <;> simp only [ACall.flat, reduceCtorEq, Option.some.injEq, Option.ite_none_right_eq_some] at h
  · subst h; rfl
  · obtain ⟨h1, rfl⟩ := h; simpa [ACall.ops] using h1
  · obtain ⟨h1, rfl⟩ := h; simpa [ACall.ops] using h1
  · obtain ⟨h1, rfl⟩ := h; simpa [ACall.ops] using h1
  · obtain ⟨h1, rfl⟩ := h; simp [ACall.ops]

theorem averCalls_run (e : AEnv) (cs : List ACall) : ∀ (s : AVer) (ms : List ACallMsg),
    averCalls e s cs ms = (flatCalls cs ms).bind (averRun e s (callOps cs)) := by
  induction cs with
  | nil =>
    intro s ms
    cases ms with
    | nil => rfl
    | cons m ms => rfl
  | cons c cs ih =>
    intro s ms
    cases ms with
    | nil => rfl
    | cons m ms =>
      have hc : callOps (c :: cs) = c.ops ++ callOps cs := rfl
      simp only [averCalls, flatCalls, Option.bind_eq_bind, averCall_run]
      cases h : c.flat m with
      | none => rfl
      | some x =>
        simp only [Option.bind_some]
        cases k : flatCalls cs ms with
        | none =>
          simp only [Option.bind_none]
          cases averRun e s c.ops x with
          | none => rfl
          | some s' => simp [ih, k]
        | some y =>
          simp only [Option.bind_some, hc]
          rw [averRun_append e _ _ _ _ _ (flat_length h)]
          cases averRun e s c.ops x with
          | none => rfl
          | some s' => simp [ih, k]

end EmpZk
