/-
One VOLE extension over the network: the parts work together.
-/
import Verif.Model.ExtendNet
import Verif.Lemmas.Par
import Verif.Lemmas.ArithNet
import Verif.Lemmas.Extend
import Verif.Props.PreOT
import Verif.Props.Mpfss

namespace EmpZk

/-! ### choices -/

theorem decBits_encBits (b : Nat → Bool) (n i : Nat) (hi : i < n) : decBits (encBits b n) i = b i := by
  unfold decBits encBits
  rw [List.getElem?_map, List.getElem?_range hi, Option.map_some]
  cases b i <;> rfl

theorem choicesSender_congr (st : PreSend) (m m' : Nat → Bool) (h : ∀ i, i < st.length → m i = m' i) :
    choicesSender st m = choicesSender st m' := by
  unfold choicesSender
  split
  · congr 2
    funext k
    split
    · next hk => exact h _ (by omega)
    · rfl
  · rfl

theorem choiceRounds_len (b : Nat → Nat → Bool) (t : Nat) (s : PreSend) (r : PreRecv) :
    ∀ s' r', choiceRounds b t (s, r) = some (s', r') → s'.length = s.length ∧ r'.length = r.length := by
  induction t with
  | zero =>
    intro s' r' h
    simp only [choiceRounds, Option.some.injEq, Prod.mk.injEq] at h
    obtain ⟨rfl, rfl⟩ := h
    exact ⟨rfl, rfl⟩
  | succ t ih =>
    intro s' r' h
    simp only [choiceRounds, Option.bind_eq_bind, Option.bind_eq_some_iff] at h
    obtain ⟨⟨s1, r1⟩, h1, ⟨r2, msg⟩, h2, s2, h3, h4⟩ := h
    simp only [Option.some.injEq, Prod.mk.injEq] at h4
    obtain ⟨rfl, rfl⟩ := h4
    obtain ⟨e1, e2⟩ := ih s1 r1 h1
    unfold choicesRecver at h2
    unfold choicesSender at h3
    split at h2
    · simp only [Option.some.injEq, Prod.mk.injEq] at h2
      split at h3
      · simp only [Option.some.injEq] at h3
        exact ⟨by rw [← h3]; exact e1, by rw [← h2.1]; exact e2⟩
      · cases h3
    · cases h2

theorem co_choices (b : Nat → Nat → Bool) (s : PreSend) (r : PreRecv) (hl : s.length = r.length) (t : Nat) :
    ∀ s' r', choiceRounds b t (s, r) = some (s', r') → Co (choicesSendN t s) (choicesRecvN b t r) s' r' := by
  induction t with
  | zero =>
    intro s' r' h
    simp only [choiceRounds, Option.some.injEq, Prod.mk.injEq] at h
    obtain ⟨rfl, rfl⟩ := h
    exact Co.done _ _
  | succ t ih =>
    intro s' r' h
    simp only [choiceRounds, Option.bind_eq_bind, Option.bind_eq_some_iff] at h
    obtain ⟨⟨s1, r1⟩, h1, ⟨r2, msg⟩, h2, s2, h3, h4⟩ := h
    simp only [Option.some.injEq, Prod.mk.injEq] at h4
    obtain ⟨rfl, rfl⟩ := h4
    obtain ⟨e1, e2⟩ := choiceRounds_len b t s r s1 r1 h1
    refine Co.bindM (ih s1 r1 h1) ?_
    refine Co.optR h2 ?_
    refine Co.bindM (Co.qp _ (by simp [encBits]; rw [e1, hl, e2])) ?_
    have e : choicesSender s1 (decBits (encBits msg r1.length)) = some s2 := by
      rw [choicesSender_congr s1 _ msg (fun i hi => decBits_encBits msg _ i (by rw [e1, hl, ← e2] at hi; exact hi))]
      exact h3
    exact Co.opt (o' := some r2) e rfl

/-! ### trees -/

theorem co_pads (pads : Nat → U128 × U128) (n : Nat) : Co (sendPads pads n) (recvPads n) () ((List.range n).map pads) := by
  induction n with
  | zero => exact Co.done _ _
  | succ n ih =>
    refine Co.bindM ih ?_
    have h : (encBlk (pads n).1 ++ encBlk (pads n).2).length = 32 := by simp [encBlk_length]
    have := Co.bindM (Co.pq _ h) (f := fun _ => (Proc.done () : Proc Unit))
      (g := fun bs => (Proc.done ((List.range n).map pads ++ [(decBlk (bs.take 16), decBlk (bs.drop 16))]) : Proc _)) (Co.done _ _)
    rw [List.take_left' (encBlk_length _), List.drop_left' (encBlk_length _), decBlk_encBlk, decBlk_encBlk] at this
    rw [List.range_succ, List.map_append]
    exact this

theorem padAt_range (pads : Nat → U128 × U128) (n i : Nat) (hi : i < n) : padAt ((List.range n).map pads) i = pads i := by
  simp [padAt, List.getD, hi]

theorem co_tree (c : ExtCfg) (a : ExtSendIn) (a' : ExtRecvIn) (st : PreSend) (st' : PreRecv) (i : Nat)
    {x : List U128 × List (U128 × U128) × W} {pads : Nat → U128 × U128} {m : Nat → U128} {R : List U128}
    (h1 : spfssSend c.G0 c.G1 c.levels (a.seed i) (a.mem i) (a.key i) = some x)
    (h2 : otSend st (fun j => (padAt x.2.1 j).1) (fun j => (padAt x.2.1 j).2) c.levels i = some pads)
    (h3 : otRecv st' (a'.b i) c.levels i (padAt ((List.range c.levels).map pads)) = some m)
    (h4 : spfssRecv c.G0 c.G1 c.levels (a'.b i) m (a'.mem i) x.2.2 (a'.mac i) = some R) :
    Co (treeSendN c a st i) (treeRecvN c a' st' i) x.1 R := by
  unfold treeSendN treeRecvN
  refine Co.optL h1 ?_
  refine Co.optL h2 ?_
  refine Co.bindM (co_pads pads c.levels) ?_
  refine Co.optR h3 ?_
  refine Co.bindM (Co.pq _ (encW_length _)) ?_
  rw [decW_encW]
  exact Co.opt (o := some x.1) rfl h4

theorem co_loop {α β : Type} (f : Nat → Proc α) (g : Nat → Proc β) (x : Nat → α) (y : Nat → β) :
    ∀ l : List Nat, (∀ i ∈ l, Co (f i) (g i) (x i) (y i)) →
      Co (loopN f l) (loopN g l) (l.map fun i => (i, x i)) (l.map fun i => (i, y i))
  | [], _ => Co.done _ _
  | i :: l, h => by
      refine Co.bindM (h i (by simp)) ?_
      exact Co.bindM (co_loop f g x y l (fun j hj => h j (by simp [hj]))) (Co.done _ _)

theorem lookup_graph {α : Type} (x : Nat → α) (i : Nat) : ∀ l : List Nat, i ∈ l → (l.map fun j => (j, x j)).lookup i = some (x i)
  | [], h => absurd h (by simp)
  | j :: l, h => by
      rw [List.map_cons, List.lookup_cons]
      by_cases hij : i = j
      · subst hij; simp
      · have : (i == j) = false := by simpa using hij
        rw [this]
        exact lookup_graph x i l (by simpa [hij] using h)

theorem mem_taskTrees (treeN threads j i : Nat) :
    i ∈ taskTrees treeN threads j ↔ ∃ r, (mpfssTasks treeN threads)[j]? = some r ∧ r.1 ≤ i ∧ i < r.2 := by
  unfold taskTrees
  cases h : (mpfssTasks treeN threads)[j]? with
  | none => simp
  | some r =>
    simp only [List.mem_range'_1, Option.some.injEq, exists_eq_left']
    omega

/-- Every tree is written by one of the tasks. -/
theorem gather_tasks {α : Type} (treeN T : Nat) (x : Nat → α) :
    gather treeN (fun j : Fin (T + 1) => (taskTrees treeN (T + 1) j).map fun i => (i, x i)) = some ((List.range treeN).map x) := by
  unfold gather
  refine mapM_some _ _ _ ?_
  intro i hi
  have hi' := List.mem_range.1 hi
  obtain ⟨j, ⟨r, hr, h1, h2⟩, _⟩ := (C32_partition treeN (T + 1) (by omega) i).1 hi'
  have hj : j < T + 1 := by
    have := (List.getElem?_eq_some_iff.1 hr).1
    simp only [mpfssTasks, List.length_append, List.length_map, List.length_range, List.length_singleton] at this
    omega
  have e : (List.ofFn fun j : Fin (T + 1) => (taskTrees treeN (T + 1) j).map fun i => (i, x i)).flatten =
      ((List.ofFn fun j : Fin (T + 1) => taskTrees treeN (T + 1) j).flatten).map fun i => (i, x i) := by
    rw [List.map_flatten, List.map_ofFn]
    rfl
  rw [e]
  refine lookup_graph x i _ ?_
  rw [List.mem_flatten]
  refine ⟨taskTrees treeN (T + 1) j, ?_, (mem_taskTrees _ _ _ _).2 ⟨r, hr, h1, h2⟩⟩
  rw [List.mem_ofFn]
  exact ⟨⟨j, hj⟩, rfl⟩

theorem taskTrees_lt (treeN T : Nat) (j i : Nat) (hi : i ∈ taskTrees treeN (T + 1) j) : i < treeN := by
  obtain ⟨r, hr, h1, h2⟩ := (mem_taskTrees _ _ _ _).1 hi
  have := ((C32_partition treeN (T + 1) (by omega) i).2 r (List.mem_of_getElem? hr)).2
  omega

/-- The task that `start / width` finds is the one that has the tree. -/
theorem treeTask_spec (treeN T j i : Nat) (hi : i ∈ taskTrees treeN (T + 1) j) :
    treeTask treeN (T + 1) i = j ∧ mpfssChannel treeN (T + 1) j = some j := by
  obtain ⟨r, hr, h1, h2⟩ := (mem_taskTrees _ _ _ _).1 hi
  obtain ⟨hc, hj⟩ := C32_channels treeN (T + 1) (by omega) j r hr (by omega)
  refine ⟨?_, hc⟩
  unfold mpfssTasks at hr
  unfold treeTask
  generalize treeN / (T + 1) = w at hr ⊢
  rw [Nat.add_sub_cancel] at hr ⊢
  by_cases h : j < T
  · rw [List.getElem?_append_left (by simpa using h), List.getElem?_map, List.getElem?_range h] at hr
    simp only [Option.map_some, Option.some.injEq] at hr
    subst hr
    have : (j + 1) * w ≤ T * w := Nat.mul_le_mul_right _ h
    rw [Nat.succ_mul] at this
    simp only at h1 h2
    rw [if_pos (by omega)]
    exact Nat.div_eq_of_lt_le h1 (by rw [Nat.succ_mul]; exact h2)
  · have : j = T := by omega
    subst this
    rw [List.getElem?_append_right (by simp)] at hr
    simp only [List.length_map, List.length_range, Nat.sub_self, List.getElem?_cons_zero, Option.some.injEq] at hr
    subst hr
    simp only at h1
    rw [if_neg (by omega)]

/-! ### check -/

theorem co_check (f : ExtFns) (c : ExtCfg) (T : Nat) (a : ExtSendIn) (a' : ExtRecvIn) (S R R' : List (List U128)) (xs v : W)
    (h1 : mpfssCheckRecv (treeDigest f c.t (T + 1) a'.sd) c.levels c.t a'.b a'.mac R = some (xs, v, R'))
    (h2 : mpfssCheckSend (treeDigest f c.t (T + 1) a'.sd) c.t a.delta (a.key c.t) S xs = some v) :
    Co (checkSendN f c T a S) (checkRecvN f c T a' R) () (some R') := by
  unfold checkSendN checkRecvN
  refine Co.bindM (Co.qp _ (encBlk_length _)) ?_
  refine Co.optR h1 ?_
  refine Co.bindM (Co.qp _ (encW_length _)) ?_
  refine Co.optL (x := v) (by rw [decBlk_encBlk, decW_encW]; exact h2) ?_
  have := Co.bindM (Co.pq (encBlk (f.hashWord v)) (encBlk_length _)) (f := fun _ => (Proc.done () : Proc Unit))
    (g := fun bs => (Proc.done (if decBlk bs = f.hashWord v then some R' else none) : Proc _)) (Co.done _ _)
  rw [decBlk_encBlk, if_pos rfl] at this
  exact this

theorem mapM_inv {α β : Type} (d : β) (f : α → Option β) : ∀ (l : List α) (S : List β), l.mapM f = some S →
    S = l.map (fun i => (f i).getD d) ∧ ∀ i ∈ l, f i = some ((f i).getD d)
  | [], S, h => by
      simp only [List.mapM_nil, Option.pure_def, Option.some.injEq] at h
      subst h
      simp
  | i :: l, S, h => by
      simp only [List.mapM_cons, Option.pure_def, Option.bind_eq_bind, Option.bind_eq_some_iff, Option.some.injEq] at h
      obtain ⟨x, hx, S', hS, rfl⟩ := h
      obtain ⟨e1, e2⟩ := mapM_inv d f l S' hS
      refine ⟨by rw [e1, List.map_cons, hx]; rfl, ?_⟩
      intro k hk
      rcases List.mem_cons.1 hk with rfl | hk
      · rw [hx]; rfl
      · exact e2 k hk

end EmpZk
