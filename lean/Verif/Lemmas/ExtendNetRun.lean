/-
One VOLE extension over the network: both parties complete it.
-/
import Verif.Lemmas.ExtendNet
import Verif.Props.Extend

namespace EmpZk

/-- If one schedule completes, all do. -/
theorem coPar_all {T : Nat} {α β : Type} {P : Par T α} {Q : Par T β} {a : α} {b : β} (h : CoPar P Q a b) :
    ∃ n, ∀ m s, ParDuo.Reach m (ParDuo.start P Q) s →
      m ≤ n ∧ ParDuo.Reach (n - m) s (ParDuo.start (.done a) (.done b)) ∧ (m < n → ∃ s', ParDuo.Step s s') ∧
      (m = n → s = ParDuo.start (.done a) (.done b)) := by
  obtain ⟨n, hn⟩ := h
  refine ⟨n, fun m s hs => ?_⟩
  obtain ⟨k, rfl, hk⟩ := ParDuo.reach_reach hn (stuckPar_done a b _ _) hs
  refine ⟨Nat.le_add_right _ _, by rwa [Nat.add_sub_cancel_left], ?_, ?_⟩
  · intro hlt
    cases hk with
    | refl => omega
    | step h1 _ => exact ⟨_, h1⟩
  · intro e
    have : k = 0 := by omega
    subst this
    cases hk
    rfl

theorem CoPar.opt {T : Nat} {α β : Type} {o : Option α} {o' : Option β} {x : α} {y : β} (h : o = some x) (h' : o' = some y) :
    CoPar (T := T) (Par.ofOpt o) (Par.ofOpt o') x y := by
  subst h; subst h'; exact CoPar.done _ _

theorem spfssSend_msgs {G0 G1 : U128 → U128} {levels : Nat} {seed : U128} {mem : Mem} {g : U128}
    {x : List U128 × List (U128 × U128) × W} (h : spfssSend G0 G1 levels seed mem g = some x) : x.2.1.length = levels := by
  have key : ∀ n, (ggmGen G0 G1 seed mem n).2.length = n + 1 := by
    intro n
    induction n with
    | zero => rfl
    | succ n ih => simp only [ggmGen, List.length_append, ih, List.length_singleton]
  unfold spfssSend at h
  split at h
  · cases h
  · next hl =>
    simp only [Option.some.injEq] at h
    rw [← h, key]
    omega

/-- The parts put together. -/
theorem coPar_extension (f : ExtFns) (c : ExtCfg) (T : Nat) (hl : 0 < c.levels) (hk : 0 < c.k) (hk2 : c.k < 2 ^ 31) (delta : U128)
    (hd : Canon (low64 delta)) (key mac : Nat → U128) (h : ∀ i, i < c.M → Auth (low64 delta) (mac i) (key i)) (seed : Nat → U128)
    (memS memR : Nat → Mem) (b : Nat → Nat → Bool) (sd : U128) (H : U128 → U128) (dataS dataR : Nat → U128) (D : U128)
    (hcot : ∀ k, k < c.levels * c.t → dataR k = dataS k ^^^ (if (dataR k).getLsbD 0 then D else 0)) (bits0 : Nat → Bool) :
    ∃ K M : List U128, K.length = c.n ∧ M.length = c.n ∧ List.Forall₂ (fun k m => Auth (low64 delta) m k) K M ∧
      extSendOut c seed memS key = some K ∧
      CoPar (extSendN f c T ⟨delta, seed, memS, key, sendPre H c.levels c.t dataS D bits0⟩)
        (extRecvN f c T ⟨b, memR, mac, recvPre H c.levels c.t dataR, sd⟩) K (some M) := by
  obtain ⟨st, sr, hch, hot⟩ := C28_chosen_message H c.levels c.t dataS dataR D hcot bits0 b c.t (Nat.le_refl _)
  obtain ⟨S, hS, hrest⟩ := C66_extension c hl hk hk2 delta hd key mac h seed memS memR b (treeDigest f c.t (T + 1) sd)
  let d : List U128 × List (U128 × U128) × W := ([], [], 0)
  let x : Nat → List U128 × List (U128 × U128) × W := fun i => (spfssSend c.G0 c.G1 c.levels (seed i) (memS i) (key i)).getD d
  obtain ⟨eS, hx⟩ := mapM_inv d _ _ _ (show (List.range c.t).mapM _ = some S from hS)
  have hx' : ∀ i, i < c.t → spfssSend c.G0 c.G1 c.levels (seed i) (memS i) (key i) = some (x i) :=
    fun i hi => hx i (List.mem_range.2 hi)
  have hSi : ∀ i, i < c.t → S[i]? = some (x i) := by
    intro i hi
    rw [eS, List.getElem?_map, List.getElem?_range hi]
    rfl
  -- the transfers
  have tr : ∀ i, ∃ pads m, i < c.t → otSend st.reset (fun j => (padAt (x i).2.1 j).1) (fun j => (padAt (x i).2.1 j).2) c.levels i = some pads ∧
      otRecv sr.reset (b i) c.levels i (padAt ((List.range c.levels).map pads)) = some m ∧
      ∀ j, j < c.levels → m j = if b i j then (padAt (x i).2.1 j).2 else (padAt (x i).2.1 j).1 := by
    intro i
    by_cases hi : i < c.t
    · obtain ⟨pads, out, o1, o2, o3⟩ := hot (fun j => (padAt (x i).2.1 j).1) (fun j => (padAt (x i).2.1 j).2) i hi
      have hle : i * c.levels + c.levels ≤ sr.reset.n := by
        by_contra hn
        rw [otRecv, if_neg hn] at o2
        cases o2
      refine ⟨pads, _, fun _ => ⟨o1, if_pos hle, ?_⟩⟩
      intro j hj
      rw [← o3 j hj]
      rw [otRecv, if_pos hle, Option.some.injEq] at o2
      rw [← o2]
      simp only [padAt_range pads c.levels j hj]
    · exact ⟨fun _ => (0, 0), fun _ => 0, fun hi' => absurd hi' hi⟩
  choose pads m htr using tr
  obtain ⟨xs, v, K, M, r1, r2, r3, r4, r5, r6⟩ := hrest m (fun i => (x i).2.2) (by
    intro i t hi
    have hit : i < c.t := by
      have := (List.getElem?_eq_some_iff.1 hi).1
      rw [eS] at this
      simpa using this
    rw [hSi i hit, Option.some.injEq] at hi
    subst hi
    refine ⟨rfl, ?_⟩
    intro j p hj
    have hj' : j < c.levels := by
      have := (List.getElem?_eq_some_iff.1 hj).1
      rw [spfssSend_msgs (hx' i hit)] at this
      exact this
    rw [(htr i hit).2.2 j hj', padAt, List.getD, hj]
    rfl)
  refine ⟨K, M, r4, r5, r6, r3, ?_⟩
  -- the receiver's side taken apart
  unfold extRecv at r1
  simp only [Option.bind_eq_bind, Option.bind_eq_some_iff] at r1
  obtain ⟨R, q1, ⟨xs', v', R'⟩, q2, out, q3, q4⟩ := r1
  simp only [Option.some.injEq, Prod.mk.injEq] at q4
  obtain ⟨rfl, rfl, rfl⟩ := q4
  unfold extSend at r2
  simp only [Option.bind_eq_bind, Option.bind_eq_some_iff] at r2
  obtain ⟨v2, p1, out2, p2, p3⟩ := r2
  simp only [Option.some.injEq, Prod.mk.injEq] at p3
  obtain ⟨rfl, rfl⟩ := p3
  obtain ⟨eR, hy⟩ := mapM_inv [] _ _ _ (show (List.range c.t).mapM _ = some R from q1)
  have eS1 : S.map (fun t => t.1) = (List.range c.t).map fun i => (x i).1 := by
    rw [eS, List.map_map]
    rfl
  unfold extSendN extRecvN
  refine CoPar.bind (CoPar.one (co_choices b _ _ rfl c.t st sr hch)) ?_
  refine CoPar.bind (a := S.map (fun t => t.1)) (b := R) ?_ ?_
  · refine CoPar.run (r := fun j => (taskTrees c.t (T + 1) j).map fun i => (i, (x i).1))
      (s := fun j => (taskTrees c.t (T + 1) j).map fun i => (i, (spfssRecv c.G0 c.G1 c.levels (b i) (m i) (memR i) (x i).2.2 (mac i)).getD [])) ?_ ?_
    · intro j
      refine co_loop _ _ _ _ _ ?_
      intro i hi
      have hit := taskTrees_lt c.t T j i hi
      obtain ⟨t1, t2, _⟩ := htr i hit
      exact co_tree c _ _ _ _ i (hx' i hit) t1 t2 (hy i (List.mem_range.2 hit))
    · refine CoPar.opt ?_ ?_
      · rw [gather_tasks, eS1]
      · rw [gather_tasks, eR]
  refine CoPar.bind (a := ()) (b := some R') (CoPar.one (co_check f c T _ _ _ _ _ _ _ q2 p1)) ?_
  simp only
  rw [q3, p2]
  exact CoPar.done _ _

end EmpZk
