/-
The VOLE over F_{2^128} over the network: both parties complete it.
-/
import Verif.Model.ExtendNetF
import Verif.Lemmas.ExtendNetRun
import Verif.Props.F2kVole

namespace EmpZk

theorem encG_length (v : GF128) : (encG v).length = 16 := encBlk_length _

theorem decG_encG (v : GF128) : decG (encG v) = v := by
  unfold decG encG
  rw [decBlk_encBlk]

theorem co_treeF (c : ExtCfg) (a : ExtSendInF) (a' : ExtRecvInF) (st : PreSend) (st' : PreRecv) (i : Nat)
    {x : List GF128 × List (U128 × U128) × GF128} {pads : Nat → U128 × U128} {m : Nat → U128} {R : List GF128}
    (h1 : spfssF2kSend c.G0 c.G1 c.levels (a.seed i) (a.mem i) (a.key i) = some x)
    (h2 : otSend st (fun j => (padAt x.2.1 j).1) (fun j => (padAt x.2.1 j).2) c.levels i = some pads)
    (h3 : otRecv st' (a'.b i) c.levels i (padAt ((List.range c.levels).map pads)) = some m)
    (h4 : spfssF2kRecv c.G0 c.G1 c.levels (a'.b i) m (a'.mem i) x.2.2 (a'.mac i) = some R) :
    Co (treeSendF c a st i) (treeRecvF c a' st' i) x.1 R := by
  unfold treeSendF treeRecvF
  refine Co.optL h1 ?_
  refine Co.optL h2 ?_
  refine Co.bindM (co_pads pads c.levels) ?_
  refine Co.optR h3 ?_
  refine Co.bindM (Co.pq _ (encG_length _)) ?_
  rw [decG_encG]
  exact Co.opt (o := some x.1) rfl h4

theorem co_checkF (hash : GF128 → U128) (c : ExtCfg) (a : ExtSendInF) (a' : ExtRecvInF) (S R : List (List GF128)) (xs v : GF128)
    (h1 : f2kCheckRecv a'.digest c.levels c.t a'.b a'.x (a'.mac c.t) R = some (xs, v))
    (h2 : f2kCheckSend a.digest c.t a.delta (a.key c.t) S xs = some v) :
    Co (checkSendF hash c a S) (checkRecvF hash c a' R) () true := by
  unfold checkSendF checkRecvF
  refine Co.optR h1 ?_
  refine Co.bindM (Co.qp _ (encG_length _)) ?_
  refine Co.optL (x := v) (by rw [decG_encG]; exact h2) ?_
  have := Co.bindM (Co.pq (encBlk (hash v)) (encBlk_length _)) (f := fun _ => (Proc.done () : Proc Unit))
    (g := fun bs => (Proc.done (decide (decBlk bs = hash v)) : Proc _)) (Co.done _ _)
  rw [decBlk_encBlk, decide_eq_true rfl] at this
  exact this

theorem spfssF2kSend_msgs {G0 G1 : U128 → U128} {levels : Nat} {seed : U128} {mem : Mem} {g : GF128}
    {x : List GF128 × List (U128 × U128) × GF128} (h : spfssF2kSend G0 G1 levels seed mem g = some x) : x.2.1.length = levels := by
  have key : ∀ n, (ggmGen G0 G1 seed mem n).2.length = n + 1 := by
    intro n
    induction n with
    | zero => rfl
    | succ n ih => simp only [ggmGen, List.length_append, ih, List.length_singleton]
  unfold spfssF2kSend at h
  split at h
  · cases h
  · next hl =>
    simp only [Option.some.injEq] at h
    rw [← h, key]
    omega

/-- The parts put together. -/
theorem coPar_extensionF (hash : GF128 → U128) (c : ExtCfg) (T : Nat) (hl : 0 < c.levels) (hk : 0 < c.k) (hk2 : c.k < 2 ^ 31) (delta : GF128)
    (x mac key : Nat → GF128) (h : ∀ i, i < c.M → mac i = key i + x i * delta) (seed : Nat → U128)
    (memS memR : Nat → Mem) (b : Nat → Nat → Bool) (digest : Nat → GF128) (H : U128 → U128) (dataS dataR : Nat → U128) (D : U128)
    (hcot : ∀ k, k < c.levels * c.t → dataR k = dataS k ^^^ (if (dataR k).getLsbD 0 then D else 0)) (bits0 : Nat → Bool) :
    ∃ K X M : List GF128, K.length = c.n ∧ X.length = c.n ∧ M.length = c.n ∧
      (∀ i, i < c.n → ofListF M i = ofListF K i + ofListF X i * delta) ∧ extF2kKeyOut c seed memS key = some K ∧
      CoPar (extSendF hash c T ⟨delta, seed, memS, key, sendPre H c.levels c.t dataS D bits0, digest⟩)
        (extRecvF hash c T ⟨b, memR, x, mac, recvPre H c.levels c.t dataR, digest⟩) K (some (X, M)) := by
  obtain ⟨st, sr, hch, hot⟩ := C28_chosen_message H c.levels c.t dataS dataR D hcot bits0 b c.t (Nat.le_refl _)
  obtain ⟨S, hS, hrest⟩ := C66_extension_f2k c hl hk hk2 delta x mac key h seed memS memR b digest
  let d : List GF128 × List (U128 × U128) × GF128 := ([], [], 0)
  let y : Nat → List GF128 × List (U128 × U128) × GF128 := fun i => (spfssF2kSend c.G0 c.G1 c.levels (seed i) (memS i) (key i)).getD d
  obtain ⟨eS, hx⟩ := mapM_inv d _ _ _ (show (List.range c.t).mapM _ = some S from hS)
  have hx' : ∀ i, i < c.t → spfssF2kSend c.G0 c.G1 c.levels (seed i) (memS i) (key i) = some (y i) :=
    fun i hi => hx i (List.mem_range.2 hi)
  have hSi : ∀ i, i < c.t → S[i]? = some (y i) := by
    intro i hi
    rw [eS, List.getElem?_map, List.getElem?_range hi]
    rfl
  have tr : ∀ i, ∃ pads m, i < c.t → otSend st.reset (fun j => (padAt (y i).2.1 j).1) (fun j => (padAt (y i).2.1 j).2) c.levels i = some pads ∧
      otRecv sr.reset (b i) c.levels i (padAt ((List.range c.levels).map pads)) = some m ∧
      ∀ j, j < c.levels → m j = if b i j then (padAt (y i).2.1 j).2 else (padAt (y i).2.1 j).1 := by
    intro i
    by_cases hi : i < c.t
    · obtain ⟨pads, out, o1, o2, o3⟩ := hot (fun j => (padAt (y i).2.1 j).1) (fun j => (padAt (y i).2.1 j).2) i hi
      have hle : i * c.levels + c.levels ≤ sr.reset.n := by
        by_contra hn
        rw [otRecv, if_neg hn] at o2
        cases o2
      refine ⟨pads, _, fun _ => ⟨o1, if_pos hle, ?_⟩⟩
      intro j hj
      rw [← o3 j hj]
      rw [otRecv, if_pos hle, Option.some.injEq] at o2
      rw [← o2]
      simp only [padAt_range pads c.levels j hj]
    · exact ⟨fun _ => (0, 0), fun _ => 0, fun hi' => absurd hi' hi⟩
  choose pads m htr using tr
  obtain ⟨xs, v, X, M, K, r1, r2, r3, r4, r5, r6, r7⟩ := hrest m (fun i => (y i).2.2) (by
    intro i t hi
    have hit : i < c.t := by
      have := (List.getElem?_eq_some_iff.1 hi).1
      rw [eS] at this
      simpa using this
    rw [hSi i hit, Option.some.injEq] at hi
    subst hi
    refine ⟨rfl, ?_⟩
    intro j p hj
    have hj' : j < c.levels := by
      have := (List.getElem?_eq_some_iff.1 hj).1
      rw [spfssF2kSend_msgs (hx' i hit)] at this
      exact this
    rw [(htr i hit).2.2 j hj', padAt, List.getD, hj]
    rfl)
  refine ⟨K, X, M, r6, r4, r5, r7, r3, ?_⟩
  unfold extF2kVal at r1
  simp only [Option.bind_eq_bind, Option.bind_eq_some_iff] at r1
  obtain ⟨R, q1, ⟨xs', v'⟩, q2, vals, q3, X', q4, M', q5, q6⟩ := r1
  simp only [Option.some.injEq, Prod.mk.injEq] at q6
  obtain ⟨rfl, rfl, rfl, rfl⟩ := q6
  unfold extF2kKey at r2
  simp only [Option.bind_eq_bind, Option.bind_eq_some_iff] at r2
  obtain ⟨v2, p1, out2, p2, p3⟩ := r2
  simp only [Option.some.injEq, Prod.mk.injEq] at p3
  obtain ⟨rfl, rfl⟩ := p3
  obtain ⟨eR, hy⟩ := mapM_inv [] _ _ _ (show (List.range c.t).mapM _ = some R from q1)
  have eS1 : S.map (fun t => t.1) = (List.range c.t).map fun i => (y i).1 := by
    rw [eS, List.map_map]
    rfl
  unfold extSendF extRecvF
  refine CoPar.bind (CoPar.one (co_choices b _ _ rfl c.t st sr hch)) ?_
  refine CoPar.bind (a := S.map (fun t => t.1)) (b := R) ?_ ?_
  · refine CoPar.run (r := fun j => (taskTrees c.t (T + 1) j).map fun i => (i, (y i).1))
      (s := fun j => (taskTrees c.t (T + 1) j).map fun i => (i, (spfssF2kRecv c.G0 c.G1 c.levels (b i) (m i) (memR i) (y i).2.2 (mac i)).getD [])) ?_ ?_
    · intro j
      refine co_loop _ _ _ _ _ ?_
      intro i hi
      have hit := taskTrees_lt c.t T j i hi
      obtain ⟨t1, t2, _⟩ := htr i hit
      exact co_treeF c _ _ _ _ i (hx' i hit) t1 t2 (hy i (List.mem_range.2 hit))
    · refine CoPar.opt ?_ ?_
      · rw [gather_tasks, eS1]
      · rw [gather_tasks, eR]
  refine CoPar.bind (a := ()) (b := true) (CoPar.one (co_checkF hash c _ _ _ _ _ _ q2 p1)) ?_
  simp only [if_true]
  rw [p2, q3]
  simp only [Par.ofOpt, Par.bind]
  rw [q4]
  simp only [Par.ofOpt, Par.bind]
  rw [q5]
  exact CoPar.done _ _

end EmpZk
