/-
The base correlations and a chain of extensions over the network: both parties complete them.
-/
import Verif.Lemmas.ExtendNetRun
import Verif.Model.SetupNet
import Verif.Props.Cope

namespace EmpZk

theorem co_words (w : Nat → W) (n : Nat) : Co (recvWordsN n) (sendWordsN w n) ((List.range n).map w) () := by
  induction n with
  | zero => exact Co.done _ _
  | succ n ih =>
    refine Co.bindM ih ?_
    have := Co.bindM (Co.qp _ (encW_length (w n))) (g := fun _ => (Proc.done () : Proc Unit))
      (f := fun bs => (Proc.done ((List.range n).map w ++ [decW bs]) : Proc _)) (Co.done _ _)
    rw [decW_encW] at this
    rw [List.range_succ, List.map_append]
    exact this

theorem matAt_words (m : Nat → Nat → W) (rows size i j : Nat) (hi : i < rows) (hj : j < size) :
    matAt ((List.range (rows * size)).map fun q => m (q / size) (q % size)) size i j = m i j := by
  have h : i * size + j < rows * size := by
    have : (i + 1) * size ≤ rows * size := Nat.mul_le_mul_right _ hi
    rw [Nat.add_mul] at this
    omega
  have h0 : 0 < size := by omega
  simp only [matAt, List.getD, List.getElem?_map, List.getElem?_range h, Option.map_some, Option.getD_some]
  rw [Nat.mul_comm, Nat.mul_add_div h0, Nat.mul_add_mod, Nat.div_eq_of_lt hj, Nat.mod_eq_of_lt hj, Nat.add_zero]

theorem matAt_col (m : Nat → Nat → W) (rows i j : Nat) (hi : i < rows) (hj : j < 1) :
    matAt ((List.range rows).map fun q => m q 0) 1 i j = m i j := by
  have e := matAt_words m rows 1 i j hi hj
  rw [Nat.mul_one] at e
  rw [← e]
  congr 1
  refine List.map_congr_left fun q _ => ?_
  rw [Nat.div_one, Nat.mod_one]

theorem prm2prB_congr (a a' : Nat → W) : ∀ n, (∀ i, i < n → a i = a' i) → prm2prB a n = prm2prB a' n
  | 0, _ => rfl
  | n + 1, h => by
    simp only [prm2prB]
    rw [h n (Nat.lt_succ_self n), prm2prB_congr a a' n fun i hi => h i (Nat.lt_succ_of_lt hi)]

theorem copeExtendSendB_congr (db : List Bool) (m : Nat) (g v v' : Nat → Nat → W) (size : Nat)
    (h : ∀ i j, i < m → j < size → v i j = v' i j) : copeExtendSendB db m g v size = copeExtendSendB db m g v' size := by
  unfold copeExtendSendB
  split
  · rfl
  · congr 1
    refine List.map_congr_left ?_
    intro j hj
    rw [List.mem_range] at hj
    refine prm2prB_congr _ _ m ?_
    intro i hi
    rw [h i j hi hj]

theorem tripleGenSend_congr (delta : U128) (m : Nat) (g v v' gb vb vb' : Nat → Nat → W) (size : Nat) (rseed : W) (xz : W × W)
    (h : ∀ i j, i < m → j < size → v i j = v' i j) (hb : ∀ i j, i < m → j < 1 → vb i j = vb' i j) :
    tripleGenSend delta m g v gb vb size rseed xz = tripleGenSend delta m g v' gb vb' size rseed xz := by
  have e1 := copeExtendSendB_congr (deltaToBool m (low64 delta)) m g v v' size h
  have e2 := copeExtendSendB_congr (deltaToBool m (low64 delta)) m gb vb vb' 1 hb
  simp only [tripleGenSend, e1, e2]

/-- The base correlations. -/
theorem co_base (delta : U128) (hd : delta.toNat < pN) (g0 g1 gb0 gb1 : Nat → Nat → W) (size : Nat) (hs : 0 < size)
    (rx : List W) (hrx : rx.length = size + 1) (rseed : W) :
    ∃ K M : List U128, K.length = size ∧ M.length = size ∧ List.Forall₂ (fun k m => Auth (low64 delta) m k) K M ∧
      Co (baseSendN delta (fun i j => if delta.toNat.testBit i then g1 i j else g0 i j)
          (fun i j => if delta.toNat.testBit i then gb1 i j else gb0 i j) size rseed)
        (baseRecvN g0 g1 gb0 gb1 size rx) (some K) M := by
  obtain ⟨K, M, ans, h1, h2, h3, h4, h5⟩ := C27_complete delta hd g0 g1 gb0 gb1 size hs rx hrx (fun j => rx.getD j 0)
    (by intro j hj; rw [List.getD, List.getElem?_eq_getElem (by omega)]; rfl) rseed
  refine ⟨K, M, h4, h3, ?_, ?_⟩
  · rw [List.forall₂_iff_get]
    refine ⟨by rw [h3, h4], ?_⟩
    intro i hi hi'
    exact (h5 i _ _ (List.getElem?_eq_getElem hi') (List.getElem?_eq_getElem hi)).1
  · unfold baseSendN baseRecvN
    refine Co.bindM (co_words _ _) ?_
    refine Co.bindM (co_words _ _) ?_
    refine Co.bindM (Co.pq _ (encW_length _)) ?_
    rw [decW_encW]
    refine Co.optR h1 ?_
    refine Co.bindM (Co.qp _ (encAns_length _)) ?_
    rw [decAns_encAns]
    refine Co.opt (o' := some M) ?_ rfl
    rw [← h2]
    refine tripleGenSend_congr _ _ _ _ _ _ _ _ _ _ _ ?_ ?_
    · intro i j hi hj
      exact matAt_words (copeMsgB g0 g1 fun j => mod64 (rx.getD j 0)) 61 size i j hi hj
    · intro i j hi hj
      exact matAt_col (copeMsgB gb0 gb1 fun _ => mod64 (rx.getD size 0)) 61 i j hi hj

end EmpZk
