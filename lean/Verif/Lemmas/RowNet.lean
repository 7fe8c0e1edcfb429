/-
Helper lemmas for C94: the program of `Verif.Spec.RamChal` with more AND gates than fit into one batch between the rows and the challenge.
-/
import Verif.Lemmas.RamChal
import Verif.Lemmas.LateNet
import Verif.Lemmas.ZkRam

namespace EmpZk

section
variable {F : Type} [Field F] [BlockField F]

/-- Messages up to the last gate, when the inputs are `a`. -/
def rowMsgs (v : BView F) (m c : Nat) (a : Nat → Bool) : List (BMsg F) :=
  (List.range (2 * m)).map (fun i => ⟨a i ^^ lsb (v.mac (1 + i)), 0, 0⟩) ++ ([⟨false, 0, 0⟩, ⟨false, 0, 0⟩] ++
    (List.range c).map (fun i => ⟨!lsb (v.mac (1 + 2 * m + i)), 0, 0⟩))

/-- The wires of the rows: the inputs and the two public bits. -/
def rowWires (v : BView F) (m : Nat) (a : Nat → Bool) : List F :=
  (List.range (2 * m)).map (fun i => labOf v (1 + i) (a i ^^ lsb (v.mac (1 + i)))) ++ [pubPrv v.pub0 v.pub1 false, oneOf v]

theorem row_com (v : BView F) (m : Nat) (a : Nat → Bool) (ans0 : F × F) (ht : 0 < v.threads) (htc : v.threads ≤ v.checkSz) :
    ∃ C tl, comRun v ComSt.init (rowProg m v.checkSz) (rowMsgs v m v.checkSz a ++ [turnMsg v (2 * m) v.checkSz ans0]) = some C ∧
      C.wires = rowWires v m a ++ tl ∧ C.polyLog = [] ∧
      ∃ t0 u0, C.andLog = [⟨gates1 v (2 * m) v.checkSz, v.chal 0 t0, u0, ans0⟩] ∧ u0 = 1 + 2 * m + v.checkSz := by
  generalize hc : v.checkSz = c at *
  have hs1 : (splitTasks c v.threads).isSome := (splitTasks_isSome _ _).2 ⟨ht, htc⟩
  simp only [rowProg, rowEarly, rowMsgs]
  rw [comRun_append _ _ _ _ _ _ (by simp), comRun_append _ _ _ _ _ _ (by simp), com_inputs, Option.bind_some,
    comRun_append _ _ _ _ _ _ (by simp)]
  simp only [comRun, comStep, Option.bind_eq_bind, Option.bind_some, ComSt.init, List.nil_append]
  rw [com_ands v (fun _ => 2 * m + 1) (fun _ => 2 * m + 1) (fun _ => oneOf v) (fun _ => oneOf v) _ _ c (by
    intro i hi
    rw [List.getElem?_append_right (by simp)]
    simp [oneOf]) (by
    intro i hi
    rw [List.getElem?_append_right (by simp)]
    simp [oneOf]) (by simp [hc]), Option.bind_some]
  have hone : ∀ (t : List F), ((((List.range (2 * m)).map (fun i => v.mac (1 + i) + bit (a i ^^ lsb (v.mac (1 + i)))) ++
      [pubPrv v.pub0 v.pub1 false]) ++ [pubPrv v.pub0 v.pub1 true]) ++ t)[2 * m + 1]? = some (oneOf v) := by
    intro t
    rw [List.append_assoc, List.getElem?_append_right (by simp)]
    simp [oneOf]
  simp only [hone, turnMsg, Option.bind_some, comAndRoom, List.nil_append, List.length_map, List.length_range,
    hc, if_true, hs1, comAndCheck, comAndPush, List.length_nil]
  rw [if_pos (by omega)]
  simp only [Option.bind_some]
  refine ⟨_, (List.range c).map (fun i => v.mac (1 + 2 * m + i) + bit (!lsb (v.mac (1 + 2 * m + i)))) ++
    [v.mac (1 + 2 * m + c + 128) + bit (!lsb (v.mac (1 + 2 * m + c + 128)))], rfl, ?_, rfl, _, _, rfl, rfl⟩
  simp only [rowWires, labOf, oneOf, List.append_assoc, List.cons_append, List.nil_append]

variable [DecidableEq F]

/-- Message level: with any inputs, and the right answer to the check, the verifier reaches the challenge without complaint. -/
theorem row_accepts (v : BView F) (m : Nat) (a : Nat → Bool) (ht : 0 < v.threads) (htc : v.threads ≤ v.checkSz)
    (sd : Nat → F) (hsd : ∀ t, v.chal 0 t = sd) :
    ∃ ans0 tl, ∀ delta, lsb delta = true → ∃ V,
      verRun (v.env delta) VerSt.init (rowProg m v.checkSz) (rowMsgs v m v.checkSz a ++ [turnMsg v (2 * m) v.checkSz ans0]) = some V ∧
      V.cheats = [] ∧ V.wires = (rowWires v m a ++ tl).map (keyOf delta) := by
  obtain ⟨ts1, hs1⟩ := Option.isSome_iff_exists.1 ((splitTasks_isSome v.checkSz v.threads).2 ⟨ht, htc⟩)
  have hl1 : (gates1 v (2 * m) v.checkSz).length = v.checkSz := by simp [gates1]
  let ope0 : Nat → F := fun i => v.mac (1 + 2 * m + v.checkSz + i)
  let ans0 : F × F := (packBlocks ope0 + (checkSumPrv (gates1 v (2 * m) v.checkSz) sd ts1 0).1,
    packLsbs ope0 + (checkSumPrv (gates1 v (2 * m) v.checkSz) sd ts1 0).2)
  obtain ⟨C, tl, k1, k2, k3, t0, u0, k4, e0⟩ := row_com v m a ans0 ht htc
  refine ⟨ans0, tl, ?_⟩
  intro delta hd
  obtain ⟨ch, k6⟩ := verRun_img v hd (rowProg m v.checkSz) ComSt.init [] (rowMsgs v m v.checkSz a ++ [turnMsg v (2 * m) v.checkSz ans0])
  rw [verImg_init, k1, Option.map_some] at k6
  refine ⟨verImg delta C ch, k6, ?_, ?_⟩
  · refine (CheatInv.run _ (CheatInv.init _) k6).2 ⟨?_, ?_⟩
    · intro r hr
      simp only [verImg, k4, List.map_cons, List.map_nil, List.mem_cons, List.not_mem_nil, or_false] at hr
      subst hr
      have h := andCheckVer_keyOf delta (gates1 v (2 * m) v.checkSz) v.threads (v.chal 0 t0) (fun i => v.mac (u0 + i)) ans0
      refine h.trans ?_
      rw [hl1, hs1, Option.map_some, errSum_correct _ (gates1_correct v (2 * m) v.checkSz), hsd, e0, Option.some.injEq, decide_eq_true_eq]
      simp only [ans0, ope0]
      ring
    · intro r hr
      simp [verImg, k3] at hr
  · simp only [verImg, k2]

end

/-! ### counters and digests -/

section
variable {F : Type} [Field F] [BlockField F] {ne : NetEnv F}

theorem rowEarly_cnt (m : Nat) : cntRun ne ⟨1, 0, 0, 0⟩ (rowEarly m ne.e.checkSz) = ⟨1 + 2 * m + ne.e.checkSz, ne.e.checkSz, 0, 0⟩ := by
  simp only [rowEarly, cntRun_append]
  rw [cnt_inputs (fun _ => false), cnt_ands (fun _ => 2 * m + 1) (fun _ => 2 * m + 1) _ _ (by simp [cntRun, cntStep])]
  simp [cntRun, cntStep]

theorem rowEarly_digs (S m : Nat) (a : Nat → Bool) (v : BView F) (io : SndSt) :
    runDigs ne S io ⟨1, 0, 0, 0⟩ (rowEarly m ne.e.checkSz) (rowMsgs v m ne.e.checkSz a) = [] := by
  simp only [rowEarly, rowMsgs]
  rw [runDigs_append _ _ _ _ _ _ _ (by simp), runDigs_append _ _ _ _ _ _ _ (by simp), cnt_inputs (fun _ => false)]
  rw [digs_quiet _ _ (by simp [dueA]), digs_quiet _ [.pub false, .pub true] (by simp [dueA])]
  rw [digs_ands S (fun _ => 2 * m + 1) (fun _ => 2 * m + 1) _ _ _ _ (by simp [cntRun, cntStep])]
  rfl

theorem row_turn_cnt (m : Nat) : cntStep ne ⟨1 + 2 * m + ne.e.checkSz, ne.e.checkSz, 0, 0⟩ (.and (2 * m + 1) (2 * m + 1)) =
    ⟨1 + 2 * m + ne.e.checkSz + 128 + 1, 1, 0, 0⟩ := by
  simp [cntStep, cntRoomA, NetCnt.andChk]

/-- The calls between the digest of the check and the challenge. -/
def rowTail (ne : NetEnv F) (v : BView F) (m : Nat) (ans : F × F) : List SOp :=
  ne.extP (1 + 2 * m + ne.e.checkSz) 128 ++ ([.data (ne.enc2 ans), .flush] ++
    (ne.extP (1 + 2 * m + ne.e.checkSz + 128) 1 ++ [.bit (turnMsg v (2 * m) ne.e.checkSz ans).bit]))

theorem row_calls (v : BView F) (m : Nat) (a : Nat → Bool) (ans : F × F) :
    runCallsP ne ⟨1, 0, 0, 0⟩ (rowProg m ne.e.checkSz) (rowMsgs v m ne.e.checkSz a ++ [turnMsg v (2 * m) ne.e.checkSz ans]) =
      runCallsP ne ⟨1, 0, 0, 0⟩ (rowEarly m ne.e.checkSz) (rowMsgs v m ne.e.checkSz a) ++ ([.hash] ++ rowTail ne v m ans) := by
  rw [rowProg, runCallsP_append _ _ _ _ _ (by simp [rowEarly, rowMsgs]), rowEarly_cnt]
  congr 1
  simp only [runCallsP, callsP, if_true, andCallsP, cntRoomA, NetCnt.andChk, rowTail, turnMsg,
    List.append_assoc, List.cons_append, List.nil_append, List.append_nil]

theorem row_runDigs (S : Nat) (v : BView F) (m : Nat) (a : Nat → Bool) (ans : F × F) (io : SndSt) :
    runDigs ne S io ⟨1, 0, 0, 0⟩ (rowProg m ne.e.checkSz) (rowMsgs v m ne.e.checkSz a ++ [turnMsg v (2 * m) ne.e.checkSz ans]) =
      [(sndFlush S (sndRun S io (runCallsP ne ⟨1, 0, 0, 0⟩ (rowEarly m ne.e.checkSz) (rowMsgs v m ne.e.checkSz a)))).1.hashed] := by
  rw [rowProg, runDigs_append _ _ _ _ _ _ _ (by simp [rowEarly, rowMsgs]), rowEarly_digs, rowEarly_cnt]
  simp only [runDigs, List.nil_append]
  simp [dueA]

/-- The string behind the challenge depends neither on the inputs nor on the answer to the check. -/
theorem row_digest (S : Nat) (hS : 0 < S) (v : BView F) (m : Nat) (ans : F × F) (s : SndSt) (hs : s.buf.length < S) :
    newDigs S (sndRun S s ([.hash] ++ rowTail ne v m ans)) [.flush, .hash] = [(sndFlush S (sndRun S ⟨[], [], [], []⟩ (rowTail ne v m 0))).1.hashed] := by
  have hb := sndFlush_buf _ hs
  have h := sndRun_congr hS (rowTail ne v m ans ++ [.flush]) (sndRun S s [.hash]) ⟨[], [], [], []⟩ (by
    simp only [sndRun, hb]; exact hS) (by simpa only [sndRun] using hb) (by simp only [sndRun])
  have e : ∀ s, sndRun S s (rowTail ne v m ans) = sndRun S s (rowTail ne v m 0) := by
    intro s
    simp only [rowTail, sndRun_append, turnMsg]
    rfl
  rw [show ([.flush, .hash] : List SOp) = [.flush] ++ [.hash] from rfl, newDigs_append, newDigs_one _ _ _ (by simp), newDigs_hash, List.nil_append,
    ← sndRun_append]
  have hbuf : (sndRun S s ([.hash] ++ rowTail ne v m ans ++ [.flush])).buf = [] := by
    rw [sndRun_append]
    simp only [sndRun]
    exact sndFlush_buf _ (sndRun_buf hS _ _ hs)
  rw [sndFlush_nil _ _ hbuf]
  simp only [sndRun_append, e] at h ⊢
  simp only [sndRun] at h ⊢
  rw [h.2]

end

/-- Mirrored calls that end with a flush can always be run to the end. -/
theorem mirror_finishes {S : Nat} (hS : 0 < S) {junk : List Byte} {L : List SOp} {R : List ROp} (hm : List.Forall₂ Mirror (L ++ [.flush]) (R ++ [.flush]))
    {c : Net} (hr : Reach S (netInit S junk (L ++ [.flush]) (R ++ [.flush])) c) :
    ∃ c', Reach S (netInit S junk (L ++ [.flush]) (R ++ [.flush])) c' ∧ c'.sops = [] ∧ c'.rops = [] := by
  generalize hmm : netMeasure c = m
  induction m using Nat.strong_induction_on generalizing c with
  | _ m ih =>
    obtain ⟨_, hlt, _⟩ := (sndRun_of_reach hS hr).choose_spec
    have ht := fun c' => C14_terminates (S := S) (c := c) (c' := c') hlt
    rcases C14_no_deadlock hS hm hr with hf | ⟨c', hc⟩ | ⟨c', hc⟩
    · exact ⟨c, hr, hf⟩
    · exact ih _ (hmm ▸ (ht c').1 hc) (.sndStep hr hc) rfl
    · exact ih _ (hmm ▸ (ht c').2 hc) (.rcvStep hr hc) rfl

/-! ### the rows -/

section
variable {F : Type} [Field F] [BlockField F]

theorem mapM_getElem (ws : List F) : ∀ (row : List Nat) (f : Nat → F), (∀ i ∈ row, ws[i]? = some (f i)) → row.mapM (fun i => ws[i]?) = some (row.map f)
  | [], _, _ => rfl
  | i :: row, f, h => by
    rw [List.mapM_cons, h i (by simp), mapM_getElem ws row f (fun j hj => h j (by simp [hj]))]
    rfl

theorem rowWord_range (f : Nat → F) (n : Nat) : rowWord ((List.range n).map f) = ∑ i ∈ Finset.range n, bit (lsb (f i)) * gX ^ i := by
  induction n generalizing f with
  | zero => rfl
  | succ n ih =>
    rw [List.range_succ_eq_map, List.map_cons, List.map_map, rowWord, ih, Finset.sum_range_succ', Finset.mul_sum, pow_zero, mul_one, add_comm]
    congr 1
    refine Finset.sum_congr rfl (fun i _ => ?_)
    simp only [Function.comp]
    ring

/-- Contents `b` of address `i`. -/
theorem wordF_addr (b : Bool) (i : Nat) : (wordF (b.toNat + 2 * i) : F) = bit b + gX * ∑ j ∈ Finset.range 127, bit (i.testBit j) * gX ^ j := by
  rw [wordF_eq, Finset.sum_range_succ', Finset.mul_sum, pow_zero, mul_one, add_comm]
  congr 1
  · congr 1
    cases b
    · simp
    · simp [Nat.testBit_zero]
  · refine Finset.sum_congr rfl (fun j _ => ?_)
    have : (b.toNat + 2 * i).testBit (j + 1) = i.testBit j := by
      rw [Nat.testBit_succ]
      congr 1
      have := Bool.toNat_lt b
      omega
    rw [this]
    ring

theorem rowVals_addr (v : BView F) (m off : Nat) (a : Nat → Bool) (tl : List F) (hoff : off + m ≤ 2 * m) :
    rowVals (rowWires v m a ++ tl) (addrRows m off) = some ((List.range m).map (fun i => wordF ((a (off + i)).toNat + 2 * i))) := by
  have hin : ∀ i, i < 2 * m → (rowWires v m a ++ tl)[i]? = some (labOf v (1 + i) (a i ^^ lsb (v.mac (1 + i)))) := by
    intro i hi
    simp only [rowWires, List.append_assoc]
    rw [List.getElem?_append_left (by simpa using hi)]
    simp [hi]
  have h0 : (rowWires v m a ++ tl)[2 * m]? = some (pubPrv v.pub0 v.pub1 false) := by
    simp only [rowWires, List.append_assoc]
    rw [List.getElem?_append_right (by simp)]
    simp
  have h1 : (rowWires v m a ++ tl)[2 * m + 1]? = some (oneOf v) := by
    simp only [rowWires, List.append_assoc]
    rw [List.getElem?_append_right (by simp)]
    simp
  have hrow : ∀ i < m, ((addrRow m off i).mapM (fun i => (rowWires v m a ++ tl)[i]?)).map rowWord = some (wordF ((a (off + i)).toNat + 2 * i)) := by
    intro i hi
    rw [addrRow, List.mapM_cons, hin _ (by omega), mapM_getElem _ _ (fun k => if k = 2 * m + 1 then oneOf v else pubPrv v.pub0 v.pub1 false) (by
      intro k hk
      obtain ⟨j, _, rfl⟩ := List.mem_map.1 hk
      cases i.testBit j
      · simpa using h0
      · simpa using h1)]
    simp only [Option.bind_eq_bind, Option.bind_some, Option.pure_def, Option.map_some, rowWord, List.map_map, rowWord_range, Option.some.injEq]
    rw [wordF_addr, lsb_labOf]
    congr 1
    · cases a (off + i) <;> cases lsb (v.mac (1 + (off + i))) <;> rfl
    · congr 1
      refine Finset.sum_congr rfl (fun j _ => ?_)
      congr 2
      simp only [Function.comp]
      by_cases hb : i.testBit j = true
      · simp [hb, oneOf, lsb_pubPrv]
      · simp [hb, lsb_pubPrv]
  unfold rowVals addrRows
  have : ∀ (l : List Nat), (∀ i ∈ l, i < m) → (l.map (addrRow m off)).mapM (fun row => (row.mapM (fun i => (rowWires v m a ++ tl)[i]?)).map rowWord) =
      some (l.map (fun i => wordF ((a (off + i)).toNat + 2 * i))) := by
    intro l hl
    induction l with
    | nil => rfl
    | cons i l ih =>
      rw [List.map_cons, List.mapM_cons, hrow i (hl i (by simp)), ih (fun j hj => hl j (by simp [hj]))]
      rfl
  exact this _ (by simp)

end

/-- Two different contents of `m` addresses with the same product. -/
theorem exists_confused {F : Type} [Field F] [PackField F] [Fintype F] (m : Nat) (hm : Fintype.card F < 2 ^ m) (hm' : m ≤ 2 ^ 127) (r : F) :
    ∃ a : Nat → Bool, Confused ((List.range m).map (fun i => (wordF ((a (0 + i)).toNat + 2 * i) : F)))
      ((List.range m).map (fun i => (wordF ((a (m + i)).toNat + 2 * i) : F))) r := by
  obtain ⟨e1, e2, hne, heq⟩ := Fintype.exists_ne_map_eq_of_card_lt
    (fun e : Fin m → Bool => (((List.range m).map (fun i => (wordF ((if h : i < m then e ⟨i, h⟩ else false).toNat + 2 * i) : F))).map (· + r)).prod)
    (by simpa using hm)
  obtain ⟨A, hA1, hA2⟩ : ∃ A : Nat → Bool, (∀ i (h : i < m), A (0 + i) = e1 ⟨i, h⟩) ∧ ∀ i (h : i < m), A (m + i) = e2 ⟨i, h⟩ := by
    refine ⟨fun k => if h : k < m then e1 ⟨k, h⟩ else if h : k - m < m then e2 ⟨k - m, h⟩ else false, ?_, ?_⟩
    · intro i h; simp [h]
    · intro i h; simp [h]
  refine ⟨A, ?_, ?_⟩
  · intro hp
    apply hne
    have hb : ∀ (f : Nat → Bool), ∀ x ∈ (List.range m).map (fun i => (f i).toNat + 2 * i), x < 2 ^ 128 := by
      intro f x hx
      obtain ⟨i, hi, rfl⟩ := List.mem_map.1 hx
      have h1 : i < m := by simpa using hi
      have h2 := Bool.toNat_lt (f i)
      have h3 : (2 : Nat) ^ 128 = 2 * 2 ^ 127 := by norm_num
      rw [h3]
      generalize 2 ^ 127 = q at hm'
      omega
    have hp' := perm_wordF (F := F) (hb (fun i => A (0 + i))) (hb (fun i => A (m + i))) (by
      rw [List.map_map, List.map_map]
      exact hp)
    funext ⟨i, hi⟩
    have hmem := hp'.mem_iff.1 (List.mem_map.2 ⟨i, by simpa using hi, rfl⟩)
    obtain ⟨j, hj, hij⟩ := List.mem_map.1 hmem
    have hj : j < m := by simpa using hj
    rw [hA1 i hi, hA2 j hj] at hij
    have q1 := Bool.toNat_lt (e1 ⟨i, hi⟩)
    have q2 := Bool.toNat_lt (e2 ⟨j, hj⟩)
    have : j = i := by omega
    subst this
    have : (e2 ⟨j, hj⟩).toNat = (e1 ⟨j, hj⟩).toNat := by omega
    revert this
    cases e2 ⟨j, hj⟩ <;> cases e1 ⟨j, hj⟩ <;> simp
  · have f : ∀ (off : Nat) (e : Fin m → Bool), (∀ i (h : i < m), A (off + i) = e ⟨i, h⟩) → (List.range m).map (fun i => (wordF ((A (off + i)).toNat + 2 * i) : F)) =
        (List.range m).map (fun i => (wordF ((if h : i < m then e ⟨i, h⟩ else false).toNat + 2 * i) : F)) := by
      intro off e he
      apply List.map_congr_left
      intro i hi
      have hi : i < m := by simpa using hi
      simp [hi, he i hi]
    rw [f 0 e1 hA1, f m e2 hA2]
    exact heq

end EmpZk
