/-
Helper lemmas for C92: the session of `Verif.Spec.LateInput` on committed blocks.
-/
import Verif.Spec.LateInput
import Verif.Lemmas.BoolExtract
import Verif.Lemmas.NetMsgs
import Verif.Props.Challenge

namespace EmpZk

section
variable {F : Type} [Field F] [BlockField F]

theorem comRun_append (v : BView F) (ops ops' : List BOp) : ∀ (s : ComSt F) (ms ms' : List (BMsg F)), ms.length = ops.length →
    comRun v s (ops ++ ops') (ms ++ ms') = (comRun v s ops ms).bind (fun t => comRun v t ops' ms') := by
  induction ops with
  | nil =>
    intro s ms ms' h
    cases ms with
    | nil => rfl
    | cons => simp at h
  | cons o os ih =>
    intro s ms ms' h
    cases ms with
    | nil => simp at h
    | cons m ms =>
      simp only [List.cons_append, comRun, Option.bind_eq_bind]
      cases comStep v s m o with
      | none => rfl
      | some t => simp only [Option.bind_some, ih t ms ms' (by simpa using h)]

theorem comRun_one (v : BView F) (s : ComSt F) (o : BOp) (m : BMsg F) : comRun v s [o] [m] = comStep v s m o := by
  simp only [comRun, Option.bind_eq_bind]
  cases comStep v s m o <;> rfl

theorem com_inputs (v : BView F) (x d : Nat → Bool) (s : ComSt F) (k : Nat) :
    comRun v s ((List.range k).map (fun i => .input (x i))) ((List.range k).map (fun i => ⟨d i, 0, 0⟩)) =
      some { s with wires := s.wires ++ (List.range k).map (fun i => v.mac (s.used + i) + bit (d i)), used := s.used + k,
                    transcript := s.transcript ++ (List.range k).map d } := by
  induction k with
  | zero => simp [comRun]
  | succ k ih =>
    simp only [List.range_succ, List.map_append, List.map_cons, List.map_nil]
    rw [comRun_append _ _ _ _ _ _ (by simp), ih, Option.bind_some, comRun_one]
    simp only [comStep, List.append_assoc, Nat.add_assoc]

theorem com_reveals (v : BView F) (idx : Nat → Nat) (A : Nat → F) (d : Nat → Bool) (s : ComSt F) (k : Nat)
    (h : ∀ i < k, s.wires[idx i]? = some (A i)) :
    comRun v s ((List.range k).map (fun i => .reveal (idx i))) ((List.range k).map (fun i => ⟨d i, 0, 0⟩)) =
      some { s with opened := s.opened ++ (List.range k).map (fun i => (A i, d i)),
                    transcript := s.transcript ++ (List.range k).map d } := by
  induction k with
  | zero => simp [comRun]
  | succ k ih =>
    simp only [List.range_succ, List.map_append, List.map_cons, List.map_nil]
    rw [comRun_append _ _ _ _ _ _ (by simp), ih (fun i hi => h i (by omega)), Option.bind_some, comRun_one]
    simp only [comStep, h k (by omega), Option.bind_eq_bind, Option.bind_some, List.append_assoc]

theorem com_ands (v : BView F) (l r : Nat → Nat) (A B : Nat → F) (d : Nat → Bool) (s : ComSt F) (k : Nat)
    (hA : ∀ i < k, s.wires[l i]? = some (A i)) (hB : ∀ i < k, s.wires[r i]? = some (B i)) (hk : s.gates.length + k ≤ v.checkSz) :
    comRun v s ((List.range k).map (fun i => .and (l i) (r i))) ((List.range k).map (fun i => ⟨d i, 0, 0⟩)) =
      some { s with wires := s.wires ++ (List.range k).map (fun i => v.mac (s.used + i) + bit (d i)), used := s.used + k,
                    transcript := s.transcript ++ (List.range k).map d,
                    gates := s.gates ++ (List.range k).map (fun i => ⟨A i, B i, v.mac (s.used + i) + bit (d i)⟩) } := by
  induction k with
  | zero => simp [comRun]
  | succ k ih =>
    simp only [List.range_succ, List.map_append, List.map_cons, List.map_nil]
    rw [comRun_append _ _ _ _ _ _ (by simp), ih (fun i hi => hA i (by omega)) (fun i hi => hB i (by omega)) (by omega),
      Option.bind_some, comRun_one]
    have e1 : ∀ (i : Nat) (a : F) (t : List F), s.wires[i]? = some a → (s.wires ++ t)[i]? = some a := by
      intro i a t ha
      rw [List.getElem?_append_left]
      · exact ha
      · rw [List.getElem?_eq_some_iff] at ha; exact ha.1
    simp only [comStep, e1 _ _ _ (hA k (by omega)), e1 _ _ _ (hB k (by omega)), Option.bind_eq_bind, Option.bind_some, comAndRoom,
      List.length_append, List.length_map, List.length_range]
    rw [if_neg (by omega), Option.bind_some]
    simp only [comAndPush, List.length_append, List.length_map, List.length_range]
    rw [if_pos (by omega)]
    simp only [List.append_assoc, Nat.add_assoc]

/-- A committed wire made from correlation `i` and the bit `d`. -/
def labOf (v : BView F) (i : Nat) (d : Bool) : F := v.mac i + bit d

theorem lsb_labOf (v : BView F) (i : Nat) (d : Bool) : lsb (labOf v i d) = (lsb (v.mac i) ^^ d) := by
  rw [labOf, lsb_add, lsb_bit]

/-- The label of the public bit 1. -/
def oneOf (v : BView F) : F := pubPrv v.pub0 v.pub1 true

/-- Gates of the first batch. -/
def gates1 (v : BView F) (n c : Nat) : List (Gate F) :=
  (List.range c).map (fun i => ⟨oneOf v, oneOf v, labOf v (1 + n + i) (!lsb (v.mac (1 + n + i)))⟩)

/-- Gates of the second batch. -/
def gates2 (v : BView F) (n c : Nat) (a : Nat → Bool) : List (Gate F) :=
  [⟨oneOf v, oneOf v, labOf v (1 + n + c + 128) (!lsb (v.mac (1 + n + c + 128)))⟩] ++
    (List.range n).map (fun i => ⟨labOf v (1 + i) (a i ^^ lsb (v.mac (1 + i))), oneOf v,
      labOf v (1 + n + c + 128 + 1 + i) (lsb (v.mac (1 + n + c + 128 + 1 + i)))⟩)

theorem gates1_correct (v : BView F) (n c : Nat) : ∀ g ∈ gates1 v n c, g.Correct := by
  intro g hg
  obtain ⟨i, _, rfl⟩ := List.mem_map.1 hg
  simp only [Gate.Correct, oneOf, lsb_pubPrv, lsb_labOf]
  cases lsb (v.mac (1 + n + i)) <;> rfl

theorem gates2_err (v : BView F) (n c : Nat) (a : Nat → Bool) :
    (gates2 v n c a).map Gate.err = [0] ++ ((List.range n).map a).map bit := by
  simp only [gates2, List.map_append, List.map_cons, List.map_nil, List.map_map]
  congr 1
  · simp only [Gate.err, oneOf, lsb_pubPrv, lsb_labOf]
    cases lsb (v.mac (1 + n + c + 128)) <;> simp
  · apply List.map_congr_left
    intro i _
    simp only [Function.comp, Gate.err, oneOf, lsb_pubPrv, lsb_labOf]
    cases lsb (v.mac (1 + i)) <;> cases a i <;> simp

theorem late_com (v : BView F) (n : Nat) (x a : Nat → Bool) (ans0 ans1 : F × F) (h : F) (hn : n + 1 ≤ v.checkSz) (ht : 0 < v.threads)
    (htn : v.threads ≤ n) :
    ∃ C, comSession v (lateProg n v.checkSz x) (earlyMsgs v n v.checkSz a ++ ([turnMsg v n v.checkSz ans0] ++ lateMsgs v n v.checkSz))
        ⟨(0, 0), ans1, h⟩ = some C ∧
      C.opened = (List.range n).map (fun i => (labOf v (1 + i) (a i ^^ lsb (v.mac (1 + i))), a i)) ++
        (List.range n).map (fun i => (labOf v (1 + n + v.checkSz + 128 + 1 + i) (lsb (v.mac (1 + n + v.checkSz + 128 + 1 + i))), false)) ∧
      C.polyLog = [] ∧ ∃ t0 t1 u0 u1, C.andLog = [⟨gates1 v n v.checkSz, v.chal 0 t0, u0, ans0⟩, ⟨gates2 v n v.checkSz a, v.chal 1 t1, u1, ans1⟩] ∧
        u0 = 1 + n + v.checkSz ∧ u1 = 1 + n + v.checkSz + 128 + 1 + n := by
  generalize hc : v.checkSz = c at *
  have hs1 : (splitTasks c v.threads).isSome := (splitTasks_isSome _ _).2 ⟨ht, by omega⟩
  have hs2 : (splitTasks (n + 1) v.threads).isSome := (splitTasks_isSome _ _).2 ⟨ht, by omega⟩
  simp only [comSession, lateProg, earlyOps, lateOps, earlyMsgs, lateMsgs, Option.bind_eq_bind]
  rw [comRun_append _ _ _ _ _ _ (by simp), comRun_append _ _ _ _ _ _ (by simp), com_inputs, Option.bind_some,
    comRun_append _ _ _ _ _ _ (by simp), comRun_one]
  simp only [comStep, Option.bind_some, ComSt.init, List.nil_append]
  rw [comRun_append _ _ _ _ _ _ (by simp)]
  rw [com_reveals v (fun i => i) (fun i => labOf v (1 + i) (a i ^^ lsb (v.mac (1 + i)))) a _ n (by
    intro i hi
    rw [List.getElem?_append_left (by simpa using hi)]
    simp [hi, labOf]), Option.bind_some]
  rw [com_ands v (fun _ => n) (fun _ => n) (fun _ => oneOf v) (fun _ => oneOf v) _ _ c (by
    intro i hi
    rw [List.getElem?_append_right (by simp)]
    simp [oneOf]) (by
    intro i hi
    rw [List.getElem?_append_right (by simp)]
    simp [oneOf]) (by simp [hc]), Option.bind_some]
  rw [comRun_append _ _ _ _ _ _ (by simp), comRun_one]
  have hone : ∀ (t : List F), (((List.range n).map (fun i => v.mac (1 + i) + bit (a i ^^ lsb (v.mac (1 + i)))) ++
      [pubPrv v.pub0 v.pub1 true]) ++ t)[n]? = some (oneOf v) := by
    intro t
    rw [List.append_assoc, List.getElem?_append_right (by simp)]
    simp [oneOf]
  simp only [comStep, hone, turnMsg, Option.bind_eq_bind, Option.bind_some, comAndRoom, List.nil_append, List.length_map, List.length_range,
    hc, if_true, hs1, comAndCheck, comAndPush, List.length_nil]
  rw [if_pos (by omega), Option.bind_some]
  rw [comRun_append _ _ _ _ _ _ (by simp)]
  rw [com_ands v (fun i => i) (fun _ => n) (fun i => labOf v (1 + i) (a i ^^ lsb (v.mac (1 + i)))) (fun _ => oneOf v) _ _ n (by
    intro i hi
    simp only [List.append_assoc]
    rw [List.getElem?_append_left (by simpa using hi)]
    simp [hi, labOf]) (by
    intro i hi
    simp only [List.append_assoc]
    rw [List.getElem?_append_right (by simp)]
    simp [oneOf]) (by simp [hc]; omega), Option.bind_some]
  rw [com_reveals v (fun i => n + c + 2 + i) (fun i => labOf v (1 + n + c + 128 + 1 + i) (lsb (v.mac (1 + n + c + 128 + 1 + i)))) (fun _ => false) _ n (by
    intro i hi
    rw [List.getElem?_append_right (by simp; omega)]
    simp only [List.length_append, List.length_map, List.length_range, List.length_cons, List.length_nil, List.getElem?_map]
    rw [show n + c + 2 + i - (n + (0 + 1) + c + (0 + 1)) = i by omega]
    simp [hi, labOf]), Option.bind_some]
  simp only [comFinalize, comFinPoly, comFinAnd, ne_eq, not_true_eq_false, if_false]
  rw [if_pos (by simp), if_pos (by
    simp only [List.length_append, List.length_map, List.length_range, List.length_cons, List.length_nil]
    rw [show 0 + 1 + n = n + 1 by omega]; exact hs2)]
  refine ⟨_, rfl, ?_, rfl, ?_⟩
  · rfl
  · refine ⟨_, _, _, _, rfl, rfl, rfl⟩

/-- Exists an input pattern which the second batch does not notice. -/
theorem exists_null_input [Fintype F] (n : Nat) (hn : Fintype.card F < 2 ^ n) (z : List F) (hz : ∀ x ∈ z, x = 0)
    (seeds : Nat → F) (ts : List (Nat × Nat)) :
    ∃ e : Nat → Bool, (∃ i < n, e i = true) ∧ errSumL (z ++ ((List.range n).map e).map bit) seeds ts 0 = 0 := by
  obtain ⟨u, w, hne, heq⟩ := Fintype.exists_ne_map_eq_of_card_lt
    (fun e : Fin n → Bool => errSumL (z ++ (List.ofFn e).map bit) seeds ts 0) (by simpa using hn)
  refine ⟨fun i => if h : i < n then u ⟨i, h⟩ ^^ w ⟨i, h⟩ else false, ?_, ?_⟩
  · obtain ⟨i, hi⟩ := Function.ne_iff.1 hne
    refine ⟨i, i.2, ?_⟩
    simp only [i.2, dif_pos]
    revert hi; cases u i <;> cases w i <;> simp
  · have hzz : List.zipWith (· + ·) z z = z := by
      clear heq
      induction z with
      | nil => rfl
      | cons x z ih =>
        rw [List.zipWith_cons_cons, ih (fun y hy => hz y (by simp [hy])), hz x (by simp), add_zero]
    have : z ++ ((List.range n).map (fun i => if h : i < n then u ⟨i, h⟩ ^^ w ⟨i, h⟩ else false)).map (bit (F := F)) =
        List.zipWith (· + ·) (z ++ (List.ofFn u).map bit) (z ++ (List.ofFn w).map bit) := by
      rw [List.zipWith_append rfl, hzz]
      congr 1
      apply List.ext_getElem
      · simp
      · intro i h1 h2
        have : i < n := by simpa using h1
        simp [this, bit_xor]
    rw [this, errSumL_zip _ _ (by simp)]
    rw [show errSumL _ seeds ts 0 = _ from heq, addSelf]

variable [DecidableEq F]

/-- Message level: with inputs the second batch does not notice, the session is accepted for every `Delta`. -/
theorem late_accepts (v : BView F) (n : Nat) (x a : Nat → Bool) (hn : n + 1 ≤ v.checkSz) (ht : 0 < v.threads)
    (htn : v.threads ≤ n) (sd : Nat → Nat → F) (hsd : ∀ k t, v.chal k t = sd k)
    (hz : ∀ ts, splitTasks (n + 1) v.threads = some ts → errSum (gates2 v n v.checkSz a) (sd 1) ts 0 = 0) :
    ∃ ans0 fin, ∀ delta, lsb delta = true → ∃ V,
      verSession (v.env delta) (lateProg n v.checkSz x)
        (earlyMsgs v n v.checkSz a ++ ([turnMsg v n v.checkSz ans0] ++ lateMsgs v n v.checkSz)) fin = some V ∧
      cheated V = false ∧ V.outs = (List.range n).map a ++ (List.range n).map (fun _ => false) := by
  obtain ⟨ts1, hs1⟩ := Option.isSome_iff_exists.1 ((splitTasks_isSome v.checkSz v.threads).2 ⟨ht, by omega⟩)
  obtain ⟨ts2, hs2⟩ := Option.isSome_iff_exists.1 ((splitTasks_isSome (n + 1) v.threads).2 ⟨ht, by omega⟩)
  have hl1 : (gates1 v n v.checkSz).length = v.checkSz := by simp [gates1]
  have hl2 : (gates2 v n v.checkSz a).length = n + 1 := by simp [gates2, Nat.add_comm]
  let ope0 : Nat → F := fun i => v.mac (1 + n + v.checkSz + i)
  let ope1 : Nat → F := fun i => v.mac (1 + n + v.checkSz + 128 + 1 + n + i)
  let an (g : List (Gate F)) (s : Nat → F) (o : Nat → F) (ts : List (Nat × Nat)) : F × F :=
    (packBlocks o + (checkSumPrv g s ts 0).1, packLsbs o + (checkSumPrv g s ts 0).2)
  let dg : F := (v.hash (((List.range n).map (fun i => (labOf v (1 + i) (a i ^^ lsb (v.mac (1 + i))), a i)) ++
        (List.range n).map (fun i => (labOf v (1 + n + v.checkSz + 128 + 1 + i) (lsb (v.mac (1 + n + v.checkSz + 128 + 1 + i))), false))).map Prod.fst))
  obtain ⟨C, k1, k2, k3, t0, t1, u0, u1, k4, e0, e1⟩ := late_com v n x a (an (gates1 v n v.checkSz) (sd 0) ope0 ts1)
    (an (gates2 v n v.checkSz a) (sd 1) ope1 ts2) dg hn ht htn
  refine ⟨an (gates1 v n v.checkSz) (sd 0) ope0 ts1, ⟨(0, 0), an (gates2 v n v.checkSz a) (sd 1) ope1 ts2, dg⟩, ?_⟩
  intro delta hd
  obtain ⟨ch, k6⟩ := verSession_img v hd (lateProg n v.checkSz x)
        (earlyMsgs v n v.checkSz a ++ ([turnMsg v n v.checkSz (an (gates1 v n v.checkSz) (sd 0) ope0 ts1)] ++ lateMsgs v n v.checkSz))
    ⟨(0, 0), an (gates2 v n v.checkSz a) (sd 1) ope1 ts2, dg⟩
  rw [k1, Option.map_some] at k6
  have hop : ∀ o ∈ C.opened, lsb o.1 = o.2 := by
    rw [k2]
    intro o ho
    rcases List.mem_append.1 ho with ho | ho <;> obtain ⟨i, _, rfl⟩ := List.mem_map.1 ho
    · simp only [lsb_labOf]; cases lsb (v.mac (1 + i)) <;> cases a i <;> rfl
    · simp only [lsb_labOf]; cases lsb (v.mac (1 + n + v.checkSz + 128 + 1 + i)) <;> rfl
  have hdig : (verImg delta C ch).digest = C.opened.map Prod.fst := by
    simp only [verImg]
    apply List.map_congr_left
    intro o ho
    rw [openVer_keyOf, hop o ho, Bool.xor_self, bit_false, zero_mul, add_zero]
  refine ⟨verImg delta C ch, k6, ?_, ?_⟩
  · have := (cheats_session k6).2 ⟨?_, ?_, ?_⟩
    · simp [cheated, this]
    · intro r hr
      simp only [verImg, k4, List.map_cons, List.map_nil, List.mem_cons, List.not_mem_nil, or_false] at hr
      rcases hr with rfl | rfl
      · have h := andCheckVer_keyOf delta (gates1 v n v.checkSz) v.threads (v.chal 0 t0) (fun i => v.mac (u0 + i))
          (an (gates1 v n v.checkSz) (sd 0) ope0 ts1)
        refine h.trans ?_
        rw [hl1, hs1, Option.map_some, errSum_correct _ (gates1_correct v n v.checkSz), hsd, e0, Option.some.injEq, decide_eq_true_eq]
        simp only [an, ope0]
        ring
      · have h := andCheckVer_keyOf delta (gates2 v n v.checkSz a) v.threads (v.chal 1 t1) (fun i => v.mac (u1 + i))
          (an (gates2 v n v.checkSz a) (sd 1) ope1 ts2)
        refine h.trans ?_
        rw [hl2, hs2, Option.map_some, hsd, hz ts2 hs2, e1, Option.some.injEq, decide_eq_true_eq]
        simp only [an, ope1]
        ring
    · intro r hr
      simp [verImg, k3] at hr
    · rw [hdig, k2]
      rfl
  · simp only [verImg, k2, List.map_append, List.map_map]
    rfl

end
end EmpZk
