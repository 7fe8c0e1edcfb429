/-
Helper lemmas for C92: the calls and digests of the session of `Verif.Spec.LateInput`, and its program on plain values.
-/
import Verif.Lemmas.LateInput
import Verif.Lemmas.MsgNet

namespace EmpZk

section
variable {F : Type} [Field F] [BlockField F] {ne : NetEnv F}

/-! ### counters and digests -/

theorem cnt_quiet (f : Nat → BOp) (k : Nat) (c : NetCnt) (hf : ∀ i c, cntStep ne c (f i) = c) :
    cntRun ne c ((List.range k).map f) = c := by
  induction k with
  | zero => rfl
  | succ k ih =>
    simp only [List.range_succ, List.map_append, List.map_cons, List.map_nil]
    rw [cntRun_append, ih]
    exact hf k c

theorem cnt_inputs (x : Nat → Bool) (k : Nat) (c : NetCnt) :
    cntRun ne c ((List.range k).map (fun i => .input (x i))) = ⟨c.used + k, c.gates, c.polys, c.polyB⟩ := by
  induction k with
  | zero => rfl
  | succ k ih =>
    simp only [List.range_succ, List.map_append, List.map_cons, List.map_nil]
    rw [cntRun_append, ih]
    rfl

theorem cnt_ands (l r : Nat → Nat) (k : Nat) (c : NetCnt) (hk : c.gates + k ≤ ne.e.checkSz) :
    cntRun ne c ((List.range k).map (fun i => .and (l i) (r i))) = ⟨c.used + k, c.gates + k, c.polys, c.polyB⟩ := by
  induction k with
  | zero => rfl
  | succ k ih =>
    simp only [List.range_succ, List.map_append, List.map_cons, List.map_nil]
    rw [cntRun_append, ih (by omega)]
    have : cntRoomA ne ⟨c.used + k, c.gates + k, c.polys, c.polyB⟩ = ⟨c.used + k, c.gates + k, c.polys, c.polyB⟩ := by
      unfold cntRoomA
      rw [if_neg (by simp only; omega)]
    simp only [cntRun, List.foldl_cons, List.foldl_nil, cntStep, this, Nat.add_assoc]

theorem digs_quiet (S : Nat) (ops : List BOp) (h : ∀ o ∈ ops, ∀ c, dueA ne c o = false) : ∀ io c (ms : List (BMsg F)),
    runDigs ne S io c ops ms = [] := by
  induction ops with
  | nil => intro io c ms; cases ms <;> rfl
  | cons o os ih =>
    intro io c ms
    cases ms with
    | nil => rfl
    | cons m ms =>
      simp only [runDigs, h o (by simp), ih (fun o ho => h o (by simp [ho]))]
      rfl

theorem digs_ands (S : Nat) (l r : Nat → Nat) (k : Nat) (c : NetCnt) (io : SndSt) (f : Nat → BMsg F) (hk : c.gates + k ≤ ne.e.checkSz) :
    runDigs ne S io c ((List.range k).map (fun i => .and (l i) (r i))) ((List.range k).map f) = [] := by
  induction k with
  | zero => rfl
  | succ k ih =>
    simp only [List.range_succ, List.map_append, List.map_cons, List.map_nil]
    rw [runDigs_append _ _ _ _ _ _ _ (by simp), ih (by omega), cnt_ands _ _ _ _ (by omega)]
    have : dueA ne ⟨c.used + k, c.gates + k, c.polys, c.polyB⟩ (.and (l k) (r k)) = false := by
      simp only [dueA, decide_eq_false_iff_not]; omega
    simp only [runDigs, this]
    rfl

theorem early_cnt (n : Nat) (x : Nat → Bool) :
    cntRun ne ⟨1, 0, 0, 0⟩ (earlyOps n ne.e.checkSz x) = ⟨1 + n + ne.e.checkSz, ne.e.checkSz, 0, 0⟩ := by
  simp only [earlyOps, cntRun_append]
  rw [cnt_inputs, cnt_quiet (fun i => .reveal i) n _ (fun _ _ => rfl), cnt_ands (fun _ => n) (fun _ => n) _ _ (by
    simp [cntRun, cntStep])]
  simp [cntRun, cntStep]

theorem turn_cnt (n : Nat) : cntStep ne ⟨1 + n + ne.e.checkSz, ne.e.checkSz, 0, 0⟩ (.and n n) = ⟨1 + n + ne.e.checkSz + 128 + 1, 1, 0, 0⟩ := by
  simp [cntStep, cntRoomA, NetCnt.andChk]

theorem late_cnt (n : Nat) (hn : n + 1 ≤ ne.e.checkSz) :
    cntRun ne ⟨1 + n + ne.e.checkSz + 128 + 1, 1, 0, 0⟩ (lateOps n ne.e.checkSz) = ⟨1 + n + ne.e.checkSz + 128 + 1 + n, 1 + n, 0, 0⟩ := by
  simp only [lateOps, cntRun_append]
  rw [cnt_ands (fun i => i) (fun _ => n) n _ (by simp only; omega), cnt_quiet (fun i => .reveal (n + ne.e.checkSz + 2 + i)) n _ (fun _ _ => rfl)]

theorem early_digs (S n : Nat) (x a : Nat → Bool) (v : BView F) (io : SndSt) :
    runDigs ne S io ⟨1, 0, 0, 0⟩ (earlyOps n ne.e.checkSz x) (earlyMsgs v n ne.e.checkSz a) = [] := by
  simp only [earlyOps, earlyMsgs]
  rw [runDigs_append _ _ _ _ _ _ _ (by simp), runDigs_append _ _ _ _ _ _ _ (by simp), runDigs_append _ _ _ _ _ _ _ (by simp),
    cnt_inputs, cnt_quiet (fun i => .reveal i) n _ (fun _ _ => rfl)]
  rw [digs_quiet _ _ (by simp [dueA]), digs_quiet _ [.pub true] (by simp [dueA]), digs_quiet _ ((List.range n).map _) (by simp [dueA])]
  rw [digs_ands S (fun _ => n) (fun _ => n) _ _ _ _ (by simp [cntRun, cntStep])]
  rfl

theorem late_digs (S n : Nat) (v : BView F) (hn : n + 1 ≤ ne.e.checkSz) (io : SndSt) (u : Nat) :
    runDigs ne S io ⟨u, 1, 0, 0⟩ (lateOps n ne.e.checkSz) (lateMsgs v n ne.e.checkSz) = [] := by
  simp only [lateOps, lateMsgs]
  rw [runDigs_append _ _ _ _ _ _ _ (by simp), digs_ands S (fun i => i) (fun _ => n) _ _ _ _ (by simp only; omega),
    digs_quiet _ _ (by simp [dueA])]
  rfl

/-- The calls of the second part after the digest of the first check, up to the second one, without the answer to the first check. -/
def lateCalls (ne : NetEnv F) (v : BView F) (n : Nat) (ans : F × F) : List SOp :=
  ne.extP (1 + n + ne.e.checkSz) 128 ++ ([.data (ne.enc2 ans), .flush] ++
    ((ne.extP (1 + n + ne.e.checkSz + 128) 1 ++ [.bit (turnMsg v n ne.e.checkSz ans).bit]) ++
      runCallsP ne ⟨1 + n + ne.e.checkSz + 128 + 1, 1, 0, 0⟩ (lateOps n ne.e.checkSz) (lateMsgs v n ne.e.checkSz)))

theorem late_calls (v : BView F) (n : Nat) (x a : Nat → Bool) (ans : F × F) :
    runCallsP ne ⟨1, 0, 0, 0⟩ (lateProg n ne.e.checkSz x) (earlyMsgs v n ne.e.checkSz a ++ ([turnMsg v n ne.e.checkSz ans] ++ lateMsgs v n ne.e.checkSz)) =
      runCallsP ne ⟨1, 0, 0, 0⟩ (earlyOps n ne.e.checkSz x) (earlyMsgs v n ne.e.checkSz a) ++ ([.hash] ++ lateCalls ne v n ans) := by
  rw [lateProg, runCallsP_append _ _ _ _ _ (by simp [earlyOps, earlyMsgs]), early_cnt]
  congr 1
  simp only [List.singleton_append, runCallsP, turn_cnt, callsP, if_true, andCallsP, cntRoomA, NetCnt.andChk, lateCalls, turnMsg,
    List.append_assoc, List.cons_append, List.nil_append]

theorem late_runDigs (S : Nat) (v : BView F) (n : Nat) (hn : n + 1 ≤ ne.e.checkSz) (x a : Nat → Bool) (ans : F × F) (io : SndSt) :
    runDigs ne S io ⟨1, 0, 0, 0⟩ (lateProg n ne.e.checkSz x) (earlyMsgs v n ne.e.checkSz a ++ ([turnMsg v n ne.e.checkSz ans] ++ lateMsgs v n ne.e.checkSz)) =
      [(sndFlush S (sndRun S io (runCallsP ne ⟨1, 0, 0, 0⟩ (earlyOps n ne.e.checkSz x) (earlyMsgs v n ne.e.checkSz a)))).1.hashed] := by
  rw [lateProg, runDigs_append _ _ _ _ _ _ _ (by simp [earlyOps, earlyMsgs]), early_digs, early_cnt]
  simp only [List.singleton_append, runDigs, turn_cnt, List.nil_append]
  rw [late_digs _ _ _ hn]
  simp [dueA]

/-- The second digest does not depend on the inputs, nor on the answer to the first check. -/
theorem late_digest (S : Nat) (hS : 0 < S) (v : BView F) (n : Nat) (ans : F × F) (s : SndSt) (hs : s.buf.length < S) :
    (sndFlush S (sndRun S s ([.hash] ++ lateCalls ne v n ans))).1.hashed = (sndFlush S (sndRun S ⟨[], [], [], []⟩ (lateCalls ne v n 0))).1.hashed := by
  have hb := sndFlush_buf _ hs
  have h := (sndRun_congr hS (lateCalls ne v n ans ++ [.flush]) (sndRun S s [.hash]) ⟨[], [], [], []⟩ (by
    simp only [sndRun, hb]; exact hS) (by simpa only [sndRun] using hb) (by simp only [sndRun])).2
  have e : ∀ s, sndRun S s (lateCalls ne v n ans) = sndRun S s (lateCalls ne v n 0) := by
    intro s
    simp only [lateCalls, sndRun_append, turnMsg]
    rfl
  simp only [sndRun_append, e] at h ⊢
  simpa only [sndRun] using h

end

/-! ### the program on plain values -/

theorem pl_inputs (x : Nat → Bool) (s : Plain) (k : Nat) :
    ((List.range k).map (fun i => BOp.input (x i))).foldlM plainStep s = some { s with wires := s.wires ++ (List.range k).map x } := by
  induction k with
  | zero => simp
  | succ k ih =>
    simp only [List.range_succ, List.map_append, List.map_cons, List.map_nil, List.foldlM_append, ih]
    simp [plainStep]

theorem pl_reveals (idx : Nat → Nat) (A : Nat → Bool) (s : Plain) (k : Nat) (h : ∀ i < k, s.wires[idx i]? = some (A i)) :
    ((List.range k).map (fun i => BOp.reveal (idx i))).foldlM plainStep s = some { s with outs := s.outs ++ (List.range k).map A } := by
  induction k with
  | zero => simp
  | succ k ih =>
    simp only [List.range_succ, List.map_append, List.map_cons, List.map_nil, List.foldlM_append, ih (fun i hi => h i (by omega))]
    simp [plainStep, h k (by omega)]

theorem pl_ands (l r : Nat → Nat) (A B : Nat → Bool) (s : Plain) (k : Nat) (hA : ∀ i < k, s.wires[l i]? = some (A i))
    (hB : ∀ i < k, s.wires[r i]? = some (B i)) :
    ((List.range k).map (fun i => BOp.and (l i) (r i))).foldlM plainStep s =
      some { s with wires := s.wires ++ (List.range k).map (fun i => A i && B i) } := by
  induction k with
  | zero => simp
  | succ k ih =>
    simp only [List.range_succ, List.map_append, List.map_cons, List.map_nil, List.foldlM_append,
      ih (fun i hi => hA i (by omega)) (fun i hi => hB i (by omega))]
    have e1 : ∀ (i : Nat) (a : Bool) (t : List Bool), s.wires[i]? = some a → (s.wires ++ t)[i]? = some a := by
      intro i a t ha
      rw [List.getElem?_append_left]
      · exact ha
      · rw [List.getElem?_eq_some_iff] at ha; exact ha.1
    simp [plainStep, e1 _ _ _ (hA k (by omega)), e1 _ _ _ (hB k (by omega))]

theorem late_plain (n c : Nat) (x : Nat → Bool) : ∃ pl, plainRun (lateProg n c x) = some pl ∧
    pl.outs = (List.range n).map x ++ (List.range n).map x := by
  unfold plainRun
  simp only [lateProg, earlyOps, lateOps, List.foldlM_append, pl_inputs, Option.bind_eq_bind, Option.bind_some, List.nil_append]
  simp only [List.foldlM_cons, List.foldlM_nil, plainStep, Option.bind_eq_bind, Option.bind_some, Option.pure_def]
  rw [pl_reveals (fun i => i) x _ n (by
    intro i hi
    rw [List.getElem?_append_left (by simpa using hi)]
    simp [hi]), Option.bind_some]
  rw [pl_ands (fun _ => n) (fun _ => n) (fun _ => true) (fun _ => true) _ c (by
    intro i hi
    rw [List.getElem?_append_right (by simp)]
    simp) (by
    intro i hi
    rw [List.getElem?_append_right (by simp)]
    simp), Option.bind_some]
  have h1 : ∀ t : List Bool, (((List.range n).map x ++ [true]) ++ t)[n]? = some true := by
    intro t
    rw [List.append_assoc, List.getElem?_append_right (by simp)]
    simp
  simp only [h1, Option.bind_some]
  rw [pl_ands (fun i => i) (fun _ => n) x (fun _ => true) _ n (by
    intro i hi
    simp only [List.append_assoc]
    rw [List.getElem?_append_left (by simpa using hi)]
    simp [hi]) (by
    intro i hi
    simp only [List.append_assoc]
    rw [List.getElem?_append_right (by simp)]
    simp), Option.bind_some]
  rw [pl_reveals (fun i => n + c + 2 + i) x _ n (by
    intro i hi
    rw [List.getElem?_append_right (by simp; omega)]
    simp only [List.length_append, List.length_map, List.length_range, List.length_cons, List.length_nil, List.getElem?_map]
    rw [show n + c + 2 + i - (n + (0 + 1) + c + (0 + 1)) = i by omega]
    simp [hi])]
  exact ⟨_, rfl, rfl⟩

theorem same_inputs (n : Nat) (x : Nat → Bool) : ∀ l, List.Forall₂ BOp.same ((List.range n).map (fun i => BOp.input (x i))) l →
    ∃ y : Nat → Bool, l = (List.range n).map (fun i => BOp.input (y i)) := by
  intro l h
  have hl : l.length = n := by simpa using h.length_eq.symm
  refine ⟨fun i => match l[i]? with | some (.input b) => b | _ => false, ?_⟩
  apply List.ext_getElem
  · simp [hl]
  · intro i h1 h2
    have := h.get (by simpa using (hl ▸ h1)) h1
    simp only [List.get_eq_getElem, List.getElem_map, List.getElem_range] at this ⊢
    rw [List.getElem?_eq_getElem h1]
    cases ho : l[i] with
    | input b => rfl
    | _ => rw [ho] at this; cases this

theorem same_fixed : ∀ (ops l : List BOp), (∀ o ∈ ops, ∀ b, o ≠ .input b) → List.Forall₂ BOp.same ops l → l = ops := by
  intro ops l hn h
  induction h with
  | nil => rfl
  | @cons o o' os os' ho _ ih =>
    have h1 : o' = o := by
      have := hn o (by simp)
      cases o with
      | input b => exact absurd rfl (this b)
      | _ => exact (by simpa [BOp.same] using ho.symm)
    rw [h1, ih (fun o ho => hn o (by simp [ho]))]

theorem same_lateProg (n c : Nat) (x : Nat → Bool) (l : List BOp) (h : List.Forall₂ BOp.same (lateProg n c x) l) :
    ∃ y, l = lateProg n c y := by
  have h1 := List.forall₂_take n h
  have h2 := List.forall₂_drop n h
  have hl : ((List.range n).map (fun i => BOp.input (x i))).length = n := by simp
  have e : lateProg n c x = (List.range n).map (fun i => BOp.input (x i)) ++ (([.pub true] ++
    ((List.range n).map (fun i => .reveal i) ++ (List.range c).map (fun _ => .and n n))) ++ ([.and n n] ++ lateOps n c)) := by
    simp only [lateProg, earlyOps, List.append_assoc]
  rw [e, List.take_left' hl] at h1
  rw [e, List.drop_left' hl] at h2
  obtain ⟨y, hy⟩ := same_inputs n x _ h1
  have hz := same_fixed _ _ (by
    simp only [lateOps, List.mem_append, List.mem_map, List.mem_range, List.mem_singleton]
    intro o ho
    rcases ho with (rfl | ⟨a, _, rfl⟩ | ⟨a, _, rfl⟩) | rfl | ⟨a, _, rfl⟩ | ⟨a, _, rfl⟩ <;> simp) h2
  refine ⟨y, ?_⟩
  rw [← List.take_append_drop n l, hy, hz]
  simp only [lateProg, earlyOps, List.append_assoc]

end EmpZk
