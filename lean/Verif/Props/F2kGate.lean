/-
Property theorems C48, C55, C59, C61: products over F_{2^128} behind the RAM extension.
-/
import Verif.Lemmas.F2kChain
import Verif.Lemmas.GF128
import Verif.Lemmas.BoolHide
import Verif.Props.BoolIO

namespace EmpZk

section
variable {F : Type} [Field F] [BlockField F]

/-! ### C55: two-operand products -/

/-- C55 (MACs and pairing). For every history of `compute_mul` calls, whatever values the prover commits to: the verifier's
output keys are the keys of the prover's committed outputs, the committed values are those the prover chose (line 109: the
products), and the batches handed to the check are, in order and without gap or repetition, the operands of each call together
with the output of the same call. Both parties check the same batches, none of them empty. -/
theorem C55_history (delta : F) {sz : Nat} (hsz : 0 < sz) (calls : List ((F × F) × (F × F) × F))
    (fresh : List (List (F × F))) (auth : List (F × F)) (ha : sz ≤ auth.length) (hl : ∀ f ∈ fresh, sz ≤ f.length)
    (hn : calls.length ≤ sz * (1 + fresh.length)) :
    ∃ outs ds bts, f2kRunPrv sz fresh ⟨[], [], auth, 0⟩ calls = some (outs, ds, bts) ∧
      f2kRunVer delta sz (fresh.map (List.map (keyF delta))) ⟨[], [], auth.map (keyF delta), 0⟩
        ((calls.zip ds).map (fun cd => (keyF delta cd.1.1, keyF delta cd.1.2.1, cd.2))) =
        some (outs.map (keyF delta), bts.map (List.map (keyF3 delta))) ∧
      outs.map Prod.fst = calls.map (fun c => c.2.2) ∧ ds.length = calls.length ∧
      bts.flatten = List.zipWith (fun c o => (c.1, c.2.1, o)) calls outs ∧
      (∀ bt ∈ bts, bt ≠ [] ∧ bt.length ≤ sz) := by
  obtain ⟨outs, ds, bts, h1, h2, h3, h4, h5, h6⟩ := f2kRun_spec delta hsz calls fresh ⟨[], [], auth, 0⟩
    ⟨rfl, rfl, Nat.zero_le _, ha⟩ hl (by simpa using hn)
  refine ⟨outs, ds, bts, h1, h4, h3, h2, ?_, h6⟩
  rw [h5]
  rfl

/-- Non-trivial instance: three calls with a buffer of two, so that one refill and two checks happen. -/
example : ∃ outs ds bts, f2kRunPrv 2 [[(4, 5), (6, 7)]] ⟨[], [], [((1 : GF128), (2 : GF128)), (3, 3)], 0⟩
      [((1, 1), (2, 2), 9), ((0, 1), (1, 0), 8), ((5, 5), (6, 6), 7)] = some (outs, ds, bts) ∧ outs.map Prod.fst = [9, 8, 7] := by
  obtain ⟨outs, ds, bts, h1, _, h3, _⟩ := C55_history (1 : GF128) (sz := 2) (by decide)
    [((1, 1), (2, 2), 9), ((0, 1), (1, 0), 8), ((5, 5), (6, 6), 7)] [[(4, 5), (6, 7)]] [(1, 2), (3, 3)] (by decide)
    (by simp) (by decide)
  exact ⟨outs, ds, bts, h1, h3⟩

/-- C55 is false as stated: with fewer products than threads (and more than one thread) both parties add up sums that were
never written. -/
theorem C55_false (cnt threads : Nat) (h1 : 1 ≤ cnt) (h2 : cnt < threads) [DecidableEq F] (delta : F)
    (buf : List ((F × F) × (F × F) × (F × F))) (hb : buf.length = cnt) (seeds ope : Nat → F) (ans : F × F) :
    f2kCheckPrv buf threads seeds ope = none ∧
      f2kCheckVer delta (buf.map (keyF3 delta)) threads seeds (fun i => keyOf delta (ope i)) ans = none := by
  have hs : splitTasksF2k cnt threads = some (List.replicate (threads - 1) (0, 0) ++ [(0, cnt)]) := by
    rw [splitTasksF2k, if_neg (by omega), if_pos h2]
  have hz : ∃ t ∈ List.replicate (threads - 1) (0, 0) ++ [(0, cnt)], t.2 = 0 :=
    ⟨(0, 0), by rw [List.mem_append]; left; rw [List.mem_replicate]; exact ⟨by omega, rfl⟩, rfl⟩
  constructor
  · rw [f2kCheckPrv, hb, hs]
    simp only [Option.bind_eq_bind, Option.bind_some, taskSumsO_none _ _ _ _ _ hz, Option.bind_none]
  · rw [f2kCheckVer, List.length_map, hb, hs]
    simp only [Option.bind_eq_bind, Option.bind_some, taskSumsO_none _ _ _ _ _ hz, Option.bind_none]

/-- The witness used by the tests' default set-up: a RAM of three accesses has two two-operand products per list; with more
threads than products the check reads unwritten memory. -/
example (seeds ope : Nat → GF128) : f2kCheckPrv [((1, 2), (3, 4), (5, 6)), ((1, 2), (3, 4), ((5 : GF128), 6))] 4 seeds ope = none :=
  (C55_false 2 4 (by decide) (by decide) (1 : GF128) _ rfl seeds ope (0, 0)).1

/-- C55 (what holds). With at least as many products as threads every sum read has been written, and an honest batch is
accepted. Missing from C55 as stated: batches with fewer products than threads (`C55_false`). -/
theorem C55_partial [DecidableEq F] (delta : F) (buf : List ((F × F) × (F × F) × (F × F))) (threads : Nat)
    (h1 : 0 < threads) (h2 : threads ≤ buf.length) (seeds ope : Nat → F) (hok : ∀ g ∈ buf, MulOk g) :
    ∃ ans, f2kCheckPrv buf threads seeds ope = some ans ∧
      f2kCheckVer delta (buf.map (keyF3 delta)) threads seeds (fun i => keyOf delta (ope i)) ans = some true := by
  obtain ⟨tasks, hs⟩ := Option.isSome_iff_exists.1 ((splitTasks_isSome buf.length threads).2 ⟨h1, h2⟩)
  refine ⟨_, f2kCheckPrv_eq buf seeds ope hs, ?_⟩
  rw [f2kCheckVer_key delta buf seeds ope _ hs]
  rw [taskSumF_zero mulErrF buf seeds tasks 0 (fun t _ g hg =>
    mulErrF_eq_zero.2 (hok g (List.mem_of_mem_drop (List.mem_of_mem_take hg))))]
  rw [Option.some.injEq, decide_eq_true_eq]
  ring

/-- Three right products, two threads. -/
example (seeds ope : Nat → GF128) (delta : GF128) : ∃ ans,
    f2kCheckPrv [((1, 2), (3, 4), (3, 6)), ((0, 1), (3, 4), (0, 6)), ((1, 2), (1, 9), ((1 : GF128), 6))] 2 seeds ope = some ans ∧
      f2kCheckVer delta ([((1, 2), (3, 4), (3, 6)), ((0, 1), (3, 4), (0, 6)), ((1, 2), (1, 9), (1, 6))].map (keyF3 delta)) 2
        seeds (fun i => keyOf delta (ope i)) ans = some true := by
  refine C55_partial delta _ 2 (by decide) (by decide) seeds ope ?_
  intro g hg
  simp only [List.mem_cons, List.not_mem_nil, or_false] at hg
  rcases hg with rfl | rfl | rfl <;> simp [MulOk]

/-- C55/C61 (what holds). If the values committed do not depend on the seeds: a wrong product in the range of task `t` is
accepted for at most `(n_t + 2) * |F|^threads` of the `|F|^(threads+1)` pairs (seeds, `Delta`), for every way of computing the
answer from the seeds. Missing from C61 as stated: provers whose corrections depend on the seeds (`C61_false`). -/
theorem C61_partial [DecidableEq F] [Fintype F] (buf : List ((F × F) × (F × F) × (F × F))) (threads : Nat)
    (tasks : List (Nat × Nat)) (hs : splitTasksF2k buf.length threads = some tasks) (hth : threads ≤ buf.length)
    (t : Nat) (ht : t < tasks.length)
    (hbad : ∃ g ∈ taskSlice buf tasks[t], ¬ MulOk g) (ope : Nat → F) (answer : (Fin threads → F) → F × F) :
    (Finset.univ.filter (fun q : (Fin threads → F) × F =>
      f2kCheckVer q.2 (buf.map (keyF3 q.2)) threads (extendSeeds q.1) (fun i => keyOf q.2 (ope i)) (answer q.1)
        = some true)).card ≤ ((tasks[t]).2 + 2) * Fintype.card F ^ threads := by
  have hpos : 0 < threads := by
    by_contra h0
    rw [splitTasksF2k, if_pos (by omega)] at hs
    simp at hs
  rw [splitTasksF2k_eq hpos hth] at hs
  have hlen := splitTasks_length hs
  have hbad' : ∃ g ∈ taskSlice buf tasks[t], mulErrF g ≠ 0 := by
    obtain ⟨g, hg, hne⟩ := hbad
    exact ⟨g, hg, fun h => hne (mulErrF_eq_zero.1 h)⟩
  have h1 := card_bad_seedsF mulErrF buf threads tasks ⟨t, by omega⟩ ht hbad'
  have h2 := card_fibre_le (A := Fin threads → F) (B := F)
    (fun s d => f2kCheckVer d (buf.map (keyF3 d)) threads (extendSeeds s) (fun i => keyOf d (ope i)) (answer s)
        = some true) (fun s => taskSumF mulErrF buf (extendSeeds s) tasks 0 = 0) _ 2 h1
    (by
      intro s hne D hD
      refine card_quad_le (taskSumF mulErrF buf (extendSeeds s) tasks 0)
        (packLsbs ope + taskSumF (fun g => (fgatePrv g).2) buf (extendSeeds s) tasks 0 - (answer s).2)
        (packBlocks ope + taskSumF (fun g => (fgatePrv g).1) buf (extendSeeds s) tasks 0 - (answer s).1) hne D ?_
      intro d hd
      have := hD d hd
      rw [f2kCheckVer_key d buf _ ope _ hs, Option.some.injEq, decide_eq_true_eq] at this
      linear_combination (-1 : F) * this)
  refine h2.trans (le_of_eq ?_)
  rw [Fintype.card_fun, Fintype.card_fin]
  obtain ⟨n, rfl⟩ : ∃ n, threads = n + 1 := ⟨threads - 1, by omega⟩
  simp only [Nat.add_sub_cancel]
  ring

/-- One wrong product, one thread: at most `3 * |F|` of the pairs. -/
example (ope : Nat → GF128) (answer : (Fin 1 → GF128) → GF128 × GF128) :
    (Finset.univ.filter (fun q : (Fin 1 → GF128) × GF128 =>
      f2kCheckVer q.2 ([((1, 2), (1, 4), ((0 : GF128), 6))].map (keyF3 q.2)) 1 (extendSeeds q.1) (fun i => keyOf q.2 (ope i))
        (answer q.1) = some true)).card ≤ 3 * Fintype.card GF128 ^ 1 := by
  have aux : ∀ c g : Nat, g ≤ ([(0, 1)][0].2 + 2) * c ^ 1 → g ≤ 3 * c ^ 1 := fun c g h => h
  exact aux _ _ (C61_partial [((1, 2), (1, 4), (0, 6))] 1 [(0, 1)] rfl (by decide) 0 (by decide)
    ⟨((1, 2), (1, 4), (0, 6)), by simp [taskSlice], by simp [MulOk]⟩ ope answer)

/-- C55: the coverage gap of the boolean check (C10) is present here too: a wrong product outside the covered range is
accepted for all seeds, masks and `Delta`. -/
theorem C55_uncovered [DecidableEq F] (delta : F) (buf : List ((F × F) × (F × F) × (F × F))) (threads : Nat)
    (h1 : 0 < threads) (h2 : threads ≤ buf.length)
    (hcov : ∀ i g, buf[i]? = some g → i < covered buf.length threads → MulOk g) (seeds ope : Nat → F) :
    ∃ ans, f2kCheckPrv buf threads seeds ope = some ans ∧
      f2kCheckVer delta (buf.map (keyF3 delta)) threads seeds (fun i => keyOf delta (ope i)) ans = some true := by
  obtain ⟨tasks, hs⟩ := Option.isSome_iff_exists.1 ((splitTasks_isSome buf.length threads).2 ⟨h1, h2⟩)
  refine ⟨_, f2kCheckPrv_eq buf seeds ope hs, ?_⟩
  rw [f2kCheckVer_key delta buf seeds ope _ hs]
  have h0 : taskSumF mulErrF buf seeds tasks 0 = 0 := by
    apply taskSumF_zero
    intro t ht g hg
    apply mulErrF_eq_zero.2
    obtain ⟨j, hj⟩ := List.mem_iff_getElem?.1 hg
    unfold taskSlice at hj
    rw [List.getElem?_take] at hj
    by_cases hjt : j < t.2
    · rw [if_pos hjt, List.getElem?_drop] at hj
      exact hcov _ _ hj ((splitTasks_covers hs _).1 ⟨t, ht, by omega, by omega⟩)
    · rw [if_neg hjt] at hj
      simp at hj
  rw [h0, Option.some.injEq, decide_eq_true_eq]
  ring

/-- Seven products, four threads: the last three are wrong and pass. -/
example (delta : GF128) (seeds ope : Nat → GF128) (buf : List ((GF128 × GF128) × (GF128 × GF128) × (GF128 × GF128)))
    (hb : buf = List.replicate 4 ((1, 2), (1, 4), (1, 6)) ++ List.replicate 3 ((1, 2), (1, 4), (0, 6))) : ∃ ans,
    f2kCheckPrv buf 4 seeds ope = some ans ∧
    f2kCheckVer delta (buf.map (keyF3 delta)) 4 seeds (fun i => keyOf delta (ope i)) ans = some true := by
  have hl : buf.length = 7 := by rw [hb]; rfl
  refine C55_uncovered delta buf 4 (by decide) (by omega) ?_ seeds ope
  intro i g hg hi
  have hi4 : i < 4 := by rw [hl] at hi; exact hi
  rw [hb, List.getElem?_append_left (by simpa using hi4), List.getElem?_replicate, if_pos hi4] at hg
  simp only [Option.some.injEq] at hg
  subst hg
  simp [MulOk]

/-! ### C61: corrections and the challenge -/

/-- C61 is false as stated. The correction messages of `compute_mul` are sent with `send_data` and are not hashed, so the digest
taken for the batch is the same whatever corrections are sent (`f` rewrites them). A prover who computes it before choosing the
corrections passes the check with two wrong products, for every `Delta` and every mask: whatever the hash and the generator of
the seeds (`seedOf`) are, as long as the first seed is not zero. -/
theorem C61_false [DecidableEq F] (S : Nat) (pre : List SOp) (s0 : SndSt) (seedOf : List Byte → Nat → F)
    (hne : seedOf (sndFlush S (sndRun S s0 pre)).1.hashed 0 ≠ 0) (l1 r1 l2 r2 : F × F) (m1 m2 : F) (x : F) (hx : x ≠ 0) :
    ∃ v1 v2, v1 ≠ l1.1 * r1.1 ∧ v2 ≠ l2.1 * r2.1 ∧
      (∀ f : List Byte → List Byte,
        sndRun S s0 (pre.map (fun o => match o with | .data bs => .data (f bs) | o => o)) = sndRun S s0 pre) ∧
      ∀ (delta : F) (ope : Nat → F), ∃ ans,
        f2kCheckPrv [(l1, r1, (v1, m1)), (l2, r2, (v2, m2))] 1 (seedOf (sndFlush S (sndRun S s0 pre)).1.hashed) ope =
          some ans ∧
        f2kCheckVer delta ([(l1, r1, (v1, m1)), (l2, r2, (v2, m2))].map (keyF3 delta)) 1
          (seedOf (sndFlush S (sndRun S s0 pre)).1.hashed) (fun i => keyOf delta (ope i)) ans = some true := by
  generalize seedOf (sndFlush S (sndRun S s0 pre)).1.hashed = seeds at *
  refine ⟨l1.1 * r1.1 + seeds 0 * x, l2.1 * r2.1 + x, ?_, ?_, fun f => C15_data_not_hashed S pre f s0, ?_⟩
  · intro h
    exact mul_ne_zero hne hx (by simpa using h)
  · intro h
    exact hx (by simpa using h)
  · intro delta ope
    have hs : splitTasks 2 1 = some [(0, 2)] := by decide
    let buf : List ((F × F) × (F × F) × (F × F)) :=
      [(l1, r1, (l1.1 * r1.1 + seeds 0 * x, m1)), (l2, r2, (l2.1 * r2.1 + x, m2))]
    refine ⟨_, f2kCheckPrv_eq buf seeds ope hs, ?_⟩
    refine (f2kCheckVer_key delta buf seeds ope _ hs).trans ?_
    have h0 : taskSumF mulErrF [(l1, r1, (l1.1 * r1.1 + seeds 0 * x, m1)), (l2, r2, (l2.1 * r2.1 + x, m2))] seeds [(0, 2)] 0
        = 0 := by
      simp only [taskSumF, taskSlice, List.drop_zero, List.take_succ_cons, List.take_zero, List.map_cons, List.map_nil,
        chiSum, chiSumFrom, mulErrF]
      have e1 := addSelf (seeds 0 * (l1.1 * r1.1))
      have e2 := addSelf (seeds 0 * seeds 0 * (l2.1 * r2.1))
      have e3 := addSelf (seeds 0 * seeds 0 * x)
      linear_combination e1 + e2 + e3
    simp only [buf]
    rw [h0, Option.some.injEq, decide_eq_true_eq]
    ring

/-- C61: moreover the digest taken right after another one (the destructor, ostriple.h:58-61: `F2kPolyPrdt::batch_check` and then
the product check) is the digest of the empty string, whatever was sent before. -/
theorem C61_empty_digest (S : Nat) (hS : 0 < S) (pre : List SOp) (s0 : SndSt) (h0 : s0.buf.length < S)
    (ds : List (List Byte)) :
    ((sndRun S s0 (pre ++ [.hash] ++ ds.map .data ++ [.hash])).digests.getLast?) = some [] := by
  have happ : ∀ (l l' : List SOp) (s : SndSt), sndRun S s (l ++ l') = sndRun S (sndRun S s l) l' := by
    intro l l'
    induction l with
    | nil => intro s; rfl
    | cons o l ih => intro s; cases o <;> simp only [List.cons_append, sndRun, ih]
  have hdata : ∀ (l : List (List Byte)) (s : SndSt), s.buf = [] → sndRun S s (l.map .data) = s := by
    intro l
    induction l with
    | nil => intro s _; rfl
    | cons d l ih =>
      intro s hs
      simp only [List.map_cons, sndRun, sndFlush_nil S s hs]
      exact ih s hs
  have hflush : ∀ s : SndSt, s.buf.length < S → (sndFlush S s).1.buf = [] := by
    intro s hs
    by_cases hb : s.buf = []
    · rw [sndFlush_nil S s hb]; exact hb
    · rw [sndFlush_pad S s hb hs]
  have hlt : ∀ (l : List SOp) (s : SndSt), s.buf.length < S → (sndRun S s l).buf.length < S := by
    intro l
    induction l with
    | nil => intro s h; exact h
    | cons o l ih =>
      intro s h
      have hf : ((sndFlush S s).1.buf).length < S := by rw [hflush s h]; exact hS
      cases o with
      | bit b =>
        simp only [sndRun]
        apply ih
        unfold sendBit
        simp only
        split
        · exact hS
        · rename_i hne
          simp only [List.length_append, List.length_singleton] at hne ⊢
          omega
      | hash => exact ih _ hf
      | flush => exact ih _ hf
      | data bs => exact ih _ hf
      | back n => exact ih _ hf
  rw [happ, happ, happ]
  have hp := hlt pre s0 h0
  generalize sndRun S s0 pre = s1 at hp
  have hb := hflush s1 hp
  simp only [sndRun]
  generalize sndFlush S s1 = q at hb
  rw [hdata _ _ (by exact hb), sndFlush_nil S _ (by exact hb)]
  simp

/-- Two corrections between the two digests, any bits before. -/
example (b : Bool) : (sndRun 8 ⟨[], [], [], []⟩ ([.bit b, .bit true] ++ [.hash] ++ [[1, 2], [3]].map .data ++ [.hash])).digests.getLast?
    = some [] := C61_empty_digest 8 (by decide) _ _ (by decide) _

/-! ### C48: products of three, four and five operands -/

/-- C48 (completeness). Right products of three, four or five operands always pass the batch check, for every seed and
`Delta`; the verifier's entries are those computed from the keys of the prover's committed values. -/
theorem C48_complete [DecidableEq F] (delta seed : F) (gs : List (PGate F)) (h : ∀ g ∈ gs, g.Poly) (hok : ∀ g ∈ gs, g.Ok) :
    ∃ es Bs, gs.mapM (fun g => polyPrv g.ins g.out.2) = some es ∧
      (gs.map (PGate.keys delta)).mapM (fun k => polyVer delta k.1 k.2) = some Bs ∧
      polyBatchVer delta seed Bs (polyBatchPrv seed es) = true := by
  obtain ⟨es, h1, hl, h2⟩ := polys_key delta gs h
  refine ⟨es, _, h1, h2, ?_⟩
  rw [polyBatchVer_iff delta seed gs h es hl]
  have hz : ∀ N, chiSum seed (gs.map (polyErrAt N)) = 0 := by
    intro N
    apply chiSum_zero
    intro g hg
    simp only [polyErrAt, polyErr_eq_zero.2 (hok g hg), ite_self]
  rw [hz, hz, hz]
  ring

/-- One product of each kind. -/
example (delta seed : GF128) : ∃ es Bs,
    [(⟨[(1, 2), (1, 4), (0, 5)], (0, 7)⟩ : PGate GF128), ⟨[(1, 2), (1, 4), (1, 5), (3, 9)], (3, 8)⟩,
      ⟨[(1, 2), (1, 4), (1, 5), (1, 9), (5, 5)], (5, 8)⟩].mapM (fun g => polyPrv g.ins g.out.2) = some es ∧
    ([(⟨[(1, 2), (1, 4), (0, 5)], (0, 7)⟩ : PGate GF128), ⟨[(1, 2), (1, 4), (1, 5), (3, 9)], (3, 8)⟩,
      ⟨[(1, 2), (1, 4), (1, 5), (1, 9), (5, 5)], (5, 8)⟩].map (PGate.keys delta)).mapM (fun k => polyVer delta k.1 k.2) =
        some Bs ∧
    polyBatchVer delta seed Bs (polyBatchPrv seed es) = true := by
  apply C48_complete
  · intro g hg
    simp only [List.mem_cons, List.not_mem_nil, or_false] at hg
    rcases hg with rfl | rfl | rfl <;> simp [PGate.Poly]
  · intro g hg
    simp only [List.mem_cons, List.not_mem_nil, or_false] at hg
    rcases hg with rfl | rfl | rfl <;> simp [PGate.Ok]

/-- C48 (soundness) is false as stated for products of three and four operands. The verifier accepts five free sums, but a
wrong product of three (four) operands only disturbs the coefficient of `Delta^3` (`Delta^4`), which the fourth (fifth) sum
absorbs: for every batch of such gates, whatever outputs are committed, the prover has an answer, independent of `Delta`, that is
accepted for every `Delta`. -/
theorem C48_false [DecidableEq F] (seed : F) (gs : List (PGate F)) (h : ∀ g ∈ gs, g.ins.length = 3 ∨ g.ins.length = 4) :
    ∃ sum, ∀ delta, ∃ Bs, (gs.map (PGate.keys delta)).mapM (fun k => polyVer delta k.1 k.2) = some Bs ∧
      polyBatchVer delta seed Bs sum = true := by
  have h' : ∀ g ∈ gs, g.Poly := fun g hg => by
    rcases h g hg with h | h
    · exact Or.inl h
    · exact Or.inr (Or.inl h)
  have hz : chiSum seed (gs.map (polyErrAt 5)) = 0 := by
    apply chiSum_zero
    intro g hg
    rcases h g hg with h | h <;> simp [polyErrAt, h]
  obtain ⟨es0, h1, _, _⟩ := polys_key (0 : F) gs h'
  refine ⟨⟨(polyBatchPrv seed es0).b0, (polyBatchPrv seed es0).b1, (polyBatchPrv seed es0).b2,
    (polyBatchPrv seed es0).b3 + chiSum seed (gs.map (polyErrAt 3)),
    (polyBatchPrv seed es0).b4 + chiSum seed (gs.map (polyErrAt 4))⟩, ?_⟩
  intro delta
  obtain ⟨es, h2, hl, h3⟩ := polys_key delta gs h'
  rw [h1] at h2
  simp only [Option.some.injEq] at h2
  subst h2
  refine ⟨_, h3, ?_⟩
  rw [polyBatchVer_iff delta seed gs h' es0 hl, hz]
  simp only [entAt]
  ring

/-- `1 * 1 * 1 = 0` and `1 * 1 * 1 * 1 = 0` are accepted. -/
example (seed : GF128) : ∃ sum, ∀ delta, ∃ Bs,
    ([(⟨[(1, 2), (1, 4), (1, 5)], (0, 7)⟩ : PGate GF128), ⟨[(1, 2), (1, 4), (1, 5), (1, 9)], (0, 8)⟩].map
      (PGate.keys delta)).mapM (fun k => polyVer delta k.1 k.2) = some Bs ∧ polyBatchVer delta seed Bs sum = true :=
  C48_false seed _ (by simp)

/-- C48 (what holds). A batch with a wrong product of five operands is accepted for at most `(n + 5) * |F|` of the pairs
(seed, `Delta`), for every way of computing the answer from the seed; `n` is the number of products in the batch (of any
kind). Missing from C48 as stated: products of three and four operands (`C48_false`). The RAM checks use five operands only. -/
theorem C48_partial [DecidableEq F] [Fintype F] (gs : List (PGate F)) (h : ∀ g ∈ gs, g.Poly)
    (hbad : ∃ g ∈ gs, g.ins.length = 5 ∧ ¬ g.Ok) (answer : F → PolyEnt F) :
    (Finset.univ.filter (fun q : F × F => ∃ Bs, (gs.map (PGate.keys q.2)).mapM (fun k => polyVer q.2 k.1 k.2) = some Bs ∧
      polyBatchVer q.2 q.1 Bs (answer q.1) = true)).card ≤ (gs.length + 5) * Fintype.card F := by
  classical
  have hb : ∃ e ∈ gs.map (polyErrAt 5), e ≠ 0 := by
    obtain ⟨g, hg, h5, hne⟩ := hbad
    refine ⟨_, List.mem_map_of_mem hg, ?_⟩
    rw [polyErrAt, if_pos h5]
    exact fun h0 => hne (polyErr_eq_zero.1 h0)
  have h1 := card_seeds_le _ hb 0
  rw [List.length_map] at h1
  obtain ⟨es0, he0, _, _⟩ := polys_key (0 : F) gs h
  have h2 := card_fibre_le (A := F) (B := F)
    (fun seed d => ∃ Bs, (gs.map (PGate.keys d)).mapM (fun k => polyVer d k.1 k.2) = some Bs ∧
      polyBatchVer d seed Bs (answer seed) = true) (fun seed => chiSum seed (gs.map (polyErrAt 5)) = 0) gs.length 5 h1
    (by
      intro seed hne D hD
      refine card_quint_le ((polyBatchPrv seed es0).b0 + (answer seed).b0) ((polyBatchPrv seed es0).b1 + (answer seed).b1)
        ((polyBatchPrv seed es0).b2 + (answer seed).b2)
        ((polyBatchPrv seed es0).b3 + (answer seed).b3 + chiSum seed (gs.map (polyErrAt 3)))
        ((polyBatchPrv seed es0).b4 + (answer seed).b4 + chiSum seed (gs.map (polyErrAt 4)))
        (chiSum seed (gs.map (polyErrAt 5))) hne D ?_
      intro d hd
      obtain ⟨Bs, hBs, hv⟩ := hD d hd
      obtain ⟨es, he, hl, hk⟩ := polys_key d gs h
      rw [he0] at he
      simp only [Option.some.injEq] at he
      subst he
      rw [hk] at hBs
      simp only [Option.some.injEq] at hBs
      subst hBs
      rw [polyBatchVer_iff d seed gs h es0 hl] at hv
      have hd0 := addSelf (entAt d (answer seed))
      simp only [entAt] at hv hd0
      linear_combination hv + hd0)
  refine (le_trans (le_of_eq ?_) h2).trans (le_of_eq ?_)
  · congr 1
  · ring

/-- `1 * 1 * 1 * 1 * 1 = 0` is rejected except for `6 * |F|` pairs. -/
example (answer : GF128 → PolyEnt GF128) :
    (Finset.univ.filter (fun q : GF128 × GF128 => ∃ Bs,
      ([(⟨[(1, 2), (1, 4), (1, 5), (1, 9), (1, 5)], (0, 8)⟩ : PGate GF128)].map (PGate.keys q.2)).mapM
        (fun k => polyVer q.2 k.1 k.2) = some Bs ∧ polyBatchVer q.2 q.1 Bs (answer q.1) = true)).card ≤
      6 * Fintype.card GF128 := by
  have aux : ∀ (c g n : Nat), n = 1 → g ≤ (n + 5) * c → g ≤ 6 * c := fun c g n hn h => by subst hn; exact h
  exact aux _ _ _ (List.length_singleton) (C48_partial [(⟨[(1, 2), (1, 4), (1, 5), (1, 9), (1, 5)], (0, 8)⟩ : PGate GF128)]
    (by simp [PGate.Poly]) (by simp [PGate.Ok]) answer)

/-! ### C59: what the check messages reveal -/

/-- C59: what the first sum of the batch check reveals for a single product: a function of the verifier's keys and of the secret
operands, without any mask. The verifier can test every guess of the operands. -/
theorem C59_batch_leak (delta seed : F) (a b c d e o : F × F) (sum : PolyEnt F) (es : List (PolyEnt F))
    (h : [(⟨[a, b, c, d, e], o⟩ : PGate F)].mapM (fun g => polyPrv g.ins g.out.2) = some es)
    (hs : sum = polyBatchPrv seed es) :
    sum.b0 = seed * ((keyF delta a + a.1 * delta) * (keyF delta b + b.1 * delta) * (keyF delta c + c.1 * delta) *
      (keyF delta d + d.1 * delta) * (keyF delta e + e.1 * delta)) := by
  simp only [List.mapM_cons, List.mapM_nil, polyPrv, Option.pure_def, Option.bind_eq_bind, Option.bind_some,
    Option.some.injEq] at h
  subst h
  subst hs
  have hk : ∀ x : F × F, keyF delta x + x.1 * delta = x.2 := by
    intro x
    have := addSelf (x.1 * delta)
    simp only [keyF]
    linear_combination this
  rw [hk, hk, hk, hk, hk]
  simp only [polyBatchPrv, List.map_cons, List.map_nil, chiSum, chiSumFrom, poly5Prv]
  ring

/-- C59 is false as stated: two right products the verifier cannot tell apart by its keys lead to different messages. -/
theorem C59_false (delta seed : F) (hd : delta ≠ 0) (hs : seed ≠ 0) :
    ∃ (g g' : PGate F) (es es' : List (PolyEnt F)), g.Ok ∧ g'.Ok ∧ g.keys delta = g'.keys delta ∧
      [g].mapM (fun g => polyPrv g.ins g.out.2) = some es ∧ [g'].mapM (fun g => polyPrv g.ins g.out.2) = some es' ∧
      (polyBatchPrv seed es).b0 ≠ (polyBatchPrv seed es').b0 := by
  refine ⟨⟨[(1, delta), (1, delta), (1, delta), (1, delta), (1, delta)], (1, delta)⟩,
    ⟨[(0, 0), (1, delta), (1, delta), (1, delta), (1, delta)], (0, 0)⟩, _, _, ?_, ?_, ?_, rfl, rfl, ?_⟩
  · simp [PGate.Ok]
  · simp [PGate.Ok]
  · simp [PGate.keys, keyF, addSelf]
  · simp [polyBatchPrv, chiSum, chiSumFrom, poly5Prv, hs, hd]

example : ∃ (g g' : PGate GF128) (es es' : List (PolyEnt GF128)), g.Ok ∧ g'.Ok ∧ g.keys 1 = g'.keys 1 ∧
      [g].mapM (fun g => polyPrv g.ins g.out.2) = some es ∧ [g'].mapM (fun g => polyPrv g.ins g.out.2) = some es' ∧
      (polyBatchPrv 1 es).b0 ≠ (polyBatchPrv 1 es').b0 := C59_false 1 1 one_ne_zero one_ne_zero

/-- C59: the MACs sent at the end of the set-equality check reveal the product of the packed accesses: the verifier computes it
from its key, `Delta` and the message. -/
theorem C59_set_leak (delta : F) (hd : delta ≠ 0) (fin : F × F) : (keyF delta fin + fin.2) / delta = fin.1 := by
  have := addSelf fin.2
  rw [div_eq_iff hd]
  simp only [keyF]
  linear_combination this

example : ((keyF 3 (5, 7) : GF128) + 7) / 3 = 5 := C59_set_leak 3 (by decide +kernel) (5, 7)

end

/-- C59 (what holds). The messages of the two-operand products and of their check hide the witness: for fixed keys, whatever the
committed values are, each correction `d` occurs for exactly one value of the masking correlation, the second block of the check
message takes each value for exactly one choice of the 128 mask bits, and the first one is determined by what the verifier
holds. Missing from C59 as stated: the products of five operands (`C59_false`) and the set-equality message (`C59_set_leak`). -/
theorem C59_partial {F : Type} [Field F] [PackField F] (delta : F) (v : F) (buf : List ((F × F) × (F × F) × (F × F)))
    (threads : Nat) (h1 : 0 < threads) (h2 : threads ≤ buf.length) (hok : ∀ g ∈ buf, MulOk g) (seeds keys : Nat → F)
    (hk : ∀ i, lsb (keys i) = false) (hd : lsb delta = true) :
    (∀ key d : F, ∃! u : F, (f2kMulPrv (u, key + u * delta) v).2 = d) ∧
    (∀ a1 : F, ∃! c : Fin 128 → Bool, ∃ a0, f2kCheckPrv buf threads seeds
        (fun i => keys i + bit (if h : i < 128 then c ⟨i, h⟩ else false) * delta) = some (a0, a1)) ∧
    (∀ (c : Nat → Bool) (a0 a1 : F), f2kCheckPrv buf threads seeds (fun i => keys i + bit (c i) * delta) = some (a0, a1) →
      ∃ s, (∃ tasks, splitTasksF2k buf.length threads = some tasks ∧
          taskSumsO (fgateVer delta) (buf.map (keyF3 delta)) seeds tasks 0 = some s) ∧
        a0 = packBlocks keys + s + a1 * delta) := by
  obtain ⟨tasks, hs⟩ := Option.isSome_iff_exists.1 ((splitTasks_isSome buf.length threads).2 ⟨h1, h2⟩)
  have hl : ∀ (c : Nat → Bool), packLsbs (fun i => keys i + bit (c i) * delta) = ∑ i : Fin 128, bit (c i) * gX ^ (i : Nat) := by
    intro c
    unfold packLsbs
    apply Finset.sum_congr rfl
    intro i _
    have : lsb (keys i + bit (c i) * delta) = c i := by
      rw [lsb_add, hk]
      cases c i <;> simp [hd]
    rw [this]
  have hpk : ∀ (c : Nat → Bool), packBlocks (fun i => keys i + bit (c i) * delta) =
      packBlocks keys + (∑ i : Fin 128, bit (c i) * gX ^ (i : Nat)) * delta := by
    intro c
    unfold packBlocks
    rw [Finset.sum_mul, ← Finset.sum_add_distrib]
    apply Finset.sum_congr rfl
    intro i _
    ring
  refine ⟨?_, ?_, ?_⟩
  · intro key d
    refine ⟨v + d, ?_, ?_⟩
    · have := addSelf v
      simp only [f2kMulPrv]
      linear_combination this
    · intro u hu
      simp only [f2kMulPrv] at hu
      have := addSelf v
      linear_combination hu - this
  · intro a1
    obtain ⟨b, hb⟩ := PackField.pack_bijective (F := F).2
      (a1 + taskSumF (fun g => (fgatePrv g).2) buf seeds tasks 0)
    have hfin : ∀ c : Fin 128 → Bool, (∑ i : Fin 128, bit (if h : (i : Nat) < 128 then c ⟨i, h⟩ else false) * gX ^ (i : Nat) : F) =
        ∑ i : Fin 128, bit (c i) * gX ^ (i : Nat) := by
      intro c
      apply Finset.sum_congr rfl
      intro i _
      rw [dif_pos i.2]
    refine ⟨b, ⟨packBlocks (fun i => keys i + bit (if h : i < 128 then b ⟨i, h⟩ else false) * delta) +
      taskSumF (fun g => (fgatePrv g).1) buf seeds tasks 0, ?_⟩, ?_⟩
    · rw [f2kCheckPrv_eq buf seeds _ hs, hl, hfin]
      beta_reduce at hb
      rw [hb]
      simp only [Option.some.injEq, Prod.mk.injEq, true_and]
      have := addSelf (taskSumF (fun g => (fgatePrv g).2) buf seeds tasks 0)
      linear_combination this
    · rintro c ⟨a0, hc⟩
      rw [f2kCheckPrv_eq buf seeds _ hs, hl, hfin] at hc
      simp only [Option.some.injEq, Prod.mk.injEq] at hc
      apply PackField.pack_bijective (F := F).1
      beta_reduce at hb ⊢
      rw [hb]
      have := addSelf (taskSumF (fun g => (fgatePrv g).2) buf seeds tasks 0)
      linear_combination hc.2 - this
  · intro c a0 a1 hc
    rw [f2kCheckPrv_eq buf seeds _ hs, hl, hpk] at hc
    simp only [Option.some.injEq, Prod.mk.injEq] at hc
    refine ⟨taskSumF (fgateVer delta) (buf.map (keyF3 delta)) seeds tasks 0,
      ⟨tasks, by rw [splitTasksF2k_eq h1 h2, hs], taskSumsO_eq _ _ _ _ _ (splitTasks_pos hs)⟩, ?_⟩
    rw [taskSumF_key]
    rw [taskSumF_zero mulErrF buf seeds tasks 0 (fun t _ g hg =>
      mulErrF_eq_zero.2 (hok g (List.mem_of_mem_drop (List.mem_of_mem_take hg))))]
    rw [← hc.1, ← hc.2]
    have e1 := addSelf (taskSumF (fun g => (fgatePrv g).2) buf seeds tasks 0 * delta)
    linear_combination (-1 : F) * e1

/-- Two products, one thread. -/
example (delta : GF128) (hd : lsb delta = true) (seeds : Nat → GF128) :
    ∀ a1 : GF128, ∃! c : Fin 128 → Bool, ∃ a0, f2kCheckPrv [((1, 2), (1, 4), (1, 6)), ((1, 2), (0, 4), (0, 6))] 1 seeds
        (fun i => 0 + bit (if h : i < 128 then c ⟨i, h⟩ else false) * delta) = some (a0, a1) :=
  (C59_partial delta 0 [((1, 2), (1, 4), (1, 6)), ((1, 2), (0, 4), (0, 6))] 1 (by decide) (by decide)
    (by simp [MulOk]) seeds (fun _ => 0) (fun _ => lsb_zero) hd).2.1

end EmpZk
