/-
Properties C06-C13, C22, C23, C25, C62: the boolean protocol.
-/
import Verif.Lemmas.BoolExtract
import Verif.Lemmas.GF128

namespace EmpZk
section
variable {F : Type} [Field F] [BlockField F]

/-! ### C06: labels -/

/-- C06. After any honest program every wire satisfies `M = K + x*Delta`, `lsb M = x`, `lsb K = 0`, with `x` the value of
the wire in the plain program. -/
theorem C06_mac_invariant [DecidableEq F] (e : BEnv F) (he : e.Good) (ops : List BOp) (P : PrvSt F)
    (ms : List (BMsg F)) (h : prvRun e PrvSt.init ops = some (P, ms)) :
    ∃ V pl, verRun e VerSt.init ops ms = some V ∧ plainRun ops = some pl ∧
      P.wires.length = pl.wires.length ∧ V.wires.length = pl.wires.length ∧
      ∀ (i : Nat) (x : Bool), pl.wires[i]? = some x →
        ∃ M K, P.wires[i]? = some M ∧ V.wires[i]? = some K ∧ M = K + bit x * e.delta ∧ lsb M = x ∧ lsb K = false := by
  rw [← he.eta] at h ⊢
  obtain ⟨c, k1, k2, _, k4⟩ := prvRun_com e.view e.delta ops (c := ComSt.init) h (Hon.init _)
  obtain ⟨ch, k5⟩ := verRun_img e.view he.lsb_delta ops ComSt.init [] ms
  rw [verImg_init, k1, Option.map_some] at k5
  refine ⟨_, c.plain, k5, k4, ?_, ?_, ?_⟩
  · simp only at k2
    rw [k2]
    simp [prvOf, ComSt.plain]
  · simp [verImg, ComSt.plain]
  · intro i x hx
    simp only at k2
    simp only [ComSt.plain, List.getElem?_map, Option.map_eq_some_iff] at hx
    obtain ⟨m, hm, rfl⟩ := hx
    refine ⟨m, keyOf e.delta m, ?_, ?_, ?_, rfl, lsb_keyOf he.lsb_delta m⟩
    · rw [k2]; exact hm
    · simp [verImg, hm]
    · show m = keyOf e.delta m + bit (lsb m) * e.delta
      unfold keyOf
      rw [add_assoc, addSelf, add_zero]

/-- C06. The honest prover runs to the end exactly on well-formed programs (operands exist), for every
`1 ≤ threads ≤ CHECK_SZ`. -/
theorem C06_progress (e : BEnv F) (he : e.Good) (ht : 0 < e.threads) (htc : e.threads ≤ e.checkSz)
    (hp : 0 < e.polySz) (ops : List BOp) :
    (prvRun e PrvSt.init ops).isSome ↔ (plainRun ops).isSome := by
  rw [← he.eta]
  exact prvRun_isSome e.view e.delta ht htc hp ops (c := ComSt.init) ⟨by simp [prvOf, ComSt.init], by simp [prvOf, ComSt.init]⟩
    (Hon.init _)

/-- C06. Whatever bits a prover sends, it is committed: there are blocks `m_i`, determined by its correlations and its
messages and not by `Delta`, such that for every `Delta` the verifier's key of wire `i` is `m_i + lsb(m_i)*Delta`. -/
theorem C06_committed [DecidableEq F] (v : BView F) (ops : List BOp) (ms : List (BMsg F)) :
    ∃ labels : Option (List F), ∀ delta, lsb delta = true →
      (verRun (v.env delta) VerSt.init ops ms).map VerSt.wires =
        labels.map (fun l => l.map (fun m => m + bit (lsb m) * delta)) := by
  refine ⟨(comRun v ComSt.init ops ms).map ComSt.wires, ?_⟩
  intro delta hd
  obtain ⟨ch, h⟩ := verRun_img v hd ops ComSt.init [] ms
  rw [verImg_init] at h
  rw [h]
  cases comRun v ComSt.init ops ms <;> rfl

/-! ### C07: honest sessions -/

/-- C07. In every honest session both sides obtain the values of the plain program, hash identical data, and if the
claimed statements are true no cheating is recorded (`finalize_zk_bool` returns false). -/
theorem C07_honest_session [DecidableEq F] (e : BEnv F) (he : e.Good) (ops : List BOp) (P : PrvSt F)
    (ms : List (BMsg F)) (fin : BFin F) (h : prvSession e ops = some (P, ms, fin)) :
    ∃ V pl, verSession e ops ms fin = some V ∧ plainRun ops = some pl ∧ V.outs = pl.outs ∧ P.outs = pl.outs ∧
      V.digest = P.digest ∧ ((∀ b ∈ pl.claims, b = false) → cheated V = false) := by
  rw [← he.eta] at h ⊢
  obtain ⟨c, k1, k2, k3, k4, k5⟩ := prvSession_com e.view e.delta h
  simp only at k1 k2 k5
  obtain ⟨ch, k6, k7, k8⟩ := honest_accepts e.view he.lsb_delta k1 k3 k5
  refine ⟨_, c.plain, k6, k4, rfl, ?_, ?_, k8⟩
  · rw [k2]; rfl
  · rw [k2, k7]; rfl

/-- C07. When does an honest session complete?  Exactly when the program is well-formed and the last batch of AND gates
is empty or has at least `threads` gates; otherwise the destructor divides by zero (ostriple.h:153-154). -/
theorem C07_completes (e : BEnv F) (he : e.Good) (ht : 0 < e.threads) (htc : e.threads ≤ e.checkSz)
    (hp : 0 < e.polySz) (ops : List BOp) :
    (prvSession e ops).isSome ↔ (plainRun ops).isSome ∧
      (lastBatch (andTriples 0 ops).length e.checkSz = 0 ∨
        e.threads ≤ lastBatch (andTriples 0 ops).length e.checkSz) := by
  have hprog := C06_progress e he ht htc hp ops
  cases hr : prvRun e PrvSt.init ops with
  | none =>
    rw [hr] at hprog
    simp only [Option.isSome_none, Bool.false_eq_true, false_iff] at hprog
    simp [prvSession, hr, hprog]
  | some q =>
    rw [hr] at hprog
    simp only [Option.isSome_some, true_iff] at hprog
    have hr' := hr
    rw [← he.eta] at hr'
    obtain ⟨c, k1, k2, k3, k4⟩ := prvRun_com e.view e.delta ops (c := ComSt.init) hr' (Hon.init _)
    have hlast := comRun_lastBatch (v := e.view) k1
    have e1 : e.view.checkSz = e.checkSz := rfl
    rw [e1] at hlast
    rw [← hlast]
    have hg : (prvFinPoly e q.1).1.gates = c.gates := by
      rw [k2]
      unfold prvFinPoly
      split <;> rfl
    simp only [prvSession, hr, Option.bind_eq_bind, Option.bind_some, prvFinalize, hprog, true_and]
    have hand : (prvFinAnd e (prvFinPoly e q.1).1).isSome ↔ (c.gates.length = 0 ∨ e.threads ≤ c.gates.length) := by
      unfold prvFinAnd
      by_cases hc : c.gates = []
      · simp [hg, hc]
      · rw [if_pos (by rw [hg]; exact hc), prvAndCheck_isSome, hg]
        simp [ht, hc]
    rw [← hand]
    cases prvFinAnd e (prvFinPoly e q.1).1 <;> simp

/-! ### C08, C09: the AND check -/

/-- C08. A batch of correct gates with honest labels passes for every seeds, masks, `Delta` and thread count for which the
split is defined. -/
theorem C08_and_check_complete [DecidableEq F] (delta : F) (buf : List (Gate F)) (hc : ∀ g ∈ buf, g.Correct)
    (threads : Nat) (seeds ope : Nat → F) (ans : F × F) (h : andCheckPrv buf threads seeds ope = some ans) :
    andCheckVer delta (buf.map (Gate.key delta)) threads seeds (fun i => keyOf delta (ope i)) ans = some true := by
  rw [andCheckVer_keyOf]
  unfold andCheckPrv at h
  cases hs : splitTasks buf.length threads with
  | none => rw [hs] at h; simp at h
  | some tasks =>
    rw [hs] at h
    simp only [Option.some.injEq] at h
    rw [Option.map_some, ← h, errSum_correct _ hc]
    simp only [Option.some.injEq, decide_eq_true_eq]
    ring

/-- C09. Soundness of the AND check: if some gate in the range of task `t` is wrong then, for every function computing
the prover's answer from the seeds, at most `(n_t + 2) * |F|^threads` of the `|F|^(threads+1)` pairs (seeds, `Delta`) are
accepted; `n_t` is the length of the task. -/
theorem C09_and_check_sound [DecidableEq F] [Fintype F] (buf : List (Gate F)) (threads : Nat)
    (tasks : List (Nat × Nat)) (hs : splitTasks buf.length threads = some tasks) (t : Nat) (ht : t < tasks.length)
    (hbad : ∃ g ∈ taskSlice buf tasks[t], ¬ g.Correct) (ope : Nat → F) (answer : (Fin threads → F) → F × F) :
    (Finset.univ.filter (fun q : (Fin threads → F) × F =>
      andCheckVer q.2 (buf.map (Gate.key q.2)) threads (extendSeeds q.1) (fun i => keyOf q.2 (ope i)) (answer q.1)
        = some true)).card ≤ ((tasks[t]).2 + 2) * Fintype.card F ^ threads := by
  have hlen := splitTasks_length hs
  have hT : 0 < threads := by omega
  have h1 := card_bad_seeds buf threads tasks ⟨t, by omega⟩ ht hbad
  have h2 := card_fibre_le (A := Fin threads → F) (B := F)
    (fun s d => andCheckVer d (buf.map (Gate.key d)) threads (extendSeeds s) (fun i => keyOf d (ope i)) (answer s)
        = some true) (fun s => errSum buf (extendSeeds s) tasks 0 = 0) _ 2 h1
    (fun s hne D hD => delta_le_two buf threads (extendSeeds s) ope (answer s) tasks hs hne D hD)
  refine h2.trans (le_of_eq ?_)
  rw [Fintype.card_fun, Fintype.card_fin]
  obtain ⟨n, rfl⟩ : ∃ n, threads = n + 1 := ⟨threads - 1, by omega⟩
  simp only [Nat.add_sub_cancel]
  ring

/-! ### C10: coverage -/

/-- C10 (what holds). A gate is in the range of a task iff its index is below `covered`; so all gates are checked iff
`cnt % threads < cnt / threads`.  Missing from C10 as stated: batches with `cnt / threads ≤ cnt % threads`. -/
theorem C10_coverage_partial (cnt threads : Nat) (h : 0 < threads) (h2 : threads ≤ cnt) :
    (∀ g, g < cnt → ∃ tasks, splitTasks cnt threads = some tasks ∧ ∃ t ∈ tasks, t.1 ≤ g ∧ g < t.1 + t.2) ↔
      cnt % threads < cnt / threads := by
  rw [← covered_eq_iff h h2]
  obtain ⟨tasks, hts⟩ := Option.isSome_iff_exists.1 ((splitTasks_isSome cnt threads).2 ⟨h, h2⟩)
  have hle : covered cnt threads ≤ cnt := covered_le h
  constructor
  · intro hall
    by_contra hne
    have hlt : covered cnt threads < cnt := lt_of_le_of_ne hle hne
    obtain ⟨tasks', ht', hex⟩ := hall (covered cnt threads) hlt
    rw [hts] at ht'
    simp only [Option.some.injEq] at ht'
    subst ht'
    have := (splitTasks_covers hts _).1 hex
    omega
  · intro heq g hg
    exact ⟨tasks, hts, (splitTasks_covers hts g).2 (by omega)⟩

/-- C10 (what holds). No task reads past the gates of the batch. -/
theorem C10_in_bounds (cnt threads : Nat) (tasks : List (Nat × Nat)) (h : splitTasks cnt threads = some tasks)
    (g : Nat) (hg : ∃ t ∈ tasks, t.1 ≤ g ∧ g < t.1 + t.2) : g < cnt :=
  lt_of_lt_of_le ((splitTasks_covers h g).1 hg) (covered_le ((splitTasks_isSome cnt threads).1 (by rw [h]; rfl)).1)

/-- C10 (what holds). Batches of at least `threads^2` gates are fully covered; in particular the full batches of
`CHECK_SZ = 2^20` gates for up to 1024 threads. -/
theorem C10_large_batches (cnt threads : Nat) (h : 0 < threads) (h2 : threads * threads ≤ cnt) :
    covered cnt threads = cnt := by
  have h3 : threads ≤ cnt := le_trans (Nat.le_mul_of_pos_left _ h) h2
  rw [covered_eq_iff h h3]
  exact lt_of_lt_of_le (Nat.mod_lt _ h) ((Nat.le_div_iff_mul_le h).2 h2)

/-- C10 is false as stated: with 4 threads and 7 gates only the first 4 are checked. -/
theorem C10_coverage_false : ∃ cnt threads tasks, 0 < threads ∧ 0 < cnt ∧ splitTasks cnt threads = some tasks ∧
    ∃ g, g < cnt ∧ ¬ ∃ t ∈ tasks, t.1 ≤ g ∧ g < t.1 + t.2 :=
  ⟨7, 4, [(0, 1), (1, 1), (2, 1), (3, 1)], by decide, by decide, by decide, 4, by decide, by decide⟩

/-- C10 is false as stated: fewer gates than threads is a division by zero. -/
theorem C10_undefined_small_batch (cnt threads : Nat) (h : cnt < threads) : splitTasks cnt threads = none := by
  have := (splitTasks_isSome cnt threads).not.2 (by omega)
  simpa using this

/-- C10: consequence.  A wrong gate outside the covered range is accepted for every seeds, every mask and every `Delta`. -/
theorem C10_uncovered_accepted [DecidableEq F] (delta : F) (buf : List (Gate F)) (threads : Nat)
    (seeds ope : Nat → F) (ans : F × F) (hcov : ∀ i g, buf[i]? = some g → i < covered buf.length threads → g.Correct)
    (h : andCheckPrv buf threads seeds ope = some ans) :
    andCheckVer delta (buf.map (Gate.key delta)) threads seeds (fun i => keyOf delta (ope i)) ans = some true := by
  rw [andCheckVer_keyOf]
  unfold andCheckPrv at h
  cases hs : splitTasks buf.length threads with
  | none => rw [hs] at h; simp at h
  | some tasks =>
    rw [hs] at h
    simp only [Option.some.injEq] at h
    have herr : ∀ (ts : List (Nat × Nat)) (i : Nat), (∀ t ∈ ts, t ∈ tasks) → errSum buf seeds ts i = 0 := by
      intro ts
      induction ts with
      | nil => intro i _; rfl
      | cons t ts ih =>
        intro i hsub
        rw [errSum, ih (i + 1) (fun u hu => hsub u (by simp [hu])), add_zero]
        apply chiSum_zero
        intro g hg
        obtain ⟨j, hj⟩ := List.mem_iff_getElem?.1 hg
        unfold taskSlice at hj
        rw [List.getElem?_take] at hj
        split at hj
        · rename_i hlt
          rw [List.getElem?_drop] at hj
          refine Gate.err_eq_zero (hcov _ g hj ?_)
          exact (splitTasks_covers hs _).1 ⟨t, hsub t (by simp), by omega, by omega⟩
        · simp at hj
    rw [Option.map_some, ← h, herr tasks 0 (fun _ h => h)]
    simp only [Option.some.injEq, decide_eq_true_eq]
    ring

/-! ### C11: openings -/

/-- C11. A wrong bit with any fixed claimed MAC block matches the verifier's block for at most one `Delta`. -/
theorem C11_open_binding [DecidableEq F] (m mac : F) (b : Bool) (hb : b ≠ lsb m) (D : Finset F)
    (hD : ∀ d ∈ D, openVer d (keyOf d m) b = mac) : D.card ≤ 1 := by
  rw [Finset.card_le_one]
  intro x hx y hy
  have h1 := hD x hx
  have h2 := hD y hy
  have hbit : (lsb m ^^ b) = true := by revert hb; cases b <;> cases lsb m <;> simp
  rw [openVer_keyOf, hbit, bit_true, one_mul] at h1 h2
  exact add_left_cancel (h1.trans h2.symm)

/-- C11. The honest opening matches for every `Delta`. -/
theorem C11_open_complete (m delta : F) : openVer delta (keyOf delta m) (lsb m) = m := by
  rw [openVer_keyOf, Bool.xor_self, bit_false, zero_mul, add_zero]

/-- C11 for whole sessions. If a session in which a prover opens some wire to a value it is not committed to ends without
cheat record for two values of `Delta`, the two lists hashed by the verifier differ and have the same hash. -/
theorem C11_session_binding [DecidableEq F] (v : BView F) (ops : List BOp) (ms : List (BMsg F)) (fin : BFin F)
    (c : ComSt F) (hc : comSession v ops ms fin = some c) (hbad : ∃ o ∈ c.opened, o.2 ≠ lsb o.1)
    (d1 d2 : F) (h1 : lsb d1 = true) (h2 : lsb d2 = true) (hne : d1 ≠ d2) (V1 V2 : VerSt F)
    (hv1 : verSession (v.env d1) ops ms fin = some V1) (hv2 : verSession (v.env d2) ops ms fin = some V2)
    (hok1 : cheated V1 = false) (hok2 : cheated V2 = false) :
    V1.digest ≠ V2.digest ∧ v.hash V1.digest = v.hash V2.digest := by
  have hnil : ∀ V : VerSt F, cheated V = false → V.cheats = [] := by
    intro V hV
    simpa [cheated] using hV
  obtain ⟨ch1, k1⟩ := verSession_img v h1 ops ms fin
  obtain ⟨ch2, k2⟩ := verSession_img v h2 ops ms fin
  have e1 := (cheats_session hv1).1 (hnil V1 hok1)
  have e2 := (cheats_session hv2).1 (hnil V2 hok2)
  rw [hc, Option.map_some, hv1, Option.some.injEq] at k1
  rw [hc, Option.map_some, hv2, Option.some.injEq] at k2
  constructor
  · intro heq
    rw [k1, k2] at heq
    simp only [verImg] at heq
    obtain ⟨o, ho, hob⟩ := hbad
    have hpt := List.map_inj_left.1 heq o ho
    rw [openVer_keyOf, openVer_keyOf] at hpt
    have hbit : (lsb o.1 ^^ o.2) = true := by revert hob; cases o.2 <;> cases lsb o.1 <;> simp
    rw [hbit, bit_true, one_mul, one_mul] at hpt
    exact hne (add_left_cancel hpt)
  · exact e1.2.2.symm.trans e2.2.2

/-! ### C12: the cheat flag -/

/-- C12. `finalize_zk_bool` returns true iff the equation of some AND check or polynomial check of the session failed or
the received digest is not the hash of the opened blocks — for arbitrary messages. -/
theorem C12_flag_iff [DecidableEq F] (e : BEnv F) (ops : List BOp) (ms : List (BMsg F)) (fin : BFin F) (V : VerSt F)
    (h : verSession e ops ms fin = some V) :
    cheated V = true ↔
      (∃ r ∈ V.andLog, ∀ tasks, splitTasks r.gates.length e.threads = some tasks →
        r.ans.2 * e.delta + r.ans.1 ≠
          packBlocks (fun i => e.key (r.ope + i)) + checkSumVer e.delta r.gates r.seeds tasks 0) ∨
      (∃ r ∈ V.polyLog,
        r.ans.1 ≠ chiSum r.seed r.polys + packBlocks (fun i => e.key (r.ope + i)) + r.ans.2 * e.delta) ∨
      fin.digest ≠ e.hash V.digest := by
  have hcs := cheats_session h
  have hflag : cheated V = true ↔ ¬ V.cheats = [] := by simp [cheated]
  rw [hflag, hcs]
  have hand : ∀ r : AndRec F, AndOK e r ↔ ¬ ∀ tasks, splitTasks r.gates.length e.threads = some tasks →
        r.ans.2 * e.delta + r.ans.1 ≠
          packBlocks (fun i => e.key (r.ope + i)) + checkSumVer e.delta r.gates r.seeds tasks 0 := by
    intro r
    unfold AndOK andCheckVer
    cases splitTasks r.gates.length e.threads with
    | none => simp
    | some tasks => simp
  have hpoly : ∀ r : PolyRec F, PolyOK e r ↔ ¬
      (r.ans.1 ≠ chiSum r.seed r.polys + packBlocks (fun i => e.key (r.ope + i)) + r.ans.2 * e.delta) := by
    intro r
    simp [PolyOK, polyCheckVer]
  simp only [hand, hpoly]
  constructor
  · intro hn
    by_contra hcon
    push Not at hcon
    refine hn ⟨?_, ?_, hcon.2.2⟩
    · intro r hr hall
      obtain ⟨tasks, ht, he⟩ := hcon.1 r hr
      exact hall tasks ht he
    · intro r hr hne
      exact hne (hcon.2.1 r hr)
  · rintro (⟨r, hr, hall⟩ | ⟨r, hr, hne⟩ | hd) ⟨g1, g2, g3⟩
    · exact g1 r hr hall
    · exact g2 r hr hne
    · exact hd g3

/-! ### C13, C25: batches -/

/-- C13. For arbitrary messages, if a session completes, the concatenation of the batches checked by the verifier is
exactly the sequence of AND gates of the program, each with its own operands and output; no gate is left unchecked, and
every batch but the last has `CHECK_SZ` gates. -/
theorem C13_and_batches [DecidableEq F] (e : BEnv F) (he : e.Good) (ops : List BOp) (ms : List (BMsg F)) (fin : BFin F)
    (V : VerSt F) (h : verSession e ops ms fin = some V) :
    List.Forall₂ (GateAt V.wires) (andTriples 0 ops) (V.andLog.flatMap AndRec.gates) ∧ V.gates = [] ∧
      (∀ r ∈ V.andLog.dropLast, r.gates.length = e.checkSz) ∧ (∀ r ∈ V.andLog, r.gates.length ≤ e.checkSz) := by
  rw [← he.eta] at h
  obtain ⟨ch, k⟩ := verSession_img e.view he.lsb_delta ops ms fin
  rw [h] at k
  cases hc : comSession e.view ops ms fin with
  | none => rw [hc] at k; simp at k
  | some c =>
    rw [hc, Option.map_some, Option.some.injEq] at k
    simp only [comSession, Option.bind_eq_bind, Option.bind_eq_some_iff] at hc
    obtain ⟨c1, h1, h2⟩ := hc
    have hr := comRun_rec ops (Rec.init e.view) h1
    obtain ⟨f1, f2, f3, f4, f5, f6, f7⟩ := comFinalize_facts h2
    have hg := hr.gates
    simp only [ComSt.init, List.length_nil, List.nil_append] at hg
    rw [← f1, ← f4] at hg
    have hlog : c.andLog = c1.andLog ∨ ∃ r, r.gates.length ≤ e.checkSz ∧ c.andLog = c1.andLog ++ [r] := by
      have g1 : (comFinPoly e.view c1 fin.polyAns).andLog = c1.andLog := by unfold comFinPoly; split <;> rfl
      have g2 : (comFinPoly e.view c1 fin.polyAns).gates = c1.gates := by unfold comFinPoly; split <;> rfl
      unfold comFinalize comFinAnd at h2
      split at h2
      · split at h2
        · simp only [Option.some.injEq] at h2
          subst h2
          right
          refine ⟨_, ?_, by simp only [comAndCheck, g1]; rfl⟩
          simp only [g2]
          exact hr.cur
        · simp at h2
      · simp only [Option.some.injEq] at h2
        subst h2
        exact Or.inl g1
    refine ⟨?_, ?_, ?_, ?_⟩
    · subst k
      simp only [verImg, List.flatMap_map]
      have : (c.andLog.flatMap fun r => r.gates.map (Gate.key e.delta)) = c.allGates.map (Gate.key e.delta) := by
        simp [ComSt.allGates, f5, List.map_flatMap]
      rw [this]
      generalize andTriples 0 ops = ts at hg ⊢
      generalize c.allGates = gs at hg ⊢
      induction hg with
      | nil => exact .nil
      | cons hh _ ih =>
        refine .cons ?_ ih
        obtain ⟨a1, a2, a3⟩ := hh
        exact ⟨by simp [a1, Gate.key], by simp [a2, Gate.key], by simp [a3, Gate.key]⟩
    · subst k; simp [verImg, f5]
    · intro r hrr
      subst k
      simp only [verImg, ← List.map_dropLast, List.mem_map] at hrr
      obtain ⟨r', hr', rfl⟩ := hrr
      rw [List.length_map]
      refine hr.full r' ?_
      rcases hlog with hl | ⟨x, _, hl⟩
      · rw [hl] at hr'; exact List.mem_of_mem_dropLast hr'
      · rw [hl, List.dropLast_concat] at hr'; exact hr'
    · intro r hrr
      subst k
      simp only [verImg, List.mem_map] at hrr
      obtain ⟨r', hr', rfl⟩ := hrr
      rw [List.length_map]
      rcases hlog with hl | ⟨x, hx, hl⟩
      · rw [hl] at hr'; exact le_of_eq (hr.full r' hr')
      · rw [hl, List.mem_append, List.mem_singleton] at hr'
        rcases hr' with hr' | rfl
        · exact le_of_eq (hr.full r' hr')
        · exact hx

/-- C13, C25. No write ever leaves the buffers and no full-batch check divides by zero: on every well-formed program, for
arbitrary messages, the verifier's run is defined (`1 ≤ threads ≤ CHECK_SZ`, `buffer_sz > 0`). -/
theorem C13_no_overflow [DecidableEq F] (e : BEnv F) (he : e.Good) (ht : 0 < e.threads) (htc : e.threads ≤ e.checkSz)
    (hp : 0 < e.polySz) (ops : List BOp) (ms : List (BMsg F)) (hl : ms.length = ops.length)
    (hw : (plainRun ops).isSome) : (verRun e VerSt.init ops ms).isSome := by
  have h1 := comRun_isSome (v := e.view) ht htc hp ops ms ⟨[], [], []⟩ (Rec.init e.view) hl rfl
  obtain ⟨ch, h⟩ := verRun_img e.view he.lsb_delta ops ComSt.init [] ms
  rw [verImg_init, he.eta] at h
  rw [h]
  simp only [Option.isSome_map]
  rw [h1]
  exact hw

/-- C25. For arbitrary messages, if a session completes, the concatenation of the checked batches of statements is
exactly the sequence of statements of the program, evaluated on the verifier's keys; nothing is left unchecked. -/
theorem C25_poly_batches [DecidableEq F] (e : BEnv F) (he : e.Good) (ops : List BOp) (ms : List (BMsg F)) (fin : BFin F)
    (V : VerSt F) (h : verSession e ops ms fin = some V) :
    List.Forall₂ (fun s k => ∃ p, s.lookup V.wires = some p ∧ k = stmtVer e.delta p) (polyStmts ops)
      (V.polyLog.flatMap PolyRec.polys) ∧ V.polys = [] ∧
      (∀ r ∈ V.polyLog.dropLast, r.polys.length = e.polySz) ∧ (∀ r ∈ V.polyLog, r.polys.length ≤ e.polySz) := by
  rw [← he.eta] at h
  obtain ⟨ch, k⟩ := verSession_img e.view he.lsb_delta ops ms fin
  rw [h] at k
  cases hc : comSession e.view ops ms fin with
  | none => rw [hc] at k; simp at k
  | some c =>
    rw [hc, Option.map_some, Option.some.injEq] at k
    simp only [comSession, Option.bind_eq_bind, Option.bind_eq_some_iff] at hc
    obtain ⟨c1, h1, h2⟩ := hc
    have hr := comRun_rec ops (Rec.init e.view) h1
    obtain ⟨f1, f2, f3, f4, f5, f6, f7⟩ := comFinalize_facts h2
    have hg := hr.stmts
    simp only [List.nil_append] at hg
    rw [← f7, ← f4] at hg
    have hlog : c.polyLog = c1.polyLog ∨ ∃ r, r.polys.length ≤ e.polySz ∧ c.polyLog = c1.polyLog ++ [r] := by
      have g1 : c.polyLog = (comFinPoly e.view c1 fin.polyAns).polyLog := by
        unfold comFinalize comFinAnd at h2
        split at h2
        · split at h2
          · simp only [Option.some.injEq] at h2; subst h2; rfl
          · simp at h2
        · simp only [Option.some.injEq] at h2; subst h2; rfl
      rw [g1]
      unfold comFinPoly
      split
      · exact Or.inr ⟨_, hr.curP, rfl⟩
      · exact Or.inl rfl
    refine ⟨?_, ?_, ?_, ?_⟩
    · subst k
      simp only [verImg, List.flatMap_map]
      have : (c.polyLog.flatMap fun r => r.polys.map (fun s => stmtVer e.delta (s.map (keyOf e.delta)))) =
          c.stmts.map (fun s => stmtVer e.delta (s.map (keyOf e.delta))) := by
        simp [ComSt.stmts, f6, List.map_flatMap]
      rw [this]
      generalize polyStmts ops = ts at hg ⊢
      generalize c.stmts = gs at hg ⊢
      induction hg with
      | nil => exact .nil
      | cons hh _ ih =>
        refine .cons ?_ ih
        exact ⟨_, by rw [lookup_map, hh]; rfl, rfl⟩
    · subst k; simp [verImg, f6]
    · intro r hrr
      subst k
      simp only [verImg, ← List.map_dropLast, List.mem_map] at hrr
      obtain ⟨r', hr', rfl⟩ := hrr
      rw [List.length_map]
      refine hr.fullP r' ?_
      rcases hlog with hl | ⟨x, _, hl⟩
      · rw [hl] at hr'; exact List.mem_of_mem_dropLast hr'
      · rw [hl, List.dropLast_concat] at hr'; exact hr'
    · intro r hrr
      subst k
      simp only [verImg, List.mem_map] at hrr
      obtain ⟨r', hr', rfl⟩ := hrr
      rw [List.length_map]
      rcases hlog with hl | ⟨x, hx, hl⟩
      · rw [hl] at hr'; exact le_of_eq (hr.fullP r' hr')
      · rw [hl, List.mem_append, List.mem_singleton] at hr'
        rcases hr' with hr' | rfl
        · exact le_of_eq (hr.fullP r' hr')
        · exact hx

/-! ### C22, C23: polynomial statements -/

/-- C22. A batch of true statements (of any of the five kinds) with honest labels passes for every seed, mask and
`Delta`. -/
theorem C22_poly_complete [DecidableEq F] (delta : F) (buf : List (PolyStmt F)) (seed : F) (ope : Nat → F)
    (htrue : ∀ s ∈ buf, (s.map lsb).eval = false) :
    polyCheckVer delta (buf.map (fun s => stmtVer delta (s.map (keyOf delta)))) seed (fun i => keyOf delta (ope i))
      (polyCheckPrv (buf.map stmtPrv) seed ope) = true := by
  rw [polyCheckVer_keyOf, chiSum_zero _ _ _ (by intro s hs; rw [htrue s hs, bit_false])]
  rw [decide_eq_true_eq, addSelf]
  ring

/-- C22. `zkp_inner_prdt_multi` queues one statement per column, each claiming `sum_i x[i][w]*y[i] + r[w]*s = 0`. -/
theorem C22_multi (x : Nat → Nat → Bool) (y r : Nat → Bool) (s : Bool) (len w : Nat) :
    (∀ st ∈ multiStmts x y r s len w, st.eval = false) ↔
      ∀ k < w, (xorAll ((List.range len).map (fun i => x i k && y i)) ^^ (r k && s)) = false := by
  simp only [multiStmts, List.mem_map, List.mem_range, forall_exists_index, and_imp, forall_apply_eq_imp_iff₂,
    PolyStmt.eval, List.map_map, Function.comp_def]

/-- C23. If some statement of a batch is false, at most `(n+2)*|F|` of the `|F|^2` pairs (seed, `Delta`) are accepted,
whatever function of the seed computes the prover's message. -/
theorem C23_poly_sound [DecidableEq F] [Fintype F] (buf : List (PolyStmt F)) (ope : Nat → F) (answer : F → F × F)
    (hbad : ∃ s ∈ buf, (s.map lsb).eval = true) :
    (Finset.univ.filter (fun q : F × F =>
      polyCheckVer q.2 (buf.map (fun s => stmtVer q.2 (s.map (keyOf q.2)))) q.1 (fun i => keyOf q.2 (ope i))
        (answer q.1) = true)).card ≤ (buf.length + 2) * Fintype.card F := by
  obtain ⟨s0, hs0, hs1⟩ := hbad
  have h1 := card_seeds_le (buf.map (fun s => (bit (s.map lsb).eval : F)))
    ⟨1, List.mem_map.2 ⟨s0, hs0, by rw [hs1, bit_true]⟩, one_ne_zero⟩ 0
  rw [List.length_map] at h1
  have h2 := card_fibre_le (A := F) (B := F)
    (fun s d => polyCheckVer d (buf.map (fun s => stmtVer d (s.map (keyOf d)))) s (fun i => keyOf d (ope i))
        (answer s) = true)
    (fun s => chiSum s (buf.map (fun s => (bit (s.map lsb).eval : F))) = 0) buf.length 2 h1 (by
      intro s hne D hD
      refine card_quad_le (chiSum s (buf.map (fun s => (bit (s.map lsb).eval : F))))
        ((polyCheckPrv (buf.map stmtPrv) s ope).2 + (answer s).2)
        ((polyCheckPrv (buf.map stmtPrv) s ope).1 - (answer s).1) hne D ?_
      intro d hd
      have := hD d hd
      rw [polyCheckVer_keyOf, decide_eq_true_eq] at this
      linear_combination (-1 : F) * this)
  refine h2.trans (le_of_eq ?_)
  ring

/-! ### C62: knowledge soundness of sessions -/

/-- C62. Fix everything but the verifier's `Delta` (correlations, challenges, the prover's messages).  Suppose a completed
session is accepted for at least three values of `Delta`, that the challenges of the session are not among the few bad ones
(a zero combination of errors only if the covered gates, resp. statements, have no error; counted in C09 and C23), that the
splits cover the batches (C10) and that the verifier's hash does not collide on the lists it hashes.  Then there are inputs
— the committed ones — on which the plain program produces exactly the outputs the verifier saw, with all claimed
statements true. -/
theorem C62_extraction [DecidableEq F] (v : BView F) (ops : List BOp) (ms : List (BMsg F)) (fin : BFin F)
    (c : ComSt F) (hc : comSession v ops ms fin = some c)
    (hseeds : ∀ r ∈ c.andLog, ∀ tasks, splitTasks r.gates.length v.threads = some tasks →
      errSum r.gates r.seeds tasks 0 = 0 → ∀ t ∈ tasks, ∀ g ∈ taskSlice r.gates t, g.Correct)
    (hcover : ∀ r ∈ c.andLog, r.gates.length % v.threads < r.gates.length / v.threads)
    (hpseeds : ∀ r ∈ c.polyLog, chiSum r.seed (r.polys.map (fun s => (bit (s.map lsb).eval : F))) = 0 →
      ∀ s ∈ r.polys, (s.map lsb).eval = false)
    (D : Finset F) (hD3 : 3 ≤ D.card)
    (hD : ∀ d ∈ D, lsb d = true ∧ ∃ V, verSession (v.env d) ops ms fin = some V ∧ cheated V = false)
    (hhash : ∀ d1 ∈ D, ∀ d2 ∈ D, ∀ V1 V2, verSession (v.env d1) ops ms fin = some V1 →
      verSession (v.env d2) ops ms fin = some V2 → v.hash V1.digest = v.hash V2.digest → V1.digest = V2.digest) :
    ∃ ops' pl, List.Forall₂ BOp.same ops ops' ∧ plainRun ops' = some pl ∧ (∀ b ∈ pl.claims, b = false) ∧
      ∀ d ∈ D, ∀ V, verSession (v.env d) ops ms fin = some V → V.outs = pl.outs := by
  have hfacts : c.gates = [] ∧ c.polys = [] := by
    simp only [comSession, Option.bind_eq_bind, Option.bind_eq_some_iff] at hc
    obtain ⟨c1, h1, h2⟩ := hc
    obtain ⟨_, _, _, _, f5, f6, _⟩ := comFinalize_facts h2
    exact ⟨f5, f6⟩
  have himg : ∀ d ∈ D, ∃ ch, verSession (v.env d) ops ms fin = some (verImg d c ch) ∧
      (∀ r ∈ (verImg d c ch).andLog, AndOK (v.env d) r) ∧ (∀ r ∈ (verImg d c ch).polyLog, PolyOK (v.env d) r) := by
    intro d hd
    obtain ⟨hl, V, hV, hok⟩ := hD d hd
    obtain ⟨ch, k⟩ := verSession_img v hl ops ms fin
    rw [hc, Option.map_some] at k
    have := (cheats_session hV).1 (by simpa [cheated] using hok)
    rw [hV, Option.some.injEq] at k
    subst k
    exact ⟨ch, hV, this.1, this.2.1⟩
  have hand : ∀ g ∈ c.allGates, g.Correct := by
    intro g hg
    simp only [ComSt.allGates, hfacts.1, List.append_nil, List.mem_flatMap] at hg
    obtain ⟨r, hr, hgr⟩ := hg
    have hcov := hcover r hr
    have hth : 0 < v.threads := by
      rcases Nat.eq_zero_or_pos v.threads with h0 | h0
      · rw [h0] at hcov; simp at hcov
      · exact h0
    have htl : v.threads ≤ r.gates.length := by
      by_contra hcon
      rw [Nat.div_eq_of_lt (by omega)] at hcov
      omega
    obtain ⟨tasks, hts⟩ := Option.isSome_iff_exists.1 ((splitTasks_isSome r.gates.length v.threads).2 ⟨hth, htl⟩)
    have hz : errSum r.gates r.seeds tasks 0 = 0 := by
      by_contra hne
      have := delta_le_two r.gates v.threads r.seeds (fun i => v.mac (r.ope + i)) r.ans tasks hts hne D (by
        intro d hd
        obtain ⟨ch, _, ha, _⟩ := himg d hd
        exact ha ⟨r.gates.map (Gate.key d), r.seeds, r.ope, r.ans⟩ (by
          simp only [verImg, List.mem_map]
          exact ⟨r, hr, rfl⟩))
      omega
    obtain ⟨i, hi⟩ := List.mem_iff_getElem?.1 hgr
    have hil : i < r.gates.length := by
      rcases Nat.lt_or_ge i r.gates.length with h | h
      · exact h
      · rw [List.getElem?_eq_none h] at hi; simp at hi
    obtain ⟨t, ht, hlo, hhi⟩ := (splitTasks_covers hts i).2 (by rw [(covered_eq_iff hth htl).2 hcov]; exact hil)
    exact hseeds r hr tasks hts hz t ht g (taskSlice_mem hlo hhi hi)
  have hclaims : ∀ s ∈ c.stmts, (s.map lsb).eval = false := by
    intro s hs
    simp only [ComSt.stmts, hfacts.2, List.append_nil, List.mem_flatMap] at hs
    obtain ⟨r, hr, hsr⟩ := hs
    refine hpseeds r hr ?_ s hsr
    by_contra hne
    have := card_quad_le (chiSum r.seed (r.polys.map (fun s => (bit (s.map lsb).eval : F))))
        ((polyCheckPrv (r.polys.map stmtPrv) r.seed (fun i => v.mac (r.ope + i))).2 + r.ans.2)
        ((polyCheckPrv (r.polys.map stmtPrv) r.seed (fun i => v.mac (r.ope + i))).1 - r.ans.1) hne D (by
      intro d hd
      obtain ⟨ch, _, _, hp⟩ := himg d hd
      have hp' := hp _ (by
        simp only [verImg, List.mem_map]
        exact ⟨r, hr, rfl⟩)
      unfold PolyOK at hp'
      have h3 := (polyCheckVer_keyOf d r.polys r.seed (fun i => v.mac (r.ope + i)) r.ans).symm.trans hp'
      rw [decide_eq_true_eq] at h3
      linear_combination (-1 : F) * h3)
    omega
  have hopen : ∀ o ∈ c.opened, o.2 = lsb o.1 := by
    intro o ho
    by_contra hob
    obtain ⟨d1, hd1, d2, hd2, hne⟩ := Finset.one_lt_card.1 (by omega : 1 < D.card)
    obtain ⟨hl1, V1, hV1, hok1⟩ := hD d1 hd1
    obtain ⟨hl2, V2, hV2, hok2⟩ := hD d2 hd2
    have := C11_session_binding v ops ms fin c hc ⟨o, ho, hob⟩ d1 d2 hl1 hl2 hne V1 V2 hV1 hV2 hok1 hok2
    exact this.1 (hhash d1 hd1 d2 hd2 V1 V2 hV1 hV2 this.2)
  obtain ⟨ops', h1, h2⟩ := comSession_faithful hc ⟨hand, hopen⟩
  refine ⟨ops', c.plain, h1, h2, ?_, ?_⟩
  · intro b hb
    simp only [ComSt.plain, List.mem_map] at hb
    obtain ⟨s, hs, rfl⟩ := hb
    exact hclaims s hs
  · intro d hd V hV
    obtain ⟨ch, hV', _⟩ := himg d hd
    rw [hV, Option.some.injEq] at hV'
    subst hV'
    rfl

end

/-! ### concrete cases -/
section examples

/-- A concrete session over 128-bit blocks. -/
noncomputable def exEnv : BEnv GF128 where
  delta := 1 + gX
  key := fun _ => gX
  choice := fun n => n % 2 == 0
  pub0 := 0
  pub1 := 1
  threads := 1
  checkSz := 2
  polySz := 2
  chal := fun _ _ _ => gX
  polySeed := fun _ => 1
  hash := fun l => l.sum

theorem lsb_gX : lsb (gX : GF128) = false := by
  show GF128.getLSB GF128.blockX = false
  decide

theorem lsb_gX2 : lsb (gX * gX : GF128) = false := by
  show GF128.getLSB (GF128.blockX * GF128.blockX) = false
  decide +kernel

theorem exEnv_good : exEnv.Good where
  lsb_delta := by
    show lsb (1 + gX : GF128) = true
    rw [lsb_add, lsb_one, lsb_gX]; rfl
  lsb_key := fun _ => lsb_gX

/-- A program with inputs, all gates, a full batch, a statement and an opening. -/
def exProg : List BOp :=
  [.input true, .input false, .and 0 1, .xor 0 2, .not 3, .and 0 4, .and 0 0, .pub true,
   .poly (.inner false [(1, 0), (2, 7)]), .poly (.deg2 true [(true, 0, 7), (false, 0, 0)]), .reveal 6]

example : plainRun exProg = some
    ⟨[true, false, false, true, false, false, true, true], [true], [false, false]⟩ := by decide

/-- The hypotheses of C06, C07, C12, C13, C25 are met by a concrete session with two batches of AND gates. -/
example : ∃ P ms fin, prvSession exEnv exProg = some (P, ms, fin) ∧ exEnv.Good := by
  have := (C07_completes exEnv exEnv_good (by decide) (by decide) (by decide) exProg).2
    ⟨by decide, Or.inr (by decide)⟩
  obtain ⟨⟨P, ms, fin⟩, h⟩ := Option.isSome_iff_exists.1 this
  exact ⟨P, ms, fin, h, exEnv_good⟩

/-- ... and in it the verifier ends with output `true` and no cheating recorded. -/
example : ∃ ms fin V, verSession exEnv exProg ms fin = some V ∧ V.outs = [true] ∧ cheated V = false := by
  have := (C07_completes exEnv exEnv_good (by decide) (by decide) (by decide) exProg).2
    ⟨by decide, Or.inr (by decide)⟩
  obtain ⟨⟨P, ms, fin⟩, h⟩ := Option.isSome_iff_exists.1 this
  obtain ⟨V, pl, h1, h2, h3, _, _, h4⟩ := C07_honest_session exEnv exEnv_good exProg P ms fin h
  have hpl : plainRun exProg = some ⟨[true, false, false, true, false, false, true, true], [true], [false, false]⟩ := by
    decide
  rw [hpl, Option.some.injEq] at h2
  subst h2
  exact ⟨ms, fin, V, h1, h3, h4 (by decide)⟩

/-- C07: with two threads the same program ends in undefined behaviour (last batch has one gate). -/
example : ({ exEnv with threads := 2 } : BEnv GF128).Good ∧
    (prvSession { exEnv with threads := 2 } exProg).isSome = false := by
  refine ⟨⟨exEnv_good.lsb_delta, exEnv_good.lsb_key⟩, ?_⟩
  have := (C07_completes { exEnv with threads := 2 } ⟨exEnv_good.lsb_delta, exEnv_good.lsb_key⟩
    (by decide) (by decide) (by decide) exProg).not.2 (by
      rintro ⟨_, h | h⟩ <;> revert h <;> decide)
  simpa using this

/-- C08/C09: a batch of one correct gate, and one of one wrong gate (1 AND 1 = 0). -/
example : (⟨1, 1, 1⟩ : Gate GF128).Correct ∧ ¬ (⟨1, 1, 0⟩ : Gate GF128).Correct := by
  constructor
  · show lsb (1 : GF128) = (lsb (1 : GF128) && lsb (1 : GF128)); simp
  · show ¬ (lsb (0 : GF128) = (lsb (1 : GF128) && lsb (1 : GF128))); simp

example : ∃ tasks : List (Nat × Nat), splitTasks ([⟨1, 1, 1⟩, ⟨1, 1, 0⟩] : List (Gate GF128)).length 2 = some tasks ∧
    ∃ h : 1 < tasks.length, ∃ g ∈ taskSlice ([⟨1, 1, 1⟩, ⟨1, 1, 0⟩] : List (Gate GF128)) tasks[1], ¬ g.Correct := by
  refine ⟨[(0, 1), (1, 1)], by decide, by decide, ⟨1, 1, 0⟩, by simp [taskSlice], ?_⟩
  show ¬ (lsb (0 : GF128) = (lsb (1 : GF128) && lsb (1 : GF128))); simp

/-- C10: 7 gates, 4 threads: 3 gates unchecked; C10_large_batches at the real size. -/
example : covered 7 4 = 4 ∧ covered (1024 * 1024) 48 = 1024 * 1024 := by decide

/-- C11: a committed zero opened as one. -/
example : (true : Bool) ≠ lsb (0 : GF128) := by simp

/-- C22/C23: a true and a false statement (1*1 + 1 = 0, resp. 1*1 = 0). -/
example : ((PolyStmt.inner true [((1 : GF128), (1 : GF128))]).map lsb).eval = false ∧
    ((PolyStmt.inner false [((1 : GF128), (1 : GF128))]).map lsb).eval = true := by
  simp [PolyStmt.map, PolyStmt.eval, xorAll]

/-- C62: the hypotheses are met by the honest session above, with three values of `Delta`. -/
theorem exProg_sound : ∃ ms fin c, ∃ D : Finset GF128, comSession exEnv.view exProg ms fin = some c ∧ c.andLog ≠ [] ∧
    (∀ r ∈ c.andLog, ∀ tasks, splitTasks r.gates.length exEnv.view.threads = some tasks →
      errSum r.gates r.seeds tasks 0 = 0 → ∀ t ∈ tasks, ∀ g ∈ taskSlice r.gates t, g.Correct) ∧
    (∀ r ∈ c.andLog, r.gates.length % exEnv.view.threads < r.gates.length / exEnv.view.threads) ∧
    (∀ r ∈ c.polyLog, chiSum r.seed (r.polys.map (fun s => (bit (s.map lsb).eval : GF128))) = 0 →
      ∀ s ∈ r.polys, (s.map lsb).eval = false) ∧ 3 ≤ D.card ∧
    (∀ d ∈ D, lsb d = true ∧ ∃ V, verSession (exEnv.view.env d) exProg ms fin = some V ∧ cheated V = false) ∧
    (∀ d1 ∈ D, ∀ d2 ∈ D, ∀ V1 V2, verSession (exEnv.view.env d1) exProg ms fin = some V1 →
      verSession (exEnv.view.env d2) exProg ms fin = some V2 →
      exEnv.view.hash V1.digest = exEnv.view.hash V2.digest → V1.digest = V2.digest) := by
  have := (C07_completes exEnv exEnv_good (by decide) (by decide) (by decide) exProg).2
    ⟨by decide, Or.inr (by decide)⟩
  obtain ⟨⟨P, ms, fin⟩, h⟩ := Option.isSome_iff_exists.1 this
  rw [← exEnv_good.eta] at h
  obtain ⟨c, k1, _, k3, k4, k5⟩ := prvSession_com exEnv.view exEnv.delta h
  have hpl : plainRun exProg = some ⟨[true, false, false, true, false, false, true, true], [true], [false, false]⟩ := by
    decide
  rw [hpl, Option.some.injEq] at k4
  have hcl : ∀ b ∈ c.plain.claims, b = false := by rw [← k4]; decide
  obtain ⟨ch0, hv0, _⟩ := honest_accepts exEnv.view exEnv_good.lsb_delta k1 k3 k5
  have h13 := C13_and_batches exEnv exEnv_good exProg ms fin _ (by rw [exEnv_good.eta] at hv0; exact hv0)
  have hvthr : exEnv.view.threads = 1 := rfl
  refine ⟨ms, fin, c, {1, 1 + gX, 1 + gX * gX}, k1, ?_, ?_, ?_, ?_, ?_, ?_, ?_⟩
  · intro hnil
    have := h13.1.length_eq
    simp [verImg, hnil] at this
    revert this
    decide
  · intro r hr tasks hts _ t ht g hg
    apply k3.gates
    simp only [ComSt.allGates, List.mem_append, List.mem_flatMap]
    refine Or.inl ⟨r, hr, ?_⟩
    unfold taskSlice at hg
    exact List.mem_of_mem_drop (List.mem_of_mem_take hg)
  · intro r hr
    have hp := k3.andLog r hr
    have : 0 < r.gates.length := by
      by_contra hz
      have h0 : r.gates.length = 0 := by omega
      simp [andCheckPrv, h0, hvthr, splitTasks] at hp
    rw [hvthr, Nat.mod_one, Nat.div_one]
    exact this
  · intro r hr _ s hs
    apply hcl
    simp only [ComSt.plain, ComSt.stmts, List.map_append, List.mem_append, List.mem_map, List.mem_flatMap]
    exact Or.inl ⟨s, ⟨r, hr, hs⟩, rfl⟩
  · have hx0 : (gX : GF128) ≠ 0 := by decide
    have hx1 : (gX : GF128) ≠ 1 := by decide
    have e1 : (1 : GF128) ≠ 1 + gX := by
      intro h; exact hx0 (by linear_combination (-1 : GF128) * h)
    have e2 : (1 : GF128) ≠ 1 + gX * gX := by
      intro h; exact mul_ne_zero hx0 hx0 (by linear_combination (-1 : GF128) * h)
    have e3 : (1 + gX : GF128) ≠ 1 + gX * gX := by
      intro h
      have : (gX : GF128) * (gX - 1) = 0 := by linear_combination (-1 : GF128) * h
      rcases mul_eq_zero.1 this with h | h
      · exact hx0 h
      · exact hx1 (sub_eq_zero.1 h)
    rw [Finset.card_insert_of_notMem (by simp [e1, e2]), Finset.card_insert_of_notMem (by simp [e3]),
      Finset.card_singleton]
  · intro d hd
    have hl : lsb d = true := by
      simp only [Finset.mem_insert, Finset.mem_singleton] at hd
      rcases hd with rfl | rfl | rfl
      · exact lsb_one
      · rw [lsb_add, lsb_one, lsb_gX]; rfl
      · rw [lsb_add, lsb_one, lsb_gX2]; rfl
    obtain ⟨ch, a1, _, a3⟩ := honest_accepts exEnv.view hl k1 k3 k5
    exact ⟨hl, _, a1, a3 hcl⟩
  · intro d1 hd1 d2 hd2 V1 V2 hV1 hV2 _
    have hl : ∀ d ∈ ({1, 1 + gX, 1 + gX * gX} : Finset GF128), lsb d = true := by
      intro d hd
      simp only [Finset.mem_insert, Finset.mem_singleton] at hd
      rcases hd with rfl | rfl | rfl
      · exact lsb_one
      · rw [lsb_add, lsb_one, lsb_gX]; rfl
      · rw [lsb_add, lsb_one, lsb_gX2]; rfl
    obtain ⟨ch1, a1, b1, _⟩ := honest_accepts exEnv.view (hl d1 hd1) k1 k3 k5
    obtain ⟨ch2, a2, b2, _⟩ := honest_accepts exEnv.view (hl d2 hd2) k1 k3 k5
    rw [hV1, Option.some.injEq] at a1
    rw [hV2, Option.some.injEq] at a2
    rw [a1, a2, b1, b2]

end examples
end EmpZk
