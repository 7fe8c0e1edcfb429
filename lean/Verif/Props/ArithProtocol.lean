/-
Properties C17-C21, C24, C63-C65: the arithmetic protocol.
-/
import Verif.Lemmas.ArithBatches

namespace EmpZk

/-! ### C17: labels -/

/-- C17. After any honest program every wire is authenticated for `Delta` with the value of the plain program over the field;
all words are canonical (part of `Auth`). -/
theorem C17_mac_invariant (e : AEnv) (he : e.Good) (ops : List AOp) (ho : ∀ o ∈ ops, o.CanonC) (P : APrv)
    (ms : List AMsg) (h : aprvRun e APrv.init ops = some (P, ms)) :
    ∃ V pl, averRun e AVer.init ops ms = some V ∧ aplainRun ops = some pl ∧
      P.wires.length = pl.wires.length ∧ V.wires.length = pl.wires.length ∧
      ∀ (i : Nat) (x : Fp), pl.wires[i]? = some x →
        ∃ M K, P.wires[i]? = some M ∧ V.wires[i]? = some K ∧ Auth e.delta M K ∧ fp (high64 M) = x := by
  rw [← he.eta] at h ⊢
  obtain ⟨c, k1, k2, _, k3, pl, k4, k5⟩ := aprvRun_com e.view (fp e.delta) ops (c := ACom.init) ho h (AHon.init _)
    APlainOf.init
  obtain ⟨ab, ch, k6⟩ := averRun_img e.view (fp e.delta) ops ACom.init false false ms k3 ho
  simp only at k1 k2
  rw [averImg_init, k1, Option.map_some] at k6
  refine ⟨_, pl, k6, k4, ?_, ?_, ?_⟩
  · rw [k2, k5.wires]; simp [aprvOf]
  · rw [k5.wires]; simp [averImg]
  · intro i x hx
    rw [k5.wires, List.getElem?_map, Option.map_eq_some_iff] at hx
    obtain ⟨m, hm, rfl⟩ := hx
    refine ⟨lab m, keyAt (fp e.delta) m, ?_, ?_, ?_, ?_⟩
    · rw [k2]; simp [aprvOf, hm]
    · simp [averImg, hm]
    · exact auth_lab _ _
    · rw [high64_lab, fp_toW]

/-- C17. The honest prover runs to the end exactly on well-formed programs (operands exist), when `CHECK_SZ > 0` and
(`CHECK_SZ < 32` or `1 ≤ threads ≤ CHECK_SZ`). -/
theorem C17_progress (e : AEnv) (he : e.Good) (h0 : 0 < e.checkSz)
    (h1 : e.checkSz < 32 ∨ (0 < e.threads ∧ e.threads ≤ e.checkSz)) (hp : 0 < e.polySz) (ops : List AOp)
    (ho : ∀ o ∈ ops, o.CanonC) : (aprvRun e APrv.init ops).isSome ↔ (aplainRun ops).isSome := by
  rw [← he.eta]
  exact aprvRun_isSome e.view (fp e.delta) ((mulTasks_isSome _ _).2 ⟨h0, h1⟩) hp ops (c := ACom.init) ho (ARec.init _)
    (AHon.init _) APlainOf.init

/-- C17 for whole sessions. If the honest prover finishes, the verifier finishes, both return the values of the plain
program, and the verifier accepts when all claims of the program (`reveal_zero`, expected values, statements) are true. -/
theorem C17_honest_session (e : AEnv) (he : e.Good) (ops : List AOp) (ho : ∀ o ∈ ops, o.CanonC) (P : APrv)
    (ms : List AMsg) (fin : AFin) (h : aprvSession e ops = some (P, ms, fin)) :
    ∃ V pl, averSession e ops ms fin = some V ∧ aplainRun ops = some pl ∧
      V.outs.map fp = pl.outs ∧ (∀ w ∈ V.outs, Canon w) ∧ P.outs = V.outs ∧
      ((∀ x ∈ pl.claims, x = 0) → V.accepted = true) := by
  rw [← he.eta] at h ⊢
  obtain ⟨c, k1, k2, hon, k3, ⟨pl, k4, k5⟩, k7⟩ := aprvSession_com e.view (fp e.delta) ho h
  simp only at k1 k2 k3 k7
  obtain ⟨ab, ch, k6⟩ := averSession_img e.view (fp e.delta) ops ho ms k3 fin
  rw [k1, Option.map_some] at k6
  refine ⟨_, pl, k6, k4, ?_, ?_, ?_, ?_⟩
  · rw [k5.outs]; simp [averImg, fp_toW, Function.comp_def]
  · intro w hw
    simp only [averImg, List.mem_map] at hw
    obtain ⟨x, _, rfl⟩ := hw
    exact canon_toW _
  · rw [k2]; rfl
  · intro hz
    obtain ⟨ab', ch', k8, k9⟩ := ahonest_accepts e.view (fp e.delta) ho k3 k1 hon k5 hz k7
    rw [k6, Option.some.injEq] at k8
    rw [k8]
    exact k9

/-- C17. The honest prover finishes a session exactly on well-formed programs whose last batch of multiplications is empty,
smaller than 32, or has at least `threads` gates; otherwise the last check divides by zero. -/
theorem C17_completes (e : AEnv) (he : e.Good) (h0 : 0 < e.checkSz)
    (h1 : e.checkSz < 32 ∨ (0 < e.threads ∧ e.threads ≤ e.checkSz)) (hp : 0 < e.polySz) (ops : List AOp)
    (ho : ∀ o ∈ ops, o.CanonC) :
    (aprvSession e ops).isSome ↔ (aplainRun ops).isSome ∧
      (lastBatch (mulCount ops) e.checkSz < 32 ∨
        (0 < e.threads ∧ e.threads ≤ lastBatch (mulCount ops) e.checkSz)) := by
  have hpr := C17_progress e he h0 h1 hp ops ho
  cases hr : aprvRun e APrv.init ops with
  | none =>
    rw [hr] at hpr
    simp only [aprvSession, hr, Option.bind_eq_bind, Option.bind_none, Option.isSome_none, Bool.false_eq_true, false_iff,
      not_and] at hpr ⊢
    exact fun h => absurd h hpr
  | some q =>
    rw [hr] at hpr
    have hpl : (aplainRun ops).isSome := hpr.1 rfl
    rw [← he.eta] at hr ⊢
    obtain ⟨c, k1, k2, hon, _, pl, _, _⟩ := aprvRun_com e.view (fp e.delta) ops (c := ACom.init) ho hr (AHon.init _)
      APlainOf.init
    have hlb := acomRun_lastBatch k1
    have hcs : (e.view.env (fp e.delta)).checkSz = e.view.checkSz := rfl
    have hth : (e.view.env (fp e.delta)).threads = e.view.threads := rfl
    simp only [aprvSession, hr, Option.bind_eq_bind, Option.bind_some, hpl, true_and, hcs, hth, ← hlb]
    have key : ∃ c2, (∃ ans, aprvFinPoly (e.view.env (fp e.delta)) q.1 = some (aprvOf c2, ans)) ∧ c2.gates = c.gates := by
      rw [k2]
      unfold aprvFinPoly
      have hpp : (aprvOf c).polys ≠ [] ↔ c.polys ≠ [] := by simp [aprvOf]
      by_cases hf : c.polys ≠ []
      · rw [if_pos (hpp.2 hf)]
        obtain ⟨ans, m1, m2⟩ := aprvPolyCheck_com e.view (fp e.delta) hf hon
        exact ⟨_, ⟨ans, m1⟩, rfl⟩
      · rw [if_neg (fun h' => hf (hpp.1 h'))]
        exact ⟨c, ⟨_, rfl⟩, rfl⟩
    obtain ⟨c2, ⟨ans, hfp⟩, hg⟩ := key
    simp only [aprvFinalize, hfp, Option.bind_eq_bind, Option.bind_some]
    rw [← hg]
    unfold aprvFinMul
    have e2 : (aprvOf c2).gates ≠ [] ↔ c2.gates ≠ [] := by simp [aprvOf]
    by_cases hf : c2.gates ≠ []
    · rw [if_pos (e2.2 hf)]
      have e3 : mulCheckA (aprvOf c2).gates (e.view.env (fp e.delta)).threads
          ((e.view.env (fp e.delta)).seed (aprvOf c2).mulBatches) ((e.view.env (fp e.delta)).cor (aprvOf c2).used) =
          mulCheckA (c2.gates.map CGate.lab) e.view.threads (e.view.seed c2.mulBatches) (lab (e.view.cor c2.used)) := rfl
      simp only [aprvMulCheck, e3, mulCheckA_lab]
      have hm := mulTasks_isSome c2.gates.length e.view.threads
      have hpos : 0 < c2.gates.length := List.length_pos_iff.2 hf
      simp only [hpos, true_and] at hm
      rw [← hm]
      cases mulTasks c2.gates.length e.view.threads <;> simp
    · rw [if_neg (fun h' => hf (e2.1 h'))]
      have : c2.gates = [] := by simpa using hf
      simp [this]

/-! ### C18: multiplication check, completeness -/

/-- C18. For every batch of correct authenticated multiplications, every seeds, mask and `Delta`, the words sent by the prover
pass the verifier's comparison. -/
theorem C18_mul_check_complete (delta : W) (hd : Canon delta) (bufA bufB : List AGate)
    (hauth : List.Forall₂ (AuthGate delta) bufA bufB)
    (hc : ∀ A ∈ bufA, fp (high64 A.out) = fp (high64 A.left) * fp (high64 A.right))
    (threads : Nat) (seeds : Nat → U128) (opeA opeB : U128) (hope : Auth delta opeA opeB) (ans : W × W)
    (h : mulCheckA bufA threads seeds opeA = some ans) :
    mulCheckB delta bufB threads seeds opeB ans = some true := by
  obtain ⟨d, rfl⟩ : ∃ d, delta = toW d := ⟨fp delta, (toW_fp hd).symm⟩
  obtain ⟨e1, e2⟩ := authGates_eqs hauth
  rw [← e1, ← hope.lab_eq, mulCheckA_lab, Option.map_eq_some_iff] at h
  obtain ⟨ts, hts, rfl⟩ := h
  rw [← e2, ← hope.key_eq, fp_toW, mulCheckB_keyAt, hts, Option.map_some]
  simp only [Option.some.injEq, beq_iff_eq, multMod_toW, addMod_toW]
  congr 1
  rw [mulErr, taskSum_correct]
  · ring
  · intro g hg
    rw [List.mem_map] at hg
    obtain ⟨A, hA, rfl⟩ := hg
    exact hc A hA

/-- C18. The prover has an answer for every non-empty batch with fewer than 32 gates or at least `threads` gates. -/
theorem C18_answer_exists (delta : W) (bufA bufB : List AGate)
    (hauth : List.Forall₂ (AuthGate delta) bufA bufB) (threads : Nat) (seeds : Nat → U128) (opeA opeB : U128)
    (hope : Auth delta opeA opeB) :
    (mulCheckA bufA threads seeds opeA).isSome ↔
      0 < bufA.length ∧ (bufA.length < 32 ∨ (0 < threads ∧ threads ≤ bufA.length)) := by
  obtain ⟨e1, e2⟩ := authGates_eqs hauth
  have hl : (bufA.map comGate).length = bufA.length := by simp
  rw [← mulTasks_isSome, ← hl]
  conv_lhs => rw [← e1, ← hope.lab_eq, mulCheckA_lab]
  simp

/-! ### C19: multiplication check, soundness -/

/-- C19. Let `buf` be any committed batch with a wrong product in the range of task `t`, `answer` any strategy that picks the
two words after seeing the seeds.  Of the `p^T * p` combinations of seeds and `Delta`, at most `(n_t + 4) * p^T` are accepted,
and at most `(n_t + 2) * p^T` if the second word is always canonical.  `block` is any choice of 128-bit blocks for the residues
of the seeds. -/
theorem C19_mul_check_sound (buf : List CGate) (threads : Nat) (tasks : List (Nat × Nat))
    (hs : mulTasks buf.length threads = some tasks) (t : Nat) (ht : t < tasks.length)
    (hbad : ∃ g ∈ taskSlice buf tasks[t], ¬ g.Correct) (ope : Fp × Fp)
    (block : Fp → U128) (hblock : ∀ x, fp (low64 (block x)) = x)
    (answer : (Fin tasks.length → Fp) → W × W) :
    (Finset.univ.filter (fun q : (Fin tasks.length → Fp) × Fp =>
      mulCheckB (toW q.2) (buf.map (CGate.keyAt q.2)) threads (fun i => block (extendSeeds q.1 i)) (keyAt q.2 ope)
        (answer q.1) = some true)).card ≤ ((tasks[t]).2 + 4) * pN ^ tasks.length ∧
    ((∀ s, Canon (answer s).2) → (Finset.univ.filter (fun q : (Fin tasks.length → Fp) × Fp =>
      mulCheckB (toW q.2) (buf.map (CGate.keyAt q.2)) threads (fun i => block (extendSeeds q.1 i)) (keyAt q.2 ope)
        (answer q.1) = some true)).card ≤ ((tasks[t]).2 + 2) * pN ^ tasks.length) := by
  have hcard : Fintype.card Fp = pN := ZMod.card _
  have h1 := card_bad_seedsA buf tasks.length tasks ⟨t, ht⟩ ht hbad
  have herr : ∀ s : Fin tasks.length → Fp, mulErr buf (fun i => block (extendSeeds s i)) tasks =
      taskSum CGate.err buf (extendSeeds s) tasks 0 := by
    intro s
    unfold mulErr seedFp
    simp only [hblock]
  have hfin : ∀ k, (tasks[t]).2 * pN ^ (tasks.length - 1) * pN + k * pN ^ tasks.length =
      ((tasks[t]).2 + k) * pN ^ tasks.length := by
    intro k
    obtain ⟨n, hn⟩ : ∃ n, tasks.length = n + 1 := ⟨tasks.length - 1, by omega⟩
    rw [hn, Nat.add_sub_cancel, pow_succ]
    ring
  have hgen : ∀ k, (∀ s, taskSum CGate.err buf (extendSeeds s) tasks 0 ≠ 0 → ∀ D : Finset Fp, (∀ d ∈ D,
      mulCheckB (toW d) (buf.map (CGate.keyAt d)) threads (fun i => block (extendSeeds s i)) (keyAt d ope)
        (answer s) = some true) → D.card ≤ k) →
      (Finset.univ.filter (fun q : (Fin tasks.length → Fp) × Fp =>
      mulCheckB (toW q.2) (buf.map (CGate.keyAt q.2)) threads (fun i => block (extendSeeds q.1 i)) (keyAt q.2 ope)
        (answer q.1) = some true)).card ≤ ((tasks[t]).2 + k) * pN ^ tasks.length := by
    intro k hk
    have h2 := card_fibre_le (A := Fin tasks.length → Fp) (B := Fp)
      (fun s d => mulCheckB (toW d) (buf.map (CGate.keyAt d)) threads (fun i => block (extendSeeds s i)) (keyAt d ope)
        (answer s) = some true) (fun s => taskSum CGate.err buf (extendSeeds s) tasks 0 = 0) _ k h1 hk
    rw [Fintype.card_fun, Fintype.card_fin, hcard, hfin] at h2
    exact h2
  constructor
  · refine hgen 4 ?_
    intro s hne D hD
    rw [← herr] at hne
    exact (adelta_le buf threads _ ope (answer s) tasks hs hne D hD).1
  · intro hcan
    refine hgen 2 ?_
    intro s hne D hD
    rw [← herr] at hne
    exact (adelta_le buf threads _ ope (answer s) tasks hs hne D hD).2 (hcan s)

/-- C19: which gates are in the range of some task.  Batches below 32 gates are covered; otherwise the gates below
`covered` (see C10). -/
theorem C19_coverage (cnt threads : Nat) (tasks : List (Nat × Nat)) (hs : mulTasks cnt threads = some tasks) (g : Nat) :
    (∃ t ∈ tasks, t.1 ≤ g ∧ g < t.1 + t.2) ↔ g < if cnt < 32 then cnt else covered cnt threads := by
  unfold mulTasks at hs
  by_cases h : cnt < 32
  · rw [if_pos h] at hs ⊢
    split at hs
    · simp at hs
    · simp only [Option.some.injEq] at hs
      subst hs
      simp
  · rw [if_neg h] at hs ⊢
    exact splitTasks_covers hs g

/-- C19: with 8 threads, of 39 multiplications the last 4 are in no task. -/
theorem C19_uncovered : ∃ tasks, mulTasks 39 8 = some tasks ∧
    ∀ g, 35 ≤ g → g < 39 → ¬ ∃ t ∈ tasks, t.1 ≤ g ∧ g < t.1 + t.2 := by
  obtain ⟨tasks, h⟩ := Option.isSome_iff_exists.1 ((mulTasks_isSome 39 8).2 (by omega))
  refine ⟨tasks, h, ?_⟩
  intro g h1 h2 hex
  have := (C19_coverage 39 8 tasks h g).1 hex
  have e : (if 39 < 32 then 39 else covered 39 8) = 35 := by decide
  rw [e] at this
  omega

/-! ### C20: openings -/

/-- C20 (what holds). A wire with committed value `c.1` opened to a word with another residue, with any MAC word: at most two
`Delta` match, and at most one if the word is canonical.  Missing from C20 as stated: "at most one" for all words; it is
false, see `C20_binding_false`. -/
theorem C20_open_binding_partial (c : Fp × Fp) (x mac : W) (hx : fp x ≠ c.1) (D : Finset Fp)
    (hD : ∀ d ∈ D, openB (toW d) x (keyAt d c) = mac) : D.card ≤ 2 ∧ (Canon x → D.card ≤ 1) := by
  have hne : fp x - c.1 ≠ 0 := sub_ne_zero.2 hx
  constructor
  · refine card_or_le D (fun d => (fp x - c.1) * d + (c.2 - fp mac) = 0) (fun d => (fp x - c.1) * d + (c.2 - fp mac - 8) = 0)
      1 1 ?_ (fun E hE => card_lin_le _ _ hne E hE) (fun E hE => card_lin_le _ _ hne E hE)
    intro d hd
    have h := hD d hd
    unfold openB at h
    rw [low64_keyAt] at h
    obtain ⟨b, hb⟩ := fp_open_any x d (c.2 - c.1 * d)
    rw [h] at hb
    cases b with
    | false => left; simp only [Bool.false_eq_true, if_false] at hb; rw [hb]; ring
    | true => right; simp only [if_true] at hb; rw [hb]; ring
  · intro hc
    refine card_lin_le (fp x - c.1) (c.2 - fp mac) hne D ?_
    intro d hd
    rw [← hD d hd, openB_img d c x hc, fp_toW]
    ring

/-- C20. Opening a wire to zero (no word is sent): at most one `Delta` matches if the wire is not zero; if it is zero, the
honest MAC matches for every `Delta`. -/
theorem C20_zero_binding (c : Fp × Fp) (mac : W) :
    (c.1 ≠ 0 → ∀ D : Finset Fp, (∀ d ∈ D, low64 (keyAt d c) = mac) → D.card ≤ 1) ∧
    (c.1 = 0 → ∀ d, low64 (keyAt d c) = low64 (lab c)) := by
  constructor
  · intro hc D hD
    refine card_lin_le (-c.1) (c.2 - fp mac) (neg_ne_zero.2 hc) D ?_
    intro d hd
    rw [← hD d hd, low64_keyAt, fp_toW]
    ring
  · intro h d
    rw [low64_keyAt, low64_lab, h, zero_mul, sub_zero]

/-- C20. The honest opening matches for every `Delta`. -/
theorem C20_open_complete (c : Fp × Fp) (d : Fp) : openB (toW d) (high64 (lab c)) (keyAt d c) = low64 (lab c) := by
  rw [high64_lab, low64_lab, openB_img d c _ (canon_toW _), fp_toW, sub_self, zero_mul, add_zero]

/-- C20 is false as stated: a wire of value 256204778801521550 opened to the word `2^64 - 9` (residue `p - 1`) passes with
one and the same MAC for the two values 1 and `p - 8` of `Delta`. -/
theorem C20_binding_false : ∃ (c : Fp × Fp) (x mac : W) (d1 d2 : Fp), fp x ≠ c.1 ∧ d1 ≠ d2 ∧
    openB (toW d1) x (keyAt d1 c) = mac ∧ openB (toW d2) x (keyAt d2 c) = mac := by
  refine ⟨(fp 256204778801521550, fp 5), 18446744073709551607, 2049638230412172405, fp 1, fp 2305843009213693943,
    ?_, ?_, ?_, ?_⟩
  · intro h
    have := congrArg toW h
    simp only [toW_fp (show Canon 256204778801521550 by decide)] at this
    revert this
    decide +kernel
  · intro h
    have := congrArg toW h
    rw [toW_fp (show Canon 2305843009213693943 by decide), toW_fp (show Canon 1 by decide)] at this
    revert this
    decide
  · decide +kernel
  · decide +kernel

/-- C20 for whole sessions (canonical messages). If a session in which some wire is opened to a value it is not committed to
is accepted for two values of `Delta`, the two lists hashed by the verifier differ and have the same hash. -/
theorem C20_session_binding (v : AView) (ops : List AOp) (ho : ∀ o ∈ ops, o.CanonC) (ms : List AMsg)
    (hm : ∀ m ∈ ms, m.CanonM) (fin : AFin)
    (c : ACom) (hc : acomSession v ops ms fin = some c) (hbad : ∃ o ∈ c.opened, o.2 ≠ o.1.1)
    (d1 d2 : Fp) (hne : d1 ≠ d2) (V1 V2 : AVer)
    (hv1 : averSession (v.env d1) ops ms fin = some V1) (hv2 : averSession (v.env d2) ops ms fin = some V2)
    (hok1 : V1.accepted = true) (hok2 : V2.accepted = true) :
    V1.stored ≠ V2.stored ∧ v.hash V1.stored = v.hash V2.stored := by
  obtain ⟨ab1, ch1, k1⟩ := averSession_img v d1 ops ho ms hm fin
  obtain ⟨ab2, ch2, k2⟩ := averSession_img v d2 ops ho ms hm fin
  have e1 := (accepted_session hv1).1 hok1
  have e2 := (accepted_session hv2).1 hok2
  rw [hc, Option.map_some, hv1, Option.some.injEq] at k1
  rw [hc, Option.map_some, hv2, Option.some.injEq] at k2
  constructor
  · intro heq
    rw [k1, k2] at heq
    simp only [averImg] at heq
    obtain ⟨o, ho, hob⟩ := hbad
    have hpt := toW_inj (List.map_inj_left.1 heq o ho)
    have hz : (o.2 - o.1.1) * (d1 - d2) = 0 := by linear_combination hpt
    rcases mul_eq_zero.1 hz with h | h
    · exact hob (sub_eq_zero.1 h)
    · exact hne (sub_eq_zero.1 h)
  · exact e1.2.2.2.symm.trans e2.2.2.2

/-! ### C21: revealed words -/

theorem multMod_PR (d : Fp) : multMod PR (toW d) = 0 := by
  have hd := canon_toW d
  unfold Canon at hd
  have hx : PR.toNat = pN := by decide
  apply BitVec.eq_of_toNat_eq
  generalize toW d = D at hd
  rw [multMod_toNat_gen PR D (by rw [hx]; simp only [pN] at hd ⊢; omega), hx]
  simp only [pN] at hd ⊢
  show _ = 0
  rcases Nat.eq_zero_or_pos D.toNat with h | h
  · rw [h]; rfl
  · have h1 : 2305843009213693951 * D.toNat % 2 ^ 61 = 2 ^ 61 - D.toNat := by omega
    have h2 : 2305843009213693951 * D.toNat / 2 ^ 61 = D.toNat - 1 := by omega
    have h3 : (2 ^ 61 - D.toNat + (D.toNat - 1)) % 2 ^ 64 = 2305843009213693951 := by omega
    rw [h1, h2, h3]
    rfl

/-- C21 is false as stated.  In every environment and for every `Delta`, a prover that reveals a zero wire by sending `p` is
accepted, and `reveal` returns `p` on the verifier's side, not 0. -/
theorem C21_canonical_false (v : AView) : ∃ ops ms fin, (∀ o ∈ ops, o.CanonC) ∧ ∀ d, ∃ V,
    averSession (v.env d) ops ms fin = some V ∧ V.accepted = true ∧ V.outs = [PR] ∧ ¬ Canon PR ∧
      aplainRun ops = some ⟨[0], [0], []⟩ := by
  refine ⟨[.input 0, .reveal 0], [⟨toW (v.u 1), 0, 0⟩, ⟨PR, 0, 0⟩], ⟨(0, 0), (0, 0), v.hash [toW (v.mac 1)]⟩, ?_, ?_⟩
  · intro o ho
    simp only [List.mem_cons, List.not_mem_nil, or_false] at ho
    rcases ho with rfl | rfl
    · exact canon_zero
    · exact trivial
  · intro d
    have e1 : feedB (toW d) (keyAt d (v.cor 1)) (toW (v.u 1)) = keyAt d (0, v.mac 1) := by
      rw [feedB_keyAt]
      simp [AView.cor]
    have e2 : openB (toW d) PR (keyAt d (0, v.mac 1)) = toW (v.mac 1) := by
      rw [openB, multMod_PR, low64_keyAt]
      simp only [zero_mul, sub_zero]
      have := addMod_toW 0 (v.mac 1)
      rw [toW_zero, zero_add] at this
      exact this
    refine ⟨_, rfl, ?_, rfl, by decide, rfl⟩
    have hst : openB (v.env d).delta PR (feedB (v.env d).delta ((v.env d).keyU 1) (toW (v.u 1))) = toW (v.mac 1) := by
      have : feedB (v.env d).delta ((v.env d).keyU 1) (toW (v.u 1)) = keyAt d (0, v.mac 1) := e1
      rw [this]
      exact e2
    simp only [AVer.accepted, averFinHash, AVer.init, List.nil_append, hst, Bool.false_or, Bool.not_false, Bool.and_true,
      Bool.not_not, beq_iff_eq]
    rfl

/-- C21 (what holds). If one MAC word makes the opening of a wire to `x` pass for three values of `Delta`, the residue of
`x` is the committed value; if `x` is also canonical, it is the canonical word of that value.  Missing from C21 as stated:
`x` is canonical; this is false, see `C21_canonical_false`. -/
theorem C21_residue_partial (c : Fp × Fp) (x mac : W) (D : Finset Fp) (h3 : 3 ≤ D.card)
    (hD : ∀ d ∈ D, openB (toW d) x (keyAt d c) = mac) : fp x = c.1 ∧ (Canon x → x = toW c.1) := by
  have h : fp x = c.1 := by
    by_contra hne
    have := (C20_open_binding_partial c x mac hne D hD).1
    omega
  exact ⟨h, fun hc => by rw [← h, toW_fp hc]⟩

/-! ### C24: polynomial statements -/

theorem apoly_lab_eq {delta : W} (r : APoly (U128 × U128)) (h : r.All (fun q => Auth delta q.1 q.2)) :
    (r.map (fun q => comOf q.1)).map lab = r.map Prod.fst ∧
    (r.map (fun q => comOf q.1)).map (keyAt (fp delta)) = r.map Prod.snd := by
  cases r with
  | deg2 c0 terms =>
    simp only [APoly.All] at h
    simp only [APoly.map, List.map_map, Function.comp_def, APoly.deg2.injEq, true_and]
    constructor <;> refine List.map_congr_left (fun t ht => ?_) <;> obtain ⟨h1, h2⟩ := h t ht
    · simp [h1.lab_eq, h2.lab_eq]
    · simp [h1.key_eq, h2.key_eq]
  | inner c terms =>
    simp only [APoly.All] at h
    simp only [APoly.map, List.map_map, Function.comp_def, APoly.inner.injEq, true_and]
    constructor <;> refine List.map_congr_left (fun t ht => ?_) <;> obtain ⟨h1, h2⟩ := h t ht
    · simp [h1.lab_eq, h2.lab_eq]
    · simp [h1.key_eq, h2.key_eq]

theorem apoly_value_com (r : APoly (U128 × U128)) :
    (r.map (fun q => comOf q.1)).value = (r.map (fun q => fp (high64 q.1))).eval := by
  cases r <;> simp [APoly.value, APoly.map, comOf, Function.comp_def]

theorem apoly_canon_map {α β : Type} (f : α → β) (r : APoly α) (h : r.CanonC) : (r.map f).CanonC := by
  cases r with
  | deg2 c0 terms =>
    refine ⟨h.1, ?_⟩
    intro t ht
    simp only [List.mem_map] at ht
    obtain ⟨t', ht', rfl⟩ := ht
    exact h.2 t' ht'
  | inner c terms => exact h

/-- C24, completeness. For every non-empty batch of true statements on authenticated wires (pairs of prover's and verifier's
label), every challenge and mask: the prover has an answer and it passes the verifier's comparison. -/
theorem C24_poly_complete (delta : W) (hd : Canon delta) (buf : List (APoly (U128 × U128))) (hb : buf ≠ [])
    (hcan : ∀ r ∈ buf, r.CanonC) (hauth : ∀ r ∈ buf, r.All (fun q => Auth delta q.1 q.2))
    (htrue : ∀ r ∈ buf, (r.map (fun q => fp (high64 q.1))).eval = 0)
    (seed : W) (opeA opeB : U128) (hope : Auth delta opeA opeB) :
    ∃ ans, apolyCheckA (buf.map (fun r => apolyA (r.map Prod.fst))) (mod64 seed) opeA = some ans ∧
      apolyCheckB delta (buf.map (fun r => apolyB delta (r.map Prod.snd))) (mod64 seed) opeB ans = some true := by
  obtain ⟨d, rfl⟩ : ∃ d, delta = toW d := ⟨fp delta, (toW_fp hd).symm⟩
  let cb := buf.map (fun r => r.map (fun q => comOf q.1))
  have eA : buf.map (fun r => apolyA (r.map Prod.fst)) = cb.map (fun p => apolyA (p.map lab)) := by
    rw [List.map_map]
    refine List.map_congr_left (fun r hr => ?_)
    simp only [Function.comp, (apoly_lab_eq r (hauth r hr)).1]
  have eB : buf.map (fun r => apolyB (toW d) (r.map Prod.snd)) = cb.map (fun p => apolyB (toW d) (p.map (keyAt d))) := by
    rw [List.map_map]
    refine List.map_congr_left (fun r hr => ?_)
    have := (apoly_lab_eq r (hauth r hr)).2
    rw [fp_toW] at this
    simp only [Function.comp, this]
  have hcc : ∀ p ∈ cb, p.CanonC := by
    intro p hp
    obtain ⟨r, hr, rfl⟩ := List.mem_map.1 hp
    exact apoly_canon_map _ r (hcan r hr)
  have hcb : cb ≠ [] := by simpa [cb] using hb
  have e2 : keyAt d (comOf opeA) = opeB := by
    have := hope.key_eq
    rwa [fp_toW] at this
  refine ⟨_, by rw [eA, ← hope.lab_eq, mod64_eq_toW, apolyCheckA_lab cb hcc hcb], ?_⟩
  rw [eB, ← e2, mod64_eq_toW, apolyCheckB_keyAt d cb hcc hcb]
  simp only [Option.some.injEq, beq_iff_eq, multMod_toW, addMod_toW]
  congr 1
  have hz : cb.map APoly.value = cb.map (fun _ => (0 : Fp)) := by
    refine List.map_congr_left (fun p hp => ?_)
    obtain ⟨r, hr, rfl⟩ := List.mem_map.1 hp
    rw [apoly_value_com, htrue r hr]
  have hz0 : chiSum (fp seed) (cb.map APoly.value) = 0 := by
    rw [hz]
    exact chiSum_zero _ _ _ (fun _ _ => rfl)
  rw [hz0]
  ring

/-- C24, soundness. For a batch of committed statements one of which is false, and any strategy that picks the two words
after seeing the challenge: of the `p * p` pairs of challenge and `Delta` at most `(n + 4) * p` are accepted, and at most
`(n + 2) * p` if the second word is always canonical. -/
theorem C24_poly_sound (buf : List (APoly (Fp × Fp))) (hcan : ∀ r ∈ buf, r.CanonC) (ope : Fp × Fp)
    (answer : Fp → W × W) (hbad : ∃ r ∈ buf, (r.map Prod.fst).eval ≠ 0) :
    (Finset.univ.filter (fun q : Fp × Fp =>
      apolyCheckB (toW q.2) (buf.map (fun r => apolyB (toW q.2) (r.map (keyAt q.2)))) (toW q.1) (keyAt q.2 ope)
        (answer q.1) = some true)).card ≤ (buf.length + 4) * pN ∧
    ((∀ s, Canon (answer s).2) → (Finset.univ.filter (fun q : Fp × Fp =>
      apolyCheckB (toW q.2) (buf.map (fun r => apolyB (toW q.2) (r.map (keyAt q.2)))) (toW q.1) (keyAt q.2 ope)
        (answer q.1) = some true)).card ≤ (buf.length + 2) * pN) := by
  have hcard : Fintype.card Fp = pN := ZMod.card _
  obtain ⟨r0, hr0, hr1⟩ := hbad
  have hb : buf ≠ [] := by rintro rfl; simp at hr0
  have h1 := card_seeds_le (buf.map APoly.value) ⟨r0.value, List.mem_map.2 ⟨r0, hr0, rfl⟩, hr1⟩ 0
  rw [List.length_map] at h1
  have hgen : ∀ k, (∀ s, chiSum s (buf.map APoly.value) ≠ 0 → ∀ D : Finset Fp, (∀ d ∈ D,
      apolyCheckB (toW d) (buf.map (fun r => apolyB (toW d) (r.map (keyAt d)))) (toW s) (keyAt d ope)
        (answer s) = some true) → D.card ≤ k) →
      (Finset.univ.filter (fun q : Fp × Fp =>
      apolyCheckB (toW q.2) (buf.map (fun r => apolyB (toW q.2) (r.map (keyAt q.2)))) (toW q.1) (keyAt q.2 ope)
        (answer q.1) = some true)).card ≤ (buf.length + k) * pN := by
    intro k hk
    have h2 := card_fibre_le (A := Fp) (B := Fp)
      (fun s d => apolyCheckB (toW d) (buf.map (fun r => apolyB (toW d) (r.map (keyAt d)))) (toW s) (keyAt d ope)
        (answer s) = some true) (fun s => chiSum s (buf.map APoly.value) = 0) _ k h1 hk
    rw [hcard] at h2
    refine h2.trans (le_of_eq ?_)
    ring
  constructor
  · exact hgen 4 (fun s hne D hD => (apdelta_le buf hcan hb s ope (answer s) hne D hD).1)
  · exact fun hc => hgen 2 (fun s hne D hD => (apdelta_le buf hcan hb s ope (answer s) hne D hD).2 (hc s))

/-! ### C63: correction words -/

theorem fp_feedB (d : Fp) (c : Fp × Fp) (l : W) :
    fp (low64 (feedB (toW d) (keyAt d c) l)) = fp (multMod l (toW d)) + (c.2 - c.1 * d) := by
  have e : low64 (feedB (toW d) (keyAt d c) l) = addMod (low64 (keyAt d c)) (multMod l (toW d)) := by
    simp [feedB, low64_keyWord]
  rw [e, low64_keyAt, addMod_comm, fp_addMod_any _ (fp_multMod_any l d).2]

/-- C63 (what holds). A canonical correction word `l` commits the prover, for every `Delta`, to the value `u - l`; with any
word the verifier's key differs from that of the value `u - l` by 0 or 8 modulo `p`.  Missing from C63 as stated: all words;
false, see `C63_residue_false`. -/
theorem C63_correction_partial (c : Fp × Fp) (l : W) :
    (Canon l → ∀ d, feedB (toW d) (keyAt d c) l = keyAt d (c.1 - fp l, c.2) ∧
      mulRecv (toW d) (keyAt d c) l = keyAt d (c.1 - fp l, c.2)) ∧
    ∀ d, fp (low64 (feedB (toW d) (keyAt d c) l)) = c.2 - (c.1 - fp l) * d ∨
      fp (low64 (feedB (toW d) (keyAt d c) l)) = c.2 - 8 - (c.1 - fp l) * d := by
  constructor
  · intro hl d
    have h := feedB_keyAt d c (fp l)
    rw [toW_fp hl] at h
    exact ⟨h, h⟩
  · intro d
    obtain ⟨b, hb⟩ := (fp_multMod_any l d).1
    rw [fp_feedB, hb]
    cases b
    · left; simp only [Bool.false_eq_true, if_false]; ring
    · right; simp only [if_true]; ring

theorem toW_w0 : toW 0 = 0 := by decide +kernel
theorem toW_w1 : toW 1 = 1 := by decide +kernel
theorem toW_w8 : toW (-8) = 2305843009213693943 := by decide +kernel

/-- C63 is false as stated: after the word `2^64 - 9` the verifier's keys for the different `Delta` do not belong to any
one committed value. -/
theorem C63_residue_false : ∃ l : W, ∀ c : Fp × Fp, ¬ ∃ c' : Fp × Fp, ∀ d, feedB (toW d) (keyAt d c) l = keyAt d c' := by
  refine ⟨18446744073709551607, ?_⟩
  rintro c ⟨c', h⟩
  have key : ∀ d, fp (multMod 18446744073709551607 (toW d)) + (c.2 - c.1 * d) = c'.2 - c'.1 * d := by
    intro d
    rw [← fp_feedB, h d, low64_keyAt, fp_toW]
  have h0 := key 0
  have h1 := key 1
  have h8 := key (-8)
  have e0 : fp (multMod 18446744073709551607 (toW 0)) = 0 := by rw [toW_w0]; decide +kernel
  have e1 : fp (multMod 18446744073709551607 (toW 1)) = -1 := by rw [toW_w1]; decide +kernel
  have e8 : fp (multMod 18446744073709551607 (toW (-8))) = 0 := by rw [toW_w8]; decide +kernel
  rw [e0] at h0
  rw [e1] at h1
  rw [e8] at h8
  have : (8 : Fp) = 0 := by linear_combination 9 * h0 - h8 - 8 * h1
  revert this
  decide +kernel

/-- C63, consequence: an opening after the word `2^64 - 9`, to the residue of the value and with the honest MAC, passes for
`Delta = 1` and fails for `Delta = p - 8`: its result depends on the secret `Delta`. -/
theorem C63_selective_failure (c : Fp × Fp) :
    openB (toW 1) (toW (c.1 + 1)) (feedB (toW 1) (keyAt 1 c) 18446744073709551607) = toW c.2 ∧
    openB (toW (-8)) (toW (c.1 + 1)) (feedB (toW (-8)) (keyAt (-8) c) 18446744073709551607) ≠ toW c.2 := by
  have e1 : multMod 18446744073709551607 (toW 1) = toW (-1) := by rw [toW_w1]; decide +kernel
  have e8 : multMod 18446744073709551607 (toW (-8)) = toW 0 := by rw [toW_w8]; decide +kernel
  constructor
  · simp only [openB, feedB, low64_keyWord, low64_keyAt, e1, addMod_toW, multMod_toW]
    refine congrArg toW ?_
    ring
  · simp only [openB, feedB, low64_keyWord, low64_keyAt, e8, addMod_toW, multMod_toW]
    intro h
    have := toW_inj h
    have : (8 : Fp) = 0 := by linear_combination -this
    revert this
    decide +kernel

/-! ### C64: knowledge soundness of sessions -/

/-- C64. Fix everything but the verifier's `Delta` (correlations, challenges, the prover's messages, with canonical
correction and reveal words; the answers of the checks are arbitrary).  Suppose a completed session is accepted for five
values of `Delta`, the challenges are not among the few bad ones (bounded in C19 and C24), all gates of every batch are in
some task (C19) and the hash does not collide on the lists hashed by the verifiers.  Then the messages determine inputs
`ops'` with which the plain program runs, all its claims hold, and the values returned to the verifier are those of the
plain program. -/
theorem C64_extraction (v : AView) (ops : List AOp) (ho : ∀ o ∈ ops, o.CanonC) (ms : List AMsg)
    (hm : ∀ m ∈ ms, m.CanonM) (fin : AFin) (c : ACom) (hc : acomSession v ops ms fin = some c)
    (hseeds : ∀ r ∈ c.mulLog, ∀ tasks, mulTasks r.gates.length v.threads = some tasks →
      mulErr r.gates r.seeds tasks = 0 → ∀ t ∈ tasks, ∀ g ∈ taskSlice r.gates t, g.Correct)
    (hcover : ∀ r ∈ c.mulLog, r.gates.length < 32 ∨ r.gates.length % v.threads < r.gates.length / v.threads)
    (hpseeds : ∀ r ∈ c.polyLog, chiSum r.seed (r.polys.map APoly.value) = 0 → ∀ s ∈ r.polys, s.value = 0)
    (D : Finset Fp) (hD5 : 5 ≤ D.card)
    (hD : ∀ d ∈ D, ∃ V, averSession (v.env d) ops ms fin = some V ∧ V.accepted = true)
    (hhash : ∀ d1 ∈ D, ∀ d2 ∈ D, ∀ V1 V2, averSession (v.env d1) ops ms fin = some V1 →
      averSession (v.env d2) ops ms fin = some V2 → v.hash V1.stored = v.hash V2.stored → V1.stored = V2.stored) :
    ∃ ops' pl, List.Forall₂ AOp.same ops ops' ∧ (∀ o ∈ ops', o.CanonC) ∧ aplainRun ops' = some pl ∧
      (∀ x ∈ pl.claims, x = 0) ∧
      ∀ d ∈ D, ∀ V, averSession (v.env d) ops ms fin = some V → V.outs.map fp = pl.outs ∧ ∀ w ∈ V.outs, Canon w := by
  have hfacts : c.gates = [] ∧ c.polys = [] ∧ ∀ p ∈ c.stmts, p.CanonC := by
    simp only [acomSession, Option.bind_eq_bind, Option.bind_eq_some_iff] at hc
    obtain ⟨c1, h1, h2⟩ := hc
    obtain ⟨_, _, _, _, _, f5, f6, f7⟩ := acomFinalize_facts h2
    refine ⟨f5, f6, ?_⟩
    rw [f7]
    have hr := (acomRun_rec ops (ARec.init v) h1).stmts
    simp only [List.nil_append] at hr
    have hs : ∀ s ∈ apolyStmts ops, s.CanonC := by
      clear h1 h2 hr hD hhash hm
      induction ops with
      | nil => simp [apolyStmts]
      | cons o os ih =>
        rw [apolyStmts_cons]
        intro s hs
        rcases List.mem_append.1 hs with h | h
        · cases o with
          | poly st =>
            simp only [apolyStmts, List.mem_singleton] at h
            subst h
            exact ho (.poly s) (by simp)
          | _ => simp [apolyStmts] at h
        · exact ih (fun x hx => ho x (by simp [hx])) s h
    intro p hp
    obtain ⟨s, hs1, hs2⟩ : ∃ s ∈ apolyStmts ops, s.lookup c1.wires = some p := by
      obtain ⟨i, hi, rfl⟩ := List.getElem_of_mem hp
      exact ⟨_, List.getElem_mem (by rw [hr.length_eq]; exact hi), hr.get (by rw [hr.length_eq]; exact hi) hi⟩
    exact alookup_canon hs2 (hs s hs1)
  have himg : ∀ d ∈ D, ∃ ab ch, averSession (v.env d) ops ms fin = some (averImg d c ab ch) ∧
      (∀ r ∈ (averImg d c ab ch).mulLog, AMulOK (v.env d) r) ∧ (∀ x ∈ (averImg d c ab ch).expLog, x.1 = x.2) ∧
      (∀ r ∈ (averImg d c ab ch).polyLog, APolyOK (v.env d) r) := by
    intro d hd
    obtain ⟨V, hV, hok⟩ := hD d hd
    obtain ⟨ab, ch, k⟩ := averSession_img v d ops ho ms hm fin
    rw [hc, Option.map_some] at k
    have := (accepted_session hV).1 hok
    rw [hV, Option.some.injEq] at k
    subst k
    exact ⟨ab, ch, hV, this.1, this.2.1, this.2.2.1⟩
  have hgate : ∀ g ∈ c.allGates, g.Correct := by
    intro g hg
    simp only [ACom.allGates, hfacts.1, List.append_nil, List.mem_flatMap] at hg
    obtain ⟨r, hr, hgr⟩ := hg
    have hpos : 0 < r.gates.length := List.length_pos_of_mem hgr
    obtain ⟨tasks, hts⟩ : ∃ tasks, mulTasks r.gates.length v.threads = some tasks := by
      rw [← Option.isSome_iff_exists, mulTasks_isSome]
      refine ⟨hpos, ?_⟩
      rcases hcover r hr with h | h
      · exact Or.inl h
      · right
        constructor
        · rcases Nat.eq_zero_or_pos v.threads with h0 | h0
          · rw [h0] at h; simp at h
          · exact h0
        · by_contra hcon
          rw [Nat.div_eq_of_lt (by omega)] at h
          omega
    have hz : mulErr r.gates r.seeds tasks = 0 := by
      by_contra hne
      have := (adelta_le r.gates v.threads r.seeds (v.cor r.ope) r.ans tasks hts hne D (by
        intro d hd
        obtain ⟨ab, ch, _, ha, _⟩ := himg d hd
        have := ha ⟨r.gates.map (CGate.keyAt d), r.seeds, r.ope, r.ans⟩ (by
          simp only [averImg, List.mem_map]
          exact ⟨r, hr, rfl⟩)
        exact this)).1
      omega
    obtain ⟨i, hi⟩ := List.mem_iff_getElem?.1 hgr
    have hil : i < r.gates.length := by
      rcases Nat.lt_or_ge i r.gates.length with h | h
      · exact h
      · rw [List.getElem?_eq_none h] at hi; simp at hi
    obtain ⟨t, ht, hlo, hhi⟩ := (C19_coverage _ _ tasks hts i).2 (by
      split
      · exact hil
      · rename_i h32
        rcases hcover r hr with h | h
        · exact absurd h h32
        · have hth : 0 < v.threads := by
            rcases Nat.eq_zero_or_pos v.threads with h0 | h0
            · rw [h0] at h; simp at h
            · exact h0
          have htl : v.threads ≤ r.gates.length := by
            by_contra hcon
            rw [Nat.div_eq_of_lt (by omega)] at h
            omega
          rw [(covered_eq_iff hth htl).2 h]; exact hil)
    exact hseeds r hr tasks hts hz t ht g (taskSlice_mem hlo hhi hi)
  have hstm : ∀ s ∈ c.stmts, s.value = 0 := by
    intro s hs
    have hs' := hs
    simp only [ACom.stmts, hfacts.2.1, List.append_nil, List.mem_flatMap] at hs'
    obtain ⟨r, hr, hsr⟩ := hs'
    refine hpseeds r hr ?_ s hsr
    by_contra hne
    have hcan : ∀ p ∈ r.polys, p.CanonC := by
      intro p hp
      refine hfacts.2.2 p ?_
      simp only [ACom.stmts, hfacts.2.1, List.append_nil, List.mem_flatMap]
      exact ⟨r, hr, hp⟩
    have := (apdelta_le r.polys hcan (by rintro h0; rw [h0] at hsr; simp at hsr) r.seed (v.cor r.ope) r.ans hne D (by
      intro d hd
      obtain ⟨ab, ch, _, _, _, hp⟩ := himg d hd
      exact hp _ (by
        simp only [averImg, List.mem_map]
        exact ⟨r, hr, rfl⟩))).1
    omega
  obtain ⟨d1, hd1, d2, hd2, hne⟩ := Finset.one_lt_card.1 (by omega : 1 < D.card)
  have hopen : ∀ o ∈ c.opened, o.2 = o.1.1 := by
    intro o hoo
    by_contra hob
    obtain ⟨V1, hV1, hok1⟩ := hD d1 hd1
    obtain ⟨V2, hV2, hok2⟩ := hD d2 hd2
    have := C20_session_binding v ops ho ms hm fin c hc ⟨o, hoo, hob⟩ d1 d2 hne V1 V2 hV1 hV2 hok1 hok2
    exact this.1 (hhash d1 hd1 d2 hd2 V1 V2 hV1 hV2 this.2)
  have hexp : ∀ x ∈ c.exps, x.1 = toW x.2 := by
    intro x hx
    obtain ⟨ab, ch, _, _, he, _⟩ := himg d1 hd1
    exact he (x.1, toW x.2) (by simp only [averImg, List.mem_map]; exact ⟨x, hx, rfl⟩)
  obtain ⟨ops', pl, h1, h1c, h2, h3, h4, h5⟩ := acomSession_faithful ho hc ⟨hgate, hopen, hstm, hexp⟩
  refine ⟨ops', pl, h1, h1c, h2, h5, ?_⟩
  intro d hd V hV
  obtain ⟨ab, ch, hV', _⟩ := himg d hd
  rw [hV, Option.some.injEq] at hV'
  subst hV'
  constructor
  · rw [h4]; simp [averImg, fp_toW, Function.comp_def]
  · intro w hw
    simp only [averImg, List.mem_map] at hw
    obtain ⟨x, _, rfl⟩ := hw
    exact canon_toW x

/-! ### C65: batches -/

/-- C65. In every completed session, whatever the prover sent: the multiplications put under check by the verifier are
those of the program, each once and in order, on the right wires; every check but the last has `CHECK_SZ` gates and none
has more. -/
theorem C65_mul_batches (e : AEnv) (ops : List AOp) (ms : List AMsg) (fin : AFin) (V : AVer)
    (h : averSession e ops ms fin = some V) :
    List.Forall₂ (fun (t : Nat × Nat × Nat) (g : AGate) => V.wires[t.1]? = some g.left ∧ V.wires[t.2.1]? = some g.right ∧
      V.wires[t.2.2]? = some g.out) (mulTriples 0 ops) (V.mulLog.flatMap AMulRec.gates) ∧
    V.gates = [] ∧ (∀ r ∈ V.mulLog.dropLast, r.gates.length = e.checkSz) ∧
    (∀ r ∈ V.mulLog, r.gates.length ≤ e.checkSz) ∧
    (V.accepted = true → ∀ r ∈ V.mulLog, mulCheckB e.delta r.gates e.threads r.seeds (e.keyU r.ope) r.ans = some true) := by
  obtain ⟨h1, _, h3, _, h5, h6, _⟩ := averSession_rec h
  exact ⟨h1, h3, h5, h6, fun hok => ((accepted_session h).1 hok).1⟩

/-- C65 for statements. -/
theorem C65_poly_batches (e : AEnv) (ops : List AOp) (ms : List AMsg) (fin : AFin) (V : AVer)
    (h : averSession e ops ms fin = some V) :
    List.Forall₂ (fun (s : APoly Nat) (x : W) => ∃ p, s.lookup V.wires = some p ∧ x = apolyB e.delta p)
      (apolyStmts ops) (V.polyLog.flatMap APolyRec.polys) ∧
    V.polys = [] ∧ (∀ r ∈ V.polyLog.dropLast, r.polys.length = e.polySz) ∧
    (∀ r ∈ V.polyLog, r.polys.length ≤ e.polySz) ∧
    (V.accepted = true → ∀ r ∈ V.polyLog, apolyCheckB e.delta r.polys r.seed (e.keyU r.ope) r.ans = some true) := by
  obtain ⟨_, h2, _, h4, _, _, h7, h8⟩ := averSession_rec h
  exact ⟨h2, h4, h7, h8, fun hok => ((accepted_session h).1 hok).2.2.1⟩

/-! ### concrete cases -/
section examples

/-- A small concrete session: all VOLE outputs are `u = 3`, `mac = 22`, with `Delta = 5` and key 7. -/
def exEnvA : AEnv where
  delta := 5
  key := fun _ => 7
  u := fun _ => 3
  mac := fun _ => 22
  pubMac := 11
  threads := 1
  checkSz := 2
  polySz := 2
  seed := fun b i => BitVec.ofNat 128 (17 * b + i + 2)
  polySeed := fun b => BitVec.ofNat 64 (b + 5)
  hash := fun l => BitVec.ofNat 256 (l.foldl (fun a w => a * 2 ^ 64 + w.toNat) 1)

theorem exEnvA_good : exEnvA.Good where
  delta := by decide
  key := fun _ => by show Canon 7; decide
  u := fun _ => by show Canon 3; decide
  mac := fun _ => by show Canon 22; decide
  pub := by decide
  cor := fun _ => by show fp 22 = fp 7 + fp 5 * fp 3; decide +kernel

/-- Three multiplications (two batches), three statements (two batches), openings of all kinds. -/
def exProgA : List AOp :=
  [.input 4, .input 6, .add 0 1, .mul 0 1, .mul 2 2, .mulc 3 2, .pub 9, .mul 5 6, .reveal 4, .revealCheck 3 24,
   .mulc 3 2305843009213693950, .add 3 8, .revealZero 9, .poly (.inner 2305843009213693927 [(0, 1)]),
   .poly (.deg2 2305843009213693903 [(2, 0, 1)]), .poly (.inner 0 [(0, 9)])]

theorem exProgA_canon : ∀ o ∈ exProgA, o.CanonC := by
  simp only [exProgA, List.forall_mem_cons, AOp.CanonC, APoly.CanonC, List.not_mem_nil, false_imp_iff, implies_true, true_and,
    and_true]
  decide

theorem exProgA_plain : (aplainRun exProgA).map (fun p => (p.outs, p.claims)) = some ([100], [0, 0, 0, 0, 0]) := by
  decide +kernel

/-- C17: the honest prover completes the session and the verifier accepts and gets 100. -/
example : ∃ P ms fin V, aprvSession exEnvA exProgA = some (P, ms, fin) ∧ averSession exEnvA exProgA ms fin = some V ∧
    V.accepted = true ∧ V.outs.map fp = [100] ∧ V.mulLog.length = 2 ∧ V.polyLog.length = 2 := by
  have hp := exProgA_plain
  have := (C17_completes exEnvA exEnvA_good (by decide) (by decide) (by decide) exProgA exProgA_canon).2
    ⟨by decide +kernel, Or.inl (by decide)⟩
  obtain ⟨⟨P, ms, fin⟩, h⟩ := Option.isSome_iff_exists.1 this
  obtain ⟨V, pl, h1, h2, h3, _, _, h4⟩ := C17_honest_session exEnvA exEnvA_good exProgA exProgA_canon P ms fin h
  rw [h2, Option.map_some, Option.some.injEq, Prod.mk.injEq] at hp
  refine ⟨P, ms, fin, V, h, h1, h4 (by rw [hp.2]; simp), by rw [h3, hp.1], ?_, ?_⟩
  · have e : ((aprvSession exEnvA exProgA).bind (fun q => (averSession exEnvA exProgA q.2.1 q.2.2).map
        (fun V => V.mulLog.length))) = some 2 := by decide +kernel
    simpa [h, h1] using e
  · have e : ((aprvSession exEnvA exProgA).bind (fun q => (averSession exEnvA exProgA q.2.1 q.2.2).map
        (fun V => V.polyLog.length))) = some 2 := by decide +kernel
    simpa [h, h1] using e

/-- C18: an authenticated correct multiplication 2 * 3 = 6 under `Delta = 5`. -/
example : AuthGate 5 ⟨makeBlock 2 17, makeBlock 3 22, makeBlock 6 37⟩ ⟨7, 7, 7⟩ ∧
    fp (high64 (makeBlock 6 37)) = fp (high64 (makeBlock 2 17)) * fp (high64 (makeBlock 3 22)) := by
  refine ⟨⟨⟨?_, ?_, ?_, ?_, ?_⟩, ⟨?_, ?_, ?_, ?_, ?_⟩, ⟨?_, ?_, ?_, ?_, ?_⟩⟩, ?_⟩ <;>
    decide +kernel

/-- C19: a batch with a wrong product (1 * 1 = 0), one task, and a choice of blocks for the seeds. -/
example : mulTasks ([⟨(1, 0), (1, 0), (0, 0)⟩] : List CGate).length 1 = some [(0, 1)] ∧
    (∃ g ∈ taskSlice ([⟨(1, 0), (1, 0), (0, 0)⟩] : List CGate) (0, 1), ¬ g.Correct) ∧
    ∀ x, fp (low64 (keyWord (toW x))) = x := by
  refine ⟨by decide, ⟨⟨(1, 0), (1, 0), (0, 0)⟩, by simp [taskSlice], ?_⟩, ?_⟩
  · show ¬ ((0 : Fp) = 1 * 1)
    decide +kernel
  · intro x
    rw [low64_keyWord, fp_toW]

/-- C20, C21: a wire of value 3 opened to 4 with the MAC that passes for `Delta = 5`; and an opening that passes for three
values. -/
example : fp 4 ≠ ((3, 22) : Fp × Fp).1 ∧ openB (toW 5) 4 (keyAt 5 (3, 22)) = 27 ∧
    openB (toW 1) 3 (keyAt 1 (3, 22)) = 22 ∧ openB (toW 2) 3 (keyAt 2 (3, 22)) = 22 ∧
    openB (toW 3) 3 (keyAt 3 (3, 22)) = 22 := by
  refine ⟨?_, ?_, ?_, ?_, ?_⟩
  · show fp 4 ≠ fp 3
    decide +kernel
  · decide +kernel
  · decide +kernel
  · decide +kernel
  · decide +kernel

/-- C20_session_binding: a wire committed to 3 and opened to 4, accepted for `Delta = 5` only if the digest is that for 5;
the committed state has the wrong opening. -/
example : (acomSession exEnvA.view [.input 3, .reveal 0] [⟨0, 0, 0⟩, ⟨4, 0, 0⟩] ⟨(0, 0), (0, 0), 0⟩).map ACom.opened =
    some [((3, 22), 4)] := by decide +kernel

/-- C20_session_binding: all its hypotheses, with a hash that collides: the wrong opening is accepted for `Delta = 5` and for
`Delta = 6`, with different lists hashed. -/
example : ∃ (v : AView) (V1 V2 : AVer),
    averSession (v.env 5) [.input 3, .reveal 0] [⟨0, 0, 0⟩, ⟨4, 0, 0⟩] ⟨(0, 0), (0, 0), 0⟩ = some V1 ∧
    averSession (v.env 6) [.input 3, .reveal 0] [⟨0, 0, 0⟩, ⟨4, 0, 0⟩] ⟨(0, 0), (0, 0), 0⟩ = some V2 ∧
    V1.accepted = true ∧ V2.accepted = true ∧ V1.stored ≠ V2.stored := by
  let v : AView := { exEnvA.view with hash := fun _ => 0 }
  have h1 : (averSession (v.env 5) [.input 3, .reveal 0] [⟨0, 0, 0⟩, ⟨4, 0, 0⟩] ⟨(0, 0), (0, 0), 0⟩).map AVer.accepted =
      some true := by decide +kernel
  have h2 : (averSession (v.env 6) [.input 3, .reveal 0] [⟨0, 0, 0⟩, ⟨4, 0, 0⟩] ⟨(0, 0), (0, 0), 0⟩).map AVer.accepted =
      some true := by decide +kernel
  obtain ⟨V1, e1, a1⟩ := Option.map_eq_some_iff.1 h1
  obtain ⟨V2, e2, a2⟩ := Option.map_eq_some_iff.1 h2
  have hc : (acomSession v [.input 3, .reveal 0] [⟨0, 0, 0⟩, ⟨4, 0, 0⟩] ⟨(0, 0), (0, 0), 0⟩).map ACom.opened =
      some [((3, 22), 4)] := by decide +kernel
  obtain ⟨c, ec, ac⟩ := Option.map_eq_some_iff.1 hc
  refine ⟨v, V1, V2, e1, e2, a1, a2, (C20_session_binding v _ ?_ _ ?_ _ c ec ?_ 5 6 ?_ V1 V2 e1 e2 a1 a2).1⟩
  · simp only [List.forall_mem_cons, AOp.CanonC, List.not_mem_nil, false_imp_iff, implies_true, and_true]
    decide
  · simp only [List.forall_mem_cons, AMsg.CanonM, List.not_mem_nil, false_imp_iff, implies_true, and_true]
    decide
  · rw [ac]
    refine ⟨_, List.mem_singleton.2 rfl, ?_⟩
    decide +kernel
  · decide +kernel

/-- C65: the completed session of above, with two batches of multiplications (2 and 1 gates) and two of statements. -/
example : ((aprvSession exEnvA exProgA).bind (fun q => averSession exEnvA exProgA q.2.1 q.2.2)).map
      (fun V => (V.mulLog.map (fun r => r.gates.length), V.polyLog.map (fun r => r.polys.length))) =
    some ([2, 1], [2, 1]) ∧ mulTriples 0 exProgA = [(0, 1, 3), (2, 2, 4), (5, 6, 7)] := by decide +kernel

/-- C24: a true statement `2*3 - 6 = 0` and a false one on the same wires. -/
example : ((APoly.inner 2305843009213693945 [((makeBlock 2 17, (7 : U128)), (makeBlock 3 22, (7 : U128)))]).map
      (fun q => fp (high64 q.1))).eval = 0 ∧
    ((APoly.inner 0 [(((2 : Fp), (17 : Fp)), ((3 : Fp), (22 : Fp)))]).map Prod.fst).eval ≠ 0 ∧
    (APoly.inner 2305843009213693945 [((makeBlock 2 17, (7 : U128)), (makeBlock 3 22, (7 : U128)))]).All
      (fun q => Auth 5 q.1 q.2) := by
  refine ⟨by decide +kernel, by decide +kernel, ?_⟩
  intro t ht
  simp only [List.mem_singleton] at ht
  subst ht
  refine ⟨⟨?_, ?_, ?_, ?_, ?_⟩, ⟨?_, ?_, ?_, ?_, ?_⟩⟩ <;> decide +kernel

/-- C63: canonical words exist; the word `2^64 - 9` is not one. -/
example : Canon 2305843009213693950 ∧ ¬ Canon 18446744073709551607 := by decide

/-- C64: the hypotheses are met by the honest session, with five values of `Delta`. -/
example : ∃ ms fin c, (∀ m ∈ ms, m.CanonM) ∧ acomSession exEnvA.view exProgA ms fin = some c ∧ c.mulLog.length = 2 ∧
    (∀ r ∈ c.mulLog, ∀ tasks, mulTasks r.gates.length exEnvA.view.threads = some tasks →
      mulErr r.gates r.seeds tasks = 0 → ∀ t ∈ tasks, ∀ g ∈ taskSlice r.gates t, g.Correct) ∧
    (∀ r ∈ c.mulLog, r.gates.length < 32 ∨
      r.gates.length % exEnvA.view.threads < r.gates.length / exEnvA.view.threads) ∧
    (∀ r ∈ c.polyLog, chiSum r.seed (r.polys.map APoly.value) = 0 → ∀ s ∈ r.polys, s.value = 0) ∧
    5 ≤ ({0, 1, 2, 3, 4} : Finset Fp).card ∧
    (∀ d, ∃ V, averSession (exEnvA.view.env d) exProgA ms fin = some V ∧ V.accepted = true) ∧
    (∀ d1 d2, ∀ V1 V2, averSession (exEnvA.view.env d1) exProgA ms fin = some V1 →
      averSession (exEnvA.view.env d2) exProgA ms fin = some V2 →
      exEnvA.view.hash V1.stored = exEnvA.view.hash V2.stored → V1.stored = V2.stored) := by
  have := (C17_completes exEnvA exEnvA_good (by decide) (by decide) (by decide) exProgA exProgA_canon).2
    ⟨by decide +kernel, Or.inl (by decide)⟩
  obtain ⟨⟨P, ms, fin⟩, h⟩ := Option.isSome_iff_exists.1 this
  rw [← exEnvA_good.eta] at h
  obtain ⟨c, k1, k2, hon, k3, ⟨pl, k4, k5⟩, k7⟩ := aprvSession_com exEnvA.view (fp exEnvA.delta) exProgA_canon h
  simp only at k1 k2 k3 k7
  have hz : ∀ x ∈ pl.claims, x = 0 := by
    have hp := exProgA_plain
    rw [k4, Option.map_some, Option.some.injEq, Prod.mk.injEq] at hp
    rw [hp.2]; simp
  have hlen : ∀ d, ∃ ab ch, averSession (exEnvA.view.env d) exProgA ms fin = some (averImg d c ab ch) := by
    intro d
    obtain ⟨ab, ch, k⟩ := averSession_img exEnvA.view d exProgA exProgA_canon ms k3 fin
    rw [k1, Option.map_some] at k
    exact ⟨ab, ch, k⟩
  have hbat : ∀ r ∈ c.mulLog, r.gates.length ≤ 2 := by
    obtain ⟨ab, ch, k⟩ := hlen 0
    have := (C65_mul_batches _ _ _ _ _ k).2.2.2.1
    intro r hr
    have := this ⟨r.gates.map (CGate.keyAt 0), r.seeds, r.ope, r.ans⟩ (by
      simp only [averImg, List.mem_map]; exact ⟨r, hr, rfl⟩)
    simpa [show (exEnvA.view.env 0).checkSz = 2 from rfl] using this
  refine ⟨ms, fin, c, k3, k1, ?_, ?_, ?_, ?_, by decide +kernel, ?_, ?_⟩
  · have e : (((aprvSession exEnvA exProgA).bind (fun q => acomSession exEnvA.view exProgA q.2.1 q.2.2)).map
        (fun c => c.mulLog.length)) = some 2 := by decide +kernel
    rw [exEnvA_good.eta] at h
    simpa [h, k1] using e
  · intro r hr tasks _ _ t _ g hg
    apply hon.gates
    simp only [ACom.allGates, List.mem_append, List.mem_flatMap]
    refine Or.inl ⟨r, hr, ?_⟩
    unfold taskSlice at hg
    exact List.mem_of_mem_drop (List.mem_of_mem_take hg)
  · intro r hr
    left
    have := hbat r hr
    omega
  · intro r hr _ s hs
    have e : (((aprvSession exEnvA exProgA).bind (fun q => acomSession exEnvA.view exProgA q.2.1 q.2.2)).map
        (fun c => c.polyLog.flatMap (fun r => r.polys.map APoly.value))) = some [0, 0, 0] := by decide +kernel
    rw [exEnvA_good.eta] at h
    simp only [h, Option.bind_some, k1, Option.map_some, Option.some.injEq] at e
    have hm : s.value ∈ c.polyLog.flatMap (fun r => r.polys.map APoly.value) := by
      simp only [List.mem_flatMap, List.mem_map]
      exact ⟨r, hr, s, hs, rfl⟩
    rw [e] at hm
    simpa using hm
  · intro d
    obtain ⟨ab, ch, a1, a2⟩ := ahonest_accepts exEnvA.view d exProgA_canon k3 k1 hon k5 hz k7
    exact ⟨_, a1, a2⟩
  · intro d1 d2 V1 V2 h1 h2 _
    obtain ⟨ab1, ch1, a1⟩ := hlen d1
    obtain ⟨ab2, ch2, a2⟩ := hlen d2
    rw [h1, Option.some.injEq] at a1
    rw [h2, Option.some.injEq] at a2
    rw [a1, a2]
    simp only [averImg]
    refine List.map_congr_left (fun o hoo => ?_)
    have e : (((aprvSession exEnvA exProgA).bind (fun q => acomSession exEnvA.view exProgA q.2.1 q.2.2)).map
        (fun c => c.opened.map (fun o => o.2 - o.1.1))) = some [0, 0, 0] := by decide +kernel
    rw [exEnvA_good.eta] at h
    simp only [h, Option.bind_some, k1, Option.map_some, Option.some.injEq] at e
    have hm : o.2 - o.1.1 ∈ c.opened.map (fun o => o.2 - o.1.1) := List.mem_map.2 ⟨o, hoo, rfl⟩
    rw [e] at hm
    have hz : o.2 - o.1.1 = 0 := by simpa using hm
    rw [hz, zero_mul, zero_mul]

end examples

end EmpZk
