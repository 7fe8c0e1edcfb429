/-
C111: no peer can drive a party into undefined behaviour. A program that returns in one run is safe in every run, whatever the other party
sends and whatever the schedule. For the prover of conversions this is false: it uses the random point it receives as an index without a check.
-/
import Verif.Lemmas.RobustBranch
import Verif.Props.VerSilent

namespace EmpZk

section
variable {F : Type} [Field F] [BlockField F] [DecidableEq F] {μ ν : Type}

/-- The verifier of a program with bits, products over F_{2^128}, checks of equality and memories. If a verifier of the same program, with
any keys, returns in some run with some prover, then with no prover, under no schedule, the verifier performs an undefined operation or its
endpoint an undefined access. -/
theorem C111_verifier {me me' : MixEnv F} (hm : me.SameV me') {pre pre' post post' : List BOp} {ops ops' : List MOp}
    (h1 : pre.map BOp.erase = pre'.map BOp.erase) (h2 : ops.map MOp.erase = ops'.map MOp.erase) (h3 : post.map BOp.erase = post'.map BOp.erase)
    {S' : Nat} {junk' : List Byte} {p' : SProg ν} {c' : PNet ν (MVer F)} (hr : PReach S' (pnetInit S' junk' p' (mixVerifier me' pre' ops' post')) c')
    {V : MVer F} (hV : c'.q = .done V)
    {S : Nat} (hS : 0 < S) (h8 : S % 8 = 0) (p : SProg μ) {junk : List Byte} {c : PNet μ (MVer F)}
    (hc : PReach S (pnetInit S junk p (mixVerifier me pre ops post)) c) : c.q ≠ .fail ∧ stepQ S c ≠ .ub :=
  ⟨fun hf => ralike_safe (mixVerifier_alike (W := False) (E := True) hm h1 h2 h3 (fun _ _ _ => trivial)) (hV ▸ reach_rpath hr) (hf ▸ reach_rpath hc),
    reach_no_ub hS h8 hc⟩

omit [DecidableEq F] in
/-- The prover of such a program, with any witness: with no verifier it performs an undefined operation, and it never gives up. Missing: the
prover of conversions, for which the claim is false (`C111_false`). -/
theorem C111_prover_partial [DecidableEq F] {me me' : MixEnv F} (hm : me.Same me') {pre pre' post post' : List BOp} {ops ops' : List MOp}
    (h1 : pre.map BOp.erase = pre'.map BOp.erase) (h2 : ops.map MOp.erase = ops'.map MOp.erase) (h3 : post.map BOp.erase = post'.map BOp.erase)
    {S' : Nat} {junk' : List Byte} {q' : RProg ν} {c' : PNet (MPrv F) ν} (hr : PReach S' (pnetInit S' junk' (mixProver me' pre' ops' post') q') c')
    {P : MPrv F} (hP : c'.p = .done P)
    {S : Nat} (q : RProg μ) {junk : List Byte} {c : PNet (MPrv F) μ} (hc : PReach S (pnetInit S junk (mixProver me pre ops post) q) c) :
    c.p ≠ .fail ∧ c.p ≠ .stop := by
  have h := alike_safe (mixProver_alike (W := fun _ _ _ => True) hm h1 h2 h3) (hP ▸ reach_spath hr)
  exact ⟨fun hf => h.1 (hf ▸ reach_spath hc), fun hf => h.2 (hf ▸ reach_spath hc)⟩

/-- The verifier of a program with field elements and conversions: as `C111_verifier`. -/
theorem C111_conversions {ce ce' : ConvEnv F} (he : ce.SameV ce') {ops ops' : List COp} (ho : ops.map COp.erase = ops'.map COp.erase)
    {S' : Nat} {junk' : List Byte} {p' : SProg ν} {c' : PNet ν (CVer F)} (hr : PReach S' (pnetInit S' junk' p' (convVerifier ce' ops')) c')
    {V : CVer F} (hV : c'.q = .done V)
    {S : Nat} (hS : 0 < S) (h8 : S % 8 = 0) (p : SProg μ) {junk : List Byte} {c : PNet μ (CVer F)}
    (hc : PReach S (pnetInit S junk p (convVerifier ce ops)) c) : c.q ≠ .fail ∧ stepQ S c ≠ .ub :=
  ⟨fun hf => ralike_safe (convVerifier_alike (Z := False) he ho) (hV ▸ reach_rpath hr) (hf ▸ reach_rpath hc), reach_no_ub hS h8 hc⟩

omit [DecidableEq F] in
/-- The prover of a program with conversions, with any witness, is safe with every verifier whose messages of four bytes (the random points)
leave room for the opened candidates: `N + rp + C ≤ ell`. Missing: points out of range, for which the claim is false (`C111_false`). -/
theorem C111_conversions_prover_partial [DecidableEq F] {ce ce' : ConvEnv F} (he : ce.Same ce') (hN : 0 < ce'.cfg.N) (hC : 0 < ce'.cfg.C)
    {ops ops' : List COp} (ho : ops.map COp.erase = ops'.map COp.erase)
    {S' : Nat} {junk' : List Byte} {q' : RProg ν} {c' : PNet (CPrv F) ν} (hr : PReach S' (pnetInit S' junk' (convProver ce' ops') q') c')
    {P : CPrv F} (hP : c'.p = .done P) (hg' : ∀ g ∈ c'.snd.got, g.length = 4 → ce'.cfg.N + leVal g + ce'.cfg.C ≤ ce'.cfg.ell)
    {S : Nat} (q : RProg μ) {junk : List Byte} {c : PNet (CPrv F) μ} (hc : PReach S (pnetInit S junk (convProver ce ops) q) c)
    (hg : ∀ g ∈ c.snd.got, g.length = 4 → ce'.cfg.N + leVal g + ce'.cfg.C ≤ ce'.cfg.ell) : c.p ≠ .fail ∧ c.p ≠ .stop := by
  have h := alike_safeQ (M := fun k x y => k = .back 4 → PtRel ce'.cfg (leVal x) (leVal y))
    (Q := fun g => g.length = 4 → ce'.cfg.N + leVal g + ce'.cfg.C ≤ ce'.cfg.ell) (by
      intro n x y hx hy qx qy e
      cases e
      have := qx hx
      have := qy hy
      refine .inr ⟨hN, hC, ?_, ?_⟩ <;> (unfold EdaCfg.ellF; omega))
    (convProver_alike he (fun x y h => h rfl) ho) (hP ▸ reach_spathQ hr hg')
  exact ⟨fun hf => h.1 (hf ▸ reach_spathQ hc hg), fun hf => h.2 (hf ▸ reach_spathQ hc hg)⟩

/-- The verifier of a program that branches on revealed bits, which a dishonest prover chooses: it is safe if the program does nothing undefined
of its own and every way through it, for whatever bits, is a program that returns in some run. -/
theorem C111_verifier_branching {me me' : MixEnv F} (hm : me.SameV me') {t : SessTree} (ht : t.Defined)
    (hr : ∀ pre ops post, t.Way pre ops post → ∃ (ν : Type) (S' : Nat) (junk' : List Byte) (p' : SProg ν) (c' : PNet ν (MVer F)) (V : MVer F),
      PReach S' (pnetInit S' junk' p' (mixVerifier me' pre ops post)) c' ∧ c'.q = .done V)
    {S : Nat} (hS : 0 < S) (h8 : S % 8 = 0) (p : SProg μ) {junk : List Byte} {c : PNet μ (MVer F)}
    (hc : PReach S (pnetInit S junk p (branchVerifier me t)) c) : c.q ≠ .fail ∧ stepQ S c ≠ .ub := by
  refine ⟨fun hf => ?_, reach_no_ub hS h8 hc⟩
  obtain ⟨pre, ops, post, hw, h⟩ := branchR_route me ht (hf ▸ reach_rpath hc)
  obtain ⟨ν, S', junk', p', c', V, h1, h2⟩ := hr pre ops post hw
  exact ralike_safe (mixVerifier_alike (W := False) (E := True) hm rfl rfl rfl (fun _ _ _ => trivial)) (h2 ▸ reach_rpath h1) h

/-- The prover of such a program, with any witness. Missing, as in `C111_prover_partial`: conversions. -/
theorem C111_prover_branching_partial {me me' : MixEnv F} (hm : me.Same me') {t : SessTree} (ht : t.Defined)
    (hr : ∀ pre ops post, t.Way pre ops post → ∃ (ν : Type) (S' : Nat) (junk' : List Byte) (q' : RProg ν) (c' : PNet (MPrv F) ν) (P : MPrv F),
      PReach S' (pnetInit S' junk' (mixProver me' pre ops post) q') c' ∧ c'.p = .done P)
    {S : Nat} (q : RProg μ) {junk : List Byte} {c : PNet (MPrv F) μ} (hc : PReach S (pnetInit S junk (branchProver me t) q) c) :
    c.p ≠ .fail ∧ c.p ≠ .stop := by
  have key : ¬ c.p.Dead := by
    intro hd
    obtain ⟨pre, ops, post, hw, y, h, hy⟩ := branchS_route me ht hd (reach_spath hc)
    obtain ⟨ν, S', junk', q', c', P, h1, h2⟩ := hr pre ops post hw
    have hs := alike_safe (mixProver_alike (W := fun _ _ _ => True) hm rfl rfl rfl) (h2 ▸ reach_spath h1)
    rcases hy with rfl | rfl
    · exact hs.1 h
    · exact hs.2 h
  exact ⟨fun h => key (.inl h), fun h => key (.inr h)⟩

end

/-! ### the prover of conversions -/

/-- `exConv` with correlations that need no messages. -/
noncomputable def exQuiet : ConvEnv GF128 :=
  { exConv with ne := { exNet with extP := fun _ _ => [], extV := fun _ _ => [] }, avP := fun _ _ => [], avV := fun _ _ => [],
                edP := fun _ _ => [], edV := fun _ _ => [] }

theorem exQuiet_good : exQuiet.Good :=
  { exConv_good with
    ne := { exNet_good with ext := fun _ _ => .nil }
    av := fun _ _ => .nil
    ed := fun _ _ => .nil }

theorem exQuiet_lucky : exQuiet.Lucky := ⟨exConv_lucky.point, exConv_lucky.bucket⟩

/-- A public 2 is converted into bits. -/
def exOneConv : List COp := [.arith (.pub 2), .a2b 0]

theorem exQuiet_walk : walk (convProver exQuiet exOneConv) [[255#8, 255#8, 255#8, 255#8]] = .fail := by
  have h : (match walk (convProver exQuiet exOneConv) [[255#8, 255#8, 255#8, 255#8]] with | .fail => true | _ => false) = true := by decide +kernel
  split at h
  · assumption
  · cases h

theorem exQuiet_run : (cplainRun exQuiet exOneConv).map (fun cp => (cp.b.claims, cp.a.claims, cp.muls)) = some ([], [], 0) := by decide +kernel

/-- With the verifier of the library every run can be carried on to the end. -/
theorem exQuiet_fine (junk : List Byte) {c : PNet (CPrv GF128) (CVer GF128)}
    (hc : PReach 32768 (pnetInit 32768 junk (convProver exQuiet exOneConv) (convVerifier exQuiet exOneConv)) c) :
    (c.p ≠ .fail ∧ c.q ≠ .fail) ∧ ∃ c' P V, PReach 32768 c c' ∧ c'.p = .done P ∧ c'.q = .done V := by
  obtain ⟨cp, hcp⟩ : ∃ cp, cplainRun exQuiet exOneConv = some cp := by
    cases h : cplainRun exQuiet exOneConv with
    | none => have := exQuiet_run; rw [h] at this; simp at this
    | some cp => exact ⟨cp, rfl⟩
  have h := exQuiet_run
  rw [hcp, Option.map_some, Option.some.injEq] at h
  simp only [Prod.mk.injEq] at h
  obtain ⟨e1, e2, e3⟩ := h
  have := C98_session exQuiet exQuiet_good exQuiet_lucky (by decide) (by decide) (by decide) (by decide) (by decide) (by decide) (by decide) exOneConv
    (by
      intro o ho
      simp only [exOneConv, List.mem_cons, List.not_mem_nil, or_false] at ho
      rcases ho with rfl | rfl <;> simp only [COp.CanonC, AOp.CanonC]
      decide) hcp (by rw [e1]; simp) (by rw [e2]; simp)
    (by show lastBatch cp.ands 2 = 0 ∨ 1 ≤ lastBatch cp.ands 2; omega) (Or.inl (by rw [e3]; decide)) junk hc
  exact ⟨⟨this.2.1.1, this.2.2.1.1⟩, this.2.2.2.2.2⟩

/-- C111 is false for the prover of conversions: a verifier that sends 2^32 - 1 as the random point makes the prover read behind the end of its
candidates, in a session that is safe and can always be completed with the verifier of the library. -/
theorem C111_false : ∃ (ce : ConvEnv GF128) (ops : List COp),
    (∀ junk c, PReach 32768 (pnetInit 32768 junk (convProver ce ops) (convVerifier ce ops)) c →
      c.p ≠ .fail ∧ ∃ c' P V, PReach 32768 c c' ∧ c'.p = .done P ∧ c'.q = .done V) ∧
    ∃ (q : RProg Unit) (c : _), PReach 32768 (pnetInit 32768 [] (convProver ce ops) q) c ∧ c.p = .fail := by
  refine ⟨exQuiet, exOneConv, fun junk c hc => ⟨(exQuiet_fine junk hc).1.1, (exQuiet_fine junk hc).2⟩, feeder [[255#8, 255#8, 255#8, 255#8]], ?_⟩
  obtain ⟨c, h1, h2, h3, h4⟩ := feeder_reach (S := 32768) [[255#8, 255#8, 255#8, 255#8]] (p := convProver exQuiet exOneConv) (snd := ⟨[], [], [], []⟩)
    (w := []) (t := []) (rcv := ⟨[], 32768, [], [], [], []⟩)
  obtain ⟨c', k1, k2⟩ := walk_reach (S := 32768) (by decide) _ h2 (by rw [h4]; rfl) exQuiet_walk (by rw [h3]; decide)
  exact ⟨c', PReach.trans' h1 k1, k2⟩

/-! ### concrete cases -/

theorem exMix_self : exMix.Same exMix where
  ne := ⟨rfl, rfl, rfl, fun _ _ => rfl, exNet_good.enc_length, exNet_good.enc_length, exNet_good.encD_length, exNet_good.encD_length⟩
  sz := rfl
  cap := rfl
  auth := fun _ => rfl
  sv := fun _ => rfl
  svN := fun _ => rfl
  lo := exMix_good.lo
  lo' := exMix_good.lo
  hi := exMix_good.hi
  hi' := exMix_good.hi

/-- Two words are packed from two bits and multiplied, and an AND of the bits is opened. -/
theorem exSafe_run : ∃ c' P V, PReach 32768 (pnetInit 32768 []
    (mixProver exMix [.input true, .input false, .and 0 1] [.pack [0, 1], .pack [2], .mul 0 1] [.reveal 2])
    (mixVerifier exMix [.input true, .input false, .and 0 1] [.pack [0, 1], .pack [2], .mul 0 1] [.reveal 2])) c' ∧ c'.p = .done P ∧ c'.q = .done V :=
  (C96_session exMix exMix_good (by decide) (by decide) (by decide) (by decide) (by decide) _ _ _
    (fun ch => ⟨_, rfl, by simp⟩) (by decide) (by decide) [] PReach.init).2.2.2.2.2

/-- Neither party of that session can be driven into undefined behaviour, for any bits, any other `Delta` and keys of the verifier, and any
program on the other side. -/
example (x y : Bool) (p : SProg Unit) (q : RProg Unit) :
    (∀ c, PReach 32768 (pnetInit 32768 [] p
      (mixVerifier exMix [.input x, .input y, .and 0 1] [.pack [0, 1], .pack [2], .mul 0 1] [.reveal 2])) c → c.q ≠ .fail ∧ stepQ 32768 c ≠ .ub) ∧
    (∀ c, PReach 32768 (pnetInit 32768 []
      (mixProver exMix [.input x, .input y, .and 0 1] [.pack [0, 1], .pack [2], .mul 0 1] [.reveal 2]) q) c → c.p ≠ .fail ∧ c.p ≠ .stop) := by
  obtain ⟨c', P, V, h1, h2, h3⟩ := exSafe_run
  have hs : exMix.SameV exMix := ⟨⟨rfl, rfl, rfl, fun _ => rfl, fun _ _ => rfl⟩, rfl, rfl, fun _ => rfl, fun _ => rfl, fun _ => rfl⟩
  exact ⟨fun c hc => C111_verifier (pre := [.input x, .input y, .and 0 1]) hs rfl rfl rfl h1 h3 (by decide) (by decide) p hc,
    fun c hc => C111_prover_partial (pre := [.input x, .input y, .and 0 1]) (pre' := [.input true, .input false, .and 0 1])
      (ops := [.pack [0, 1], .pack [2], .mul 0 1]) (ops' := [.pack [0, 1], .pack [2], .mul 0 1]) (post := [.reveal 2]) (post' := [.reveal 2])
      exMix_self rfl rfl rfl h1 h2 q hc⟩

/-- An input is opened; if it is set, it is multiplied with itself and the product is opened. -/
def exFork (x : Bool) : SessTree :=
  .ops [.input x, .reveal 0] (fun o => match o with
    | [true] => .ops [.and 0 0, .reveal 1] (fun _ => .fin (.fin (.fin ())))
    | [false] => .fin (.fin (.fin ()))
    | _ => .undef)

theorem exFork_ways {x : Bool} {pre post : List BOp} {ops : List MOp} (h : (exFork x).Way pre ops post) :
    ops = [] ∧ post = [] ∧ (pre = [.input x, .reveal 0] ∨ pre = [.input x, .reveal 0, .and 0 0, .reveal 1]) := by
  obtain ⟨o1, t1, o2, t2, o3, h1, h2, h3⟩ := h
  cases h1 with
  | ops y hy h1 =>
    obtain ⟨b, rfl⟩ := List.length_eq_one_iff.1 hy
    cases b
    · cases h1; cases h2; cases h3; exact ⟨rfl, rfl, .inl rfl⟩
    · cases h1 with
      | ops _ _ h1 => cases h1; cases h2; cases h3; exact ⟨rfl, rfl, .inr rfl⟩

theorem exFork_runs {x : Bool} {pre post : List BOp} {ops : List MOp} (h : (exFork x).Way pre ops post) :
    ∃ c' P V, PReach 32768 (pnetInit 32768 [] (mixProver exMix pre ops post) (mixVerifier exMix pre ops post)) c' ∧ c'.p = .done P ∧ c'.q = .done V := by
  obtain ⟨rfl, rfl, rfl | rfl⟩ := exFork_ways h <;> cases x <;>
    exact (C96_session exMix exMix_good (by decide) (by decide) (by decide) (by decide) (by decide) _ _ _
      (fun ch => ⟨_, rfl, by simp⟩) (by decide) (by decide) [] PReach.init).2.2.2.2.2

/-- Neither party of the branching program can be driven into undefined behaviour. -/
example (x : Bool) (p : SProg Unit) (q : RProg Unit) :
    (∀ c, PReach 32768 (pnetInit 32768 [] p (branchVerifier exMix (exFork x))) c → c.q ≠ .fail ∧ stepQ 32768 c ≠ .ub) ∧
    (∀ c, PReach 32768 (pnetInit 32768 [] (branchProver exMix (exFork x)) q) c → c.p ≠ .fail ∧ c.p ≠ .stop) := by
  have hs : exMix.SameV exMix := ⟨⟨rfl, rfl, rfl, fun _ => rfl, fun _ _ => rfl⟩, rfl, rfl, fun _ => rfl, fun _ => rfl, fun _ => rfl⟩
  have hd : (exFork x).Defined := by
    intro y hy
    obtain ⟨b, rfl⟩ := List.length_eq_one_iff.1 hy
    cases b
    · trivial
    · intro _ _; trivial
  refine ⟨fun c hc => C111_verifier_branching hs hd (fun pre ops post hw => ?_) (by decide) (by decide) p hc,
    fun c hc => C111_prover_branching_partial exMix_self hd (fun pre ops post hw => ?_) q hc⟩
  · obtain ⟨c', P, V, h1, _, h3⟩ := exFork_runs hw
    exact ⟨_, _, _, _, c', V, h1, h3⟩
  · obtain ⟨c', P, V, h1, h2, _⟩ := exFork_runs hw
    exact ⟨_, _, _, _, c', P, h1, h2⟩

/-- The verifier of the session in `C111_false` is safe with every prover. -/
example (p : SProg Unit) {c : PNet Unit (CVer GF128)} (hc : PReach 32768 (pnetInit 32768 [] p (convVerifier exQuiet exOneConv)) c) :
    c.q ≠ .fail ∧ stepQ 32768 c ≠ .ub := by
  obtain ⟨c', P, V, h1, _, h3⟩ := (exQuiet_fine [] .init).2
  exact C111_conversions ⟨⟨rfl, rfl, rfl, fun _ => rfl, fun _ _ => rfl⟩, rfl, rfl, rfl, fun _ => rfl, fun _ => rfl, fun _ _ => rfl, rfl, rfl,
    fun _ => rfl, fun _ _ => rfl, fun _ => rfl, rfl, rfl⟩ rfl h1 h3 (by decide) (by decide) p hc

/-- `exQuiet` with small circuits. -/
noncomputable def exSmall : ConvEnv GF128 :=
  { exQuiet with sum := ⟨[.xor 0 62], 124 :: (List.range 61).map (· + 1)⟩, diff := ⟨[.xor 0 62], 124 :: (List.range 61).map (· + 1)⟩ }

theorem exSmall_self : exSmall.Same exSmall where
  ne := ⟨rfl, rfl, rfl, fun _ _ => rfl, exNet_good.enc_length, exNet_good.enc_length, exNet_good.encD_length, exNet_good.encD_length⟩
  threads := rfl
  checkSz := rfl
  polySz := rfl
  av := fun _ _ => rfl
  cfg := rfl
  npSz := rfl
  cand := fun _ => rfl
  ed := fun _ _ => rfl
  dig := exConv_good.dig
  dig' := exConv_good.dig
  sum := rfl
  diff := rfl

/-- A private 2 is converted into bits; the other party sends zeros. -/
noncomputable def exZeros : PNet (CPrv GF128) Unit :=
  aloneP 8 600 ⟨convProver exSmall [.arith (.input 2), .a2b 0], ⟨[], [], [], []⟩, [], List.replicate 400 0#8, rcvFlush 8 ⟨[], 8, [], [], [], []⟩, .done ()⟩

theorem done_of_match {α : Type} {p : SProg α} (h : (match p with | .done _ => true | _ => false) = true) : ∃ a, p = .done a := by
  cases p <;> simp at h ⊢

theorem exZeros_done : ∃ P, exZeros.p = .done P := done_of_match (by decide +kernel)

theorem exZeros_got : exZeros.snd.got.all (fun g => decide (leVal g = 0)) = true := by decide +kernel

theorem exZeros_reach : PReach 8 (pnetInit 8 [] (convProver exSmall [.arith (.input 2), .a2b 0]) (feeder [List.replicate 400 0#8])) exZeros :=
  PReach.trans' (.rcvStep .init rfl) (aloneP_reach 600 _)

/-- Whatever number is converted and whatever the verifier does, the prover is safe if the points are 0, 1 or 2. -/
example (x : BitVec 64) (q : RProg Unit) {c : PNet (CPrv GF128) Unit}
    (hc : PReach 32768 (pnetInit 32768 [] (convProver exSmall [.arith (.input x), .a2b 0]) q) c)
    (hg : ∀ g ∈ c.snd.got, g.length = 4 → leVal g ≤ 2) : c.p ≠ .fail ∧ c.p ≠ .stop := by
  obtain ⟨P, hP⟩ := exZeros_done
  refine C111_conversions_prover_partial (ce := exSmall) (ce' := exSmall) (ops := [.arith (.input x), .a2b 0]) (ops' := [.arith (.input 2), .a2b 0])
    (c' := exZeros) exSmall_self (show 0 < 2 by decide) (show 0 < 1 by decide) rfl exZeros_reach hP (fun g hm _ => ?_) q hc (fun g hm hl => ?_)
  · have : leVal g = 0 := by simpa using List.all_eq_true.1 exZeros_got g hm
    show 2 + leVal g + 1 ≤ 5
    omega
  · have := hg g hm hl
    show 2 + leVal g + 1 ≤ 5
    omega

/-- A run that returns is needed: a program that opens a bit which does not exist fails in every run that gets there. -/
example : ∃ c : PNet Unit (MVer GF128), PReach 8 (pnetInit 8 [] (.call (.bit true) (fun _ => .call .flush (fun _ => .done ())))
    ((bopR exNet VerSt.init (.reveal 0)).bind (fun b => .done ⟨b, [], ⟨[], [], [], 0⟩, 0, [], [], 0⟩))) c ∧ c.q = .fail := by
  refine ⟨_, .rcvStep (.sndStep (.sndStep .init rfl) rfl) rfl, rfl⟩

end EmpZk
