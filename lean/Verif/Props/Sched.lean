/-
C112: the outcome of a session does not depend on the schedule: on the speed of the parties, the delays of the network, and the order in which
they happen to run; for honest and dishonest programs alike.
-/
import Verif.Lemmas.Sched
import Verif.Props.Robust

namespace EmpZk

section
variable {α β : Type}

/-- Any two programs, honest or not. If a party ends in one run and ends in another run, it ends in the same way: with the same results, or by
stopping, or by an undefined operation. The other party need not come to an end, and the receive buffer may be filled with anything before the
first byte arrives. -/
theorem C112_result {S : Nat} {junk junk' : List Byte} {p : SProg α} {q : RProg β} {a b : PNet α β} (ha : PReach S (pnetInit S junk p q) a)
    (hb : PReach S (pnetInit S junk' p q) b) : (a.p.Ended → b.p.Ended → a.p = b.p) ∧ (a.q.Ended → b.q.Ended → a.q = b.q) := by
  obtain ⟨n, hn⟩ := reach_runs ha
  obtain ⟨a1, k1, y, rfl, -⟩ := runs_sameBut hn (b := pnetInit S junk' p q) ⟨junk', rfl, .inl rfl⟩
  obtain ⟨d, h1, h2⟩ := preach_confluent k1.reach hb
  exact ⟨fun e1 e2 => ((ended_stays h1).1 e1).symm.trans ((ended_stays h2).1 e2), fun e1 e2 => ((ended_stays h1).2 e1).symm.trans ((ended_stays h2).2 e2)⟩

/-- If one schedule brings the two programs to a point where neither goes on, in `n` steps, then no schedule makes more than `n` steps, and every
run, wherever it stands, comes to the same point in the remaining steps: the same results and the same bytes received by both. -/
theorem C112_end {S : Nat} {junk : List Byte} {p : SProg α} {q : RProg β} {n : Nat} {f : PNet α β} (hf : PRuns S n (pnetInit S junk p q) f)
    (hs : f.Stuck S) {m : Nat} {a : PNet α β} (ha : PRuns S m (pnetInit S junk p q) a) : m ≤ n ∧ PRuns S (n - m) a f ∧ (a.Stuck S → m = n ∧ a = f) := by
  obtain ⟨h1, h2⟩ := runs_all hf hs ha
  refine ⟨h1, h2, fun hst => ?_⟩
  rcases h2.cases_head with ⟨e, rfl⟩ | ⟨k, c1, _, h3, _⟩
  · exact ⟨by omega, rfl⟩
  · exact (stuck_no_step hst h3).elim

/-- What the receive buffer holds before the first byte arrives does not matter: every run is a run with any other contents, with the same programs,
the same bytes in transit and received, and the same bits. -/
theorem C112_buffer {S : Nat} {junk : List Byte} (junk' : List Byte) {p : SProg α} {q : RProg β} {n : Nat} {a : PNet α β}
    (ha : PRuns S n (pnetInit S junk p q) a) : ∃ b, PRuns S n (pnetInit S junk' p q) b ∧ b.p = a.p ∧ b.q = a.q ∧ b.snd = a.snd ∧ b.toR = a.toR ∧
      b.toS = a.toS ∧ b.rcv.bits = a.rcv.bits ∧ b.rcv.datas = a.rcv.datas ∧ b.rcv.digests = a.rcv.digests := by
  obtain ⟨a1, k1, y, rfl, -⟩ := runs_sameBut ha (b := pnetInit S junk' p q) ⟨junk', rfl, .inl rfl⟩
  exact ⟨_, k1, rfl, rfl, rfl, rfl, rfl, rfl, rfl, rfl⟩

/-- A session with bits, packed words, products and memories, with any prover: if the verifier returns in one run, with some outputs and some
record of failed checks, then in no run does it stop or return anything else. -/
theorem C112_verdict {F : Type} [Field F] [BlockField F] [DecidableEq F] (me : MixEnv F) (pre : List BOp) (ops : List MOp) (post : List BOp)
    {S : Nat} {junk junk' : List Byte} {p : SProg α} {a b : PNet α (MVer F)} (ha : PReach S (pnetInit S junk p (mixVerifier me pre ops post)) a)
    (hb : PReach S (pnetInit S junk' p (mixVerifier me pre ops post)) b) {V : MVer F} (hV : a.q = .done V) :
    b.q ≠ .stop ∧ ∀ V', b.q = .done V' → V'.b.outs = V.b.outs ∧ V'.b.cheats = V.b.cheats ∧ V'.warns = V.warns := by
  have e1 : a.q.Ended := by rw [hV]; intro o k h; cases h
  refine ⟨fun hs => ?_, fun V' h' => ?_⟩
  · have := (C112_result ha hb).2 e1 (by rw [hs]; intro o k h; cases h)
    rw [hV, hs] at this
    cases this
  · have := (C112_result ha hb).2 e1 (by rw [h']; intro o k h; cases h)
    rw [hV, h', RProg.done.injEq] at this
    subst this
    exact ⟨rfl, rfl, rfl⟩

/-- The same for a session with field elements and conversions. -/
theorem C112_conversions {F : Type} [Field F] [BlockField F] [DecidableEq F] (ce : ConvEnv F) (ops : List COp)
    {S : Nat} {junk junk' : List Byte} {p : SProg α} {a b : PNet α (CVer F)} (ha : PReach S (pnetInit S junk p (convVerifier ce ops)) a)
    (hb : PReach S (pnetInit S junk' p (convVerifier ce ops)) b) {V : CVer F} (hV : a.q = .done V) :
    b.q ≠ .stop ∧ ∀ V', b.q = .done V' → V'.outs = V.outs ∧ V'.a.outs = V.a.outs ∧ V'.b.cheats = V.b.cheats ∧ V'.a.accepted = V.a.accepted := by
  have e1 : a.q.Ended := by rw [hV]; intro o k h; cases h
  refine ⟨fun hs => ?_, fun V' h' => ?_⟩
  · have := (C112_result ha hb).2 e1 (by rw [hs]; intro o k h; cases h)
    rw [hV, hs] at this
    cases this
  · have := (C112_result ha hb).2 e1 (by rw [h']; intro o k h; cases h)
    rw [hV, h', RProg.done.injEq] at this
    subst this
    exact ⟨rfl, rfl, rfl, rfl⟩

end

/-! ### concrete cases -/

/-- A session of the two library parties: some schedule ends, hence all do, in the same number of steps. -/
example : ∃ n f, f.Stuck 32768 ∧ ∀ m a, PRuns 32768 m (pnetInit 32768 []
      (mixProver exMix [.input true, .input false, .and 0 1] [.pack [0, 1], .pack [2], .mul 0 1] [.reveal 2])
      (mixVerifier exMix [.input true, .input false, .and 0 1] [.pack [0, 1], .pack [2], .mul 0 1] [.reveal 2])) a →
    m ≤ n ∧ PRuns 32768 (n - m) a f := by
  obtain ⟨c', P, V, h1, h2, h3⟩ := exSafe_run
  obtain ⟨n, hn⟩ := reach_runs h1
  have hs : c'.Stuck 32768 := ⟨by unfold stepP; rw [h2], by intro d; unfold stepQ; rw [h3]; simp⟩
  exact ⟨n, c', hs, fun m a ha => ⟨(C112_end hn hs ha).1, (C112_end hn hs ha).2.1⟩⟩

/-- A dishonest pair: the receiver waits for a bit that is never flushed; every schedule ends with it waiting, after one step. -/
example {m : Nat} {a : PNet Unit Bool} (ha : PRuns 8 m (pnetInit 8 [] (.call (.bit true) (fun _ => .done ())) (.call .bit (fun d _ => .done d))) a) :
    m ≤ 1 ∧ (a.Stuck 8 → m = 1) := by
  obtain ⟨f, hf⟩ : ∃ f, stepP 8 (pnetInit 8 [] (SProg.call (.bit true) (fun _ => SProg.done ())) (RProg.call .bit (fun d _ => RProg.done d))) = some f := ⟨_, rfl⟩
  have hs : f.Stuck 8 := by
    cases hf
    have hb : ∀ c : PNet Unit Bool, stepQ 8 c = .blocked → ∀ c', stepQ 8 c ≠ .ok c' := fun c h c' h' => by rw [h] at h'; cases h'
    exact ⟨rfl, hb _ rfl⟩
  have := C112_end (.snd hf (.zero f)) hs ha
  exact ⟨this.1, fun h => (this.2.2 h).1⟩

/-- A bit that is flushed arrives, also if the buffer held the opposite bits before. -/
example {a b : PNet Unit Bool} (ha : PReach 8 (pnetInit 8 [] (.call (.bit true) (fun _ => .call .flush (fun _ => .done ()))) (.call .bit (fun d _ => .done d))) a)
    (hb : PReach 8 (pnetInit 8 (List.replicate 8 0#8) (.call (.bit true) (fun _ => .call .flush (fun _ => .done ()))) (.call .bit (fun d _ => .done d))) b)
    {x y : Bool} (hx : a.q = .done x) (hy : b.q = .done y) : x = y := by
  have := (C112_result ha hb).2 (by rw [hx]; intro o k h; cases h) (by rw [hy]; intro o k h; cases h)
  rw [hx, hy, RProg.done.injEq] at this
  exact this

end EmpZk
