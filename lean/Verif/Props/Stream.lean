/-
C113: what a verifier outputs and whether it accepts depends on the bytes it receives only: not on the program that sends them, and not on how they are
cut into messages.
-/
import Verif.Lemmas.Stream
import Verif.Props.Sched

namespace EmpZk

section
variable {α α' β : Type}

/-- Two provers, under two schedules. If all bytes the first one has sent are the beginning of those the second one has sent, and the verifier has
ended with both, it has ended in the same way, with the same bits and bytes received and the same digests. -/
theorem C113_same_bytes {S : Nat} {junk : List Byte} {p : SProg α} {p' : SProg α'} {q : RProg β} {w w' : List Byte} {a : PNet α β} {b : PNet α' β}
    (ha : PStream S (pnetInit S junk p q) w a) (hb : PStream S (pnetInit S junk p' q) w' b) (hw : w <+: w') (ea : a.q.Ended) (eb : b.q.Ended) :
    a.q = b.q ∧ a.rcv = b.rcv := by
  obtain ⟨z, rfl⟩ := hw
  obtain ⟨d, h1, h2, h3, _⟩ := stream_fed ha z
  obtain ⟨d', k1, k2, k3, _⟩ := stream_fed hb []
  rw [List.append_nil] at k1
  obtain ⟨e, j1, j2⟩ := preach_confluent h1 k1
  have hd : ∀ {x : PNet Unit β}, PReach S (fedNet S junk (w ++ z) q) x → x.p.Ended := by
    intro x hx
    have : x.p = .done () := (ended_stays hx).1 (fun o k h => by cases h)
    rw [this]
    intro o k h
    cases h
  have e1 := ended_rcv j1 (hd h1) (by rw [h2]; exact ea)
  have e2 := ended_rcv j2 (hd k1) (by rw [k2]; exact eb)
  have e3 : d = d' := e1.symm.trans e2
  subst e3
  exact ⟨h2.symm.trans k2, h3.symm.trans k3⟩

/-- Every run has such a sequence of bytes. -/
theorem C113_bytes {S : Nat} {junk : List Byte} {p : SProg α} {q : RProg β} {a : PNet α β} (ha : PReach S (pnetInit S junk p q) a) :
    ∃ w, PStream S (pnetInit S junk p q) w a := reach_stream ha

/-- A verifier of a program with bits, packed words, products and memories: if it accepts with one prover, it returns the same outputs and the same
verdict with every prover that sends the same bytes, and does not stop. -/
theorem C113_verdict {F : Type} [Field F] [BlockField F] [DecidableEq F] (me : MixEnv F) (pre : List BOp) (ops : List MOp) (post : List BOp)
    {S : Nat} {junk : List Byte} {p : SProg α} {p' : SProg α'} {w : List Byte} {a : PNet α (MVer F)} {b : PNet α' (MVer F)}
    (ha : PStream S (pnetInit S junk p (mixVerifier me pre ops post)) w a)
    (hb : PStream S (pnetInit S junk p' (mixVerifier me pre ops post)) w b) {V : MVer F} (hV : a.q = .done V) :
    b.q ≠ .stop ∧ ∀ V', b.q = .done V' → V'.b.outs = V.b.outs ∧ V'.b.cheats = V.b.cheats ∧ V'.warns = V.warns := by
  have e1 : a.q.Ended := by rw [hV]; intro o k h; cases h
  refine ⟨fun hs => ?_, fun V' h' => ?_⟩
  · have := (C113_same_bytes ha hb List.prefix_rfl e1 (by rw [hs]; intro o k h; cases h)).1
    rw [hV, hs] at this
    cases this
  · have := (C113_same_bytes ha hb List.prefix_rfl e1 (by rw [h']; intro o k h; cases h)).1
    rw [hV, h', RProg.done.injEq] at this
    subst this
    exact ⟨rfl, rfl, rfl⟩

/-- The same for a session with field elements and conversions. -/
theorem C113_conversions {F : Type} [Field F] [BlockField F] [DecidableEq F] (ce : ConvEnv F) (ops : List COp)
    {S : Nat} {junk : List Byte} {p : SProg α} {p' : SProg α'} {w : List Byte} {a : PNet α (CVer F)} {b : PNet α' (CVer F)}
    (ha : PStream S (pnetInit S junk p (convVerifier ce ops)) w a) (hb : PStream S (pnetInit S junk p' (convVerifier ce ops)) w b)
    {V : CVer F} (hV : a.q = .done V) :
    b.q ≠ .stop ∧ ∀ V', b.q = .done V' → V'.outs = V.outs ∧ V'.a.outs = V.a.outs ∧ V'.b.cheats = V.b.cheats ∧ V'.a.accepted = V.a.accepted := by
  have e1 : a.q.Ended := by rw [hV]; intro o k h; cases h
  refine ⟨fun hs => ?_, fun V' h' => ?_⟩
  · have := (C113_same_bytes ha hb List.prefix_rfl e1 (by rw [hs]; intro o k h; cases h)).1
    rw [hV, hs] at this
    cases this
  · have := (C113_same_bytes ha hb List.prefix_rfl e1 (by rw [h']; intro o k h; cases h)).1
    rw [hV, h', RProg.done.injEq] at this
    subst this
    exact ⟨rfl, rfl, rfl, rfl⟩

/-- A prover and two verifiers: what the prover ends with, what it has received and hashed, depends on the bytes sent back to it only. -/
theorem C113_prover {S : Nat} {junk : List Byte} {p : SProg α} {q : RProg β} {q' : RProg α'} {w w' : List Byte} {a : PNet α β} {b : PNet α α'}
    (ha : PBack S (pnetInit S junk p q) w a) (hb : PBack S (pnetInit S junk p q') w' b) (hw : w <+: w') (ea : a.p.Ended) (eb : b.p.Ended) :
    a.p = b.p ∧ a.snd = b.snd := by
  obtain ⟨z, rfl⟩ := hw
  obtain ⟨d, h1, h2, h3, _⟩ := back_fed ha z
  obtain ⟨d', k1, k2, k3, _⟩ := back_fed hb []
  rw [List.append_nil] at k1
  obtain ⟨e, j1, j2⟩ := preach_confluent h1 k1
  have hd : ∀ {x : PNet α Unit}, PReach S (fedBack S junk (w ++ z) p) x → x.q.Ended := by
    intro x hx
    have : x.q = .done () := (ended_stays hx).2 (fun o k h => by cases h)
    rw [this]
    intro o k h
    cases h
  have e1 := ended_rcv j1 (by rw [h2]; exact ea) (hd h1)
  have e2 := ended_rcv j2 (by rw [k2]; exact eb) (hd k1)
  have e3 : d = d' := e1.symm.trans e2
  subst e3
  exact ⟨h2.symm.trans k2, h3.symm.trans k3⟩

/-- Every run has such a sequence of bytes. -/
theorem C113_bytes_back {S : Nat} {junk : List Byte} {p : SProg α} {q : RProg β} {a : PNet α β} (ha : PReach S (pnetInit S junk p q) a) :
    ∃ w, PBack S (pnetInit S junk p q) w a := reach_back ha

end

/-- Two bytes in one message or in two: the receiver returns the same. -/
example : ∃ (a b : PNet Unit (List Byte)) (q : RProg (List Byte)),
    PStream 8 (pnetInit 8 [] (.call (.data [1#8, 2#8]) (fun _ => .done ())) q) [1#8, 2#8] a ∧
    PStream 8 (pnetInit 8 [] (.call (.data [1#8]) (fun _ => .call (.data [2#8]) (fun _ => .done ()))) q) [1#8, 2#8] b ∧
    a.q = .done [1#8, 2#8] ∧ b.q = .done [1#8, 2#8] := by
  refine ⟨_, _, .call (.data 2) (fun _ d => .done d),
    .rcv (.snd (x := [1#8, 2#8]) .init (by exact rfl) rfl) (by exact rfl),
    .rcv (.snd (w := [1#8]) (x := [2#8]) (.snd (w := []) (x := [1#8]) .init (by exact rfl) rfl) (by exact rfl) rfl) (by exact rfl), rfl, rfl⟩

/-- A challenge of two bytes sent back at once or one by one: the prover returns the same. -/
example : ∃ (a b : PNet (List Byte) Unit) (p : SProg (List Byte)),
    PBack 8 (pnetInit 8 [] p (.call (.back [1#8, 2#8]) (fun _ _ => .done ()))) [1#8, 2#8] a ∧
    PBack 8 (pnetInit 8 [] p (.call (.back [1#8]) (fun _ _ => .call (.back [2#8]) (fun _ _ => .done ())))) [1#8, 2#8] b ∧
    a.p = .done [1#8, 2#8] ∧ b.p = .done [1#8, 2#8] := by
  refine ⟨_, _, .call (.back 2) (fun g => .done g),
    .snd (.rcv (x := [1#8, 2#8]) .init (by exact rfl) rfl) (by exact rfl),
    .snd (.rcv (w := [1#8]) (x := [2#8]) (.rcv (w := []) (x := [1#8]) .init (by exact rfl) rfl) (by exact rfl) rfl) (by exact rfl), rfl, rfl⟩

end EmpZk
