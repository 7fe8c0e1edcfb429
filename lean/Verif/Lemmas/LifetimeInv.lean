import Verif.Lemmas.Lifetime
/-!
Lifetimes: the invariant of histories.
-/
namespace EmpZk

/-- What holds between calls: `b`, `a` are the first objects of the open sessions, `lk` the objects left behind. -/
structure LInv (al : Bool) (s : LSess) (σ : LSt) (b a : Nat) (lk : List Nat) : Prop where
  fresh : ∀ x, σ.next ≤ x → σ.heap x = none
  bOpen : s.bool = true → Hold σ.heap b (boolSeg al b) ∧ σ.circ = some b ∧ σ.prot = some (b + protOff al) ∧ b + (protOff al + 1) ≤ σ.next
  bClosed : s.bool = false → s.everB = true →
    ∃ x y, σ.circ = some x ∧ σ.prot = some y ∧ σ.heap x = none ∧ σ.heap y = none ∧ x < σ.next ∧ y < σ.next
  bNever : s.everB = false → s.bool = false ∧ σ.circ = none ∧ σ.prot = none
  aOpen : ∀ c, s.arith = some c → Hold σ.heap a (arithSeg al c a) ∧ σ.zk = some (a + 7) ∧ σ.fppoly = some (a + fpPolyOff al) ∧
    (c = true → σ.conv = some (a + edaOff al)) ∧ a + arithLen al c ≤ σ.next
  aClosed : s.arith = none → 0 < s.done →
    ∃ x y, σ.zk = some x ∧ σ.fppoly = some y ∧ σ.heap x = none ∧ σ.heap y = none ∧ x < σ.next ∧ y < σ.next
  stale : s.arith ≠ some true → s.seen = true → ∃ x, σ.conv = some x ∧ σ.heap x = none ∧ x < σ.next
  noConv : s.seen = false → σ.conv = none
  seenC : s.arith = some true → s.seen = true
  disj : s.bool = true → ∀ c, s.arith = some c → b + (protOff al + 1) ≤ a ∨ a + arithLen al c ≤ b
  live : ∀ x o, σ.heap x = some o → (s.bool = true ∧ b ≤ x ∧ x < b + (protOff al + 1)) ∨
    (∃ c, s.arith = some c ∧ a ≤ x ∧ x < a + arithLen al c) ∨ x ∈ lk
  leak : lk.Nodup ∧ lk.length = s.done ∧ ∀ x ∈ lk, σ.heap x = some ⟨.fpPool, []⟩ ∧ x < σ.next ∧
    (s.bool = true → x < b ∨ b + (protOff al + 1) ≤ x) ∧ (∀ c, s.arith = some c → x < a ∨ a + arithLen al c ≤ x)

theorem LInv.init (al : Bool) : LInv al LSess.init LSt.init 0 0 [] where
  fresh _ _ := rfl
  bOpen h := by simp [LSess.init] at h
  bClosed _ h := by simp [LSess.init] at h
  bNever _ := ⟨rfl, rfl, rfl⟩
  aOpen c h := by simp [LSess.init] at h
  aClosed _ h := by simp [LSess.init] at h
  stale _ h := by simp [LSess.init] at h
  noConv _ := rfl
  seenC h := by simp [LSess.init] at h
  disj h := by simp [LSess.init] at h
  live x o h := by simp [LSt.init] at h
  leak := ⟨List.nodup_nil, rfl, by simp⟩

theorem Hold.put {h : Nat → Option LObj} {n b : Nat} {L l : List LObj} (hh : Hold h b l) (hb : b + l.length ≤ n) :
    Hold (putSeg h n L) b l := by
  intro i hi
  rw [putSeg_out (Or.inl (by omega))]
  exact hh i hi

theorem Hold.new {h : Nat → Option LObj} {n : Nat} {L : List LObj} : Hold (putSeg h n L) n L := fun _ hi => putSeg_in hi

theorem Hold.kill {h : Nat → Option LObj} {n k b : Nat} {l : List LObj} (hh : Hold h b l) (hb : b + l.length ≤ n ∨ n + k ≤ b) :
    Hold (killSeg h n k) b l := by
  intro i hi
  rw [killSeg_out (by omega)]
  exact hh i hi

theorem kill_none {h : Nat → Option LObj} {n k x : Nat} (hx : h x = none) : killSeg h n k x = none := by
  rw [killSeg]
  split
  · rfl
  · exact hx

theorem kill_some {h : Nat → Option LObj} {n k x : Nat} {o : LObj} (hx : killSeg h n k x = some o) : h x = some o ∧ (x < n ∨ n + k ≤ x) := by
  by_cases hc : x < n ∨ n + k ≤ x
  · rw [killSeg_out hc] at hx
    exact ⟨hx, hc⟩
  · rw [killSeg, if_pos (by omega)] at hx
    simp at hx

theorem put_none {h : Nat → Option LObj} {n x : Nat} {L : List LObj} (hx : h x = none) (hn : x < n) : putSeg h n L x = none := by
  rw [putSeg_out (Or.inl hn), hx]

theorem put_some {h : Nat → Option LObj} {n x : Nat} {L : List LObj} {o : LObj} (hx : putSeg h n L x = some o) :
    (n ≤ x ∧ x < n + L.length) ∨ (h x = some o ∧ (x < n ∨ n + L.length ≤ x)) := by
  by_cases hc : x < n ∨ n + L.length ≤ x
  · rw [putSeg_out hc] at hx
    exact Or.inr ⟨hx, hc⟩
  · exact Or.inl (by omega)

/-- The next call deletes an object a second time. -/
def staleFin (s : LSess) : LEv → Bool
  | .finArith _ _ _ => decide (s.arith = some false) && s.seen
  | _ => false

/-- Messages and verdicts after a call. -/
def logStep (e : LEv) (m : Nat) (r : List Bool) : Nat × List Bool :=
  match e with
  | .setupBool => (0, r)
  | .finBool a p nA nP => (m + (LEv.finBool a p nA nP).cheats, r ++ [decide (m + (LEv.finBool a p nA nP).cheats ≠ 0)])
  | e => (m + e.cheats, r)

theorem LInv.stale_ub {al : Bool} {s : LSess} {σ : LSt} {b a : Nat} {lk : List Nat} (hI : LInv al s σ b a lk) {e : LEv}
    (h : staleFin s e = true) : lStep al e σ = .error .ub := by
  cases e with
  | finArith pM pP nP =>
    simp only [staleFin, Bool.and_eq_true, decide_eq_true_eq] at h
    obtain ⟨x, h1, h2, _⟩ := hI.stale (by rw [h.1]; simp) h.2
    exact finArith_stale al pM pP nP σ x h1 h2
  | _ => simp [staleFin] at h

theorem LInv.step {al : Bool} {s s' : LSess} {σ : LSt} {b a : Nat} {lk : List Nat} (hI : LInv al s σ b a lk) {e : LEv}
    (hs : s.step e = some s') (hst : staleFin s e = false) :
    ∃ σ' b' a' lk', lStep al e σ = .ok ((), σ') ∧ LInv al s' σ' b' a' lk' ∧ (σ'.msgs, σ'.rets) = logStep e σ.msgs σ.rets := by
  cases e with
  | setupBool =>
    simp only [LSess.step] at hs
    split at hs
    · simp at hs
    next hb =>
    simp only [Option.some.injEq] at hs
    subst hs
    have hbf : s.bool = false := by simpa using hb
    refine ⟨_, σ.next, a, lk, setupBool_run al σ, ?_, rfl⟩
    refine ⟨?_, ?_, ?_, ?_, ?_, ?_, ?_, ?_, ?_, ?_, ?_, ?_⟩
    · intro x hx
      simp only [LSt.add] at hx ⊢
      rw [putSeg_out (Or.inr hx)]
      exact hI.fresh x (by omega)
    · intro _
      exact ⟨Hold.new, rfl, rfl, by simp only [LSt.add]; rw [boolSeg_length]⟩
    · intro h; simp at h
    · intro h; simp at h
    · intro c hc
      obtain ⟨h1, h2, h3, h4, h5⟩ := hI.aOpen c hc
      exact ⟨h1.put (by rw [arithSeg_length]; exact h5), h2, h3, h4, by simp only [LSt.add]; omega⟩
    · intro h1 h2
      obtain ⟨x, y, k1, k2, k3, k4, k5, k6⟩ := hI.aClosed h1 h2
      exact ⟨x, y, k1, k2, put_none k3 k5, put_none k4 k6, by simp only [LSt.add]; omega, by simp only [LSt.add]; omega⟩
    · intro h1 h2
      obtain ⟨x, k1, k2, k3⟩ := hI.stale h1 h2
      exact ⟨x, k1, put_none k2 k3, by simp only [LSt.add]; omega⟩
    · exact hI.noConv
    · exact hI.seenC
    · intro _ c hc
      exact Or.inr (hI.aOpen c hc).2.2.2.2
    · intro x o hx
      rcases put_some hx with hx | ⟨hx, _⟩
      · rw [boolSeg_length] at hx
        exact Or.inl ⟨rfl, hx⟩
      · rcases hI.live x o hx with h | h | h
        · rw [hbf] at h; simp at h
        · exact Or.inr (Or.inl h)
        · exact Or.inr (Or.inr h)
    · refine ⟨hI.leak.1, hI.leak.2.1, ?_⟩
      intro x hx
      obtain ⟨k1, k2, _, k4⟩ := hI.leak.2.2 x hx
      exact ⟨by simp only [LSt.add]; rw [putSeg_out (Or.inl k2)]; exact k1, by simp only [LSt.add]; omega, fun _ => Or.inl k2, k4⟩
  | finBool pA pP nA nP =>
    simp only [LSess.step] at hs
    split at hs
    next hb =>
      simp only [Option.some.injEq] at hs
      subst hs
      obtain ⟨o1, o2, o3, o4⟩ := hI.bOpen hb
      obtain ⟨σ', r1, r2⟩ := finBool_run al pA pP nA nP σ b o2 o3 o1
      refine ⟨σ', b, a, lk, r1, ?_, ?_⟩
      · refine ⟨?_, ?_, ?_, ?_, ?_, ?_, ?_, ?_, ?_, ?_, ?_, ?_⟩
        · intro x hx
          rw [r2.next] at hx
          rw [r2.heap]
          exact kill_none (hI.fresh x hx)
        · intro h; simp at h
        · intro _ _
          rw [r2.circ, r2.prot, r2.heap, r2.next]
          exact ⟨b, b + protOff al, o2, o3, killSeg_in (i := 0) (by omega), killSeg_in (by omega), by omega, by omega⟩
        · intro h
          have := (hI.bNever h).1
          rw [hb] at this
          simp at this
        · intro c hc
          obtain ⟨h1, h2, h3, h4, h5⟩ := hI.aOpen c hc
          rw [r2.heap, r2.zk, r2.fppoly, r2.conv, r2.next]
          have := hI.disj hb c hc
          exact ⟨h1.kill (by rw [arithSeg_length]; omega), h2, h3, h4, h5⟩
        · intro h1 h2
          obtain ⟨x, y, k1, k2, k3, k4, k5, k6⟩ := hI.aClosed h1 h2
          rw [r2.heap, r2.zk, r2.fppoly, r2.next]
          exact ⟨x, y, k1, k2, kill_none k3, kill_none k4, k5, k6⟩
        · intro h1 h2
          obtain ⟨x, k1, k2, k3⟩ := hI.stale h1 h2
          rw [r2.heap, r2.conv, r2.next]
          exact ⟨x, k1, kill_none k2, k3⟩
        · rw [r2.conv]; exact hI.noConv
        · exact hI.seenC
        · intro h; simp at h
        · intro x o hx
          rw [r2.heap] at hx
          obtain ⟨hx, hout⟩ := kill_some hx
          rcases hI.live x o hx with h | h | h
          · omega
          · exact Or.inr (Or.inl h)
          · exact Or.inr (Or.inr h)
        · refine ⟨hI.leak.1, hI.leak.2.1, ?_⟩
          intro x hx
          obtain ⟨k1, k2, k3, k4⟩ := hI.leak.2.2 x hx
          rw [r2.heap, r2.next]
          exact ⟨by rw [killSeg_out (k3 hb)]; exact k1, k2, by simp, k4⟩
      · simp [logStep, LEv.cheats, r2.msgs, r2.rets]
    · simp at hs
  | setupArith c =>
    simp only [LSess.step] at hs
    split at hs
    · simp at hs
    next hg =>
    simp only [Option.some.injEq] at hs
    subst hs
    simp only [Bool.or_eq_true, Bool.and_eq_true, Bool.not_eq_eq_eq_not, Bool.not_true, not_or, not_and, Bool.not_eq_false,
      Bool.not_eq_true, Option.isSome_eq_false_iff, Option.isNone_iff_eq_none] at hg
    obtain ⟨hnone, hcb⟩ := hg
    have main : ∀ τ : LSt, τ.circ = σ.circ → τ.prot = σ.prot → τ.zk = some (σ.next + 7) → τ.fppoly = some (σ.next + fpPolyOff al) →
        (c = true → τ.conv = some (σ.next + edaOff al)) → (c = false → τ.conv = σ.conv) →
        LInv al { s with arith := some c, seen := s.seen || c } (τ.add σ.heap σ.next (arithSeg al c σ.next)) b σ.next lk := by
      intro τ t1 t2 t3 t4 t5 t6
      refine ⟨?_, ?_, ?_, ?_, ?_, ?_, ?_, ?_, ?_, ?_, ?_, ?_⟩
      · intro x hx
        simp only [LSt.add] at hx ⊢
        rw [putSeg_out (Or.inr hx)]
        exact hI.fresh x (by omega)
      · intro h
        obtain ⟨k1, k2, k3, k4⟩ := hI.bOpen h
        exact ⟨k1.put (by rw [boolSeg_length]; exact k4), t1.trans k2, t2.trans k3, by simp only [LSt.add]; omega⟩
      · intro h1 h2
        obtain ⟨x, y, k1, k2, k3, k4, k5, k6⟩ := hI.bClosed h1 h2
        exact ⟨x, y, t1.trans k1, t2.trans k2, put_none k3 k5, put_none k4 k6, by simp only [LSt.add]; omega, by simp only [LSt.add]; omega⟩
      · intro h
        obtain ⟨k1, k2, k3⟩ := hI.bNever h
        exact ⟨k1, t1.trans k2, t2.trans k3⟩
      · intro c' hc'
        simp only [Option.some.injEq] at hc'
        subst hc'
        exact ⟨Hold.new, t3, t4, t5, by simp only [LSt.add]; rw [arithSeg_length]⟩
      · intro h; simp at h
      · intro h1 h2
        have hcf : c = false := by
          cases c
          · rfl
          · simp at h1
        subst hcf
        simp only [Bool.or_false] at h2
        obtain ⟨x, k1, k2, k3⟩ := hI.stale (by rw [hnone]; simp) h2
        exact ⟨x, (t6 rfl).trans k1, put_none k2 k3, by simp only [LSt.add]; omega⟩
      · intro h
        simp only [Bool.or_eq_false_iff] at h
        exact (t6 h.2).trans (hI.noConv h.1)
      · intro h
        simp only [Option.some.injEq] at h
        simp [h]
      · intro h c' hc'
        exact Or.inl (hI.bOpen h).2.2.2
      · intro x o hx
        rcases put_some hx with hx | ⟨hx, _⟩
        · rw [arithSeg_length] at hx
          exact Or.inr (Or.inl ⟨c, rfl, hx⟩)
        · rcases hI.live x o hx with h | ⟨c', h, _⟩ | h
          · exact Or.inl h
          · rw [hnone] at h; simp at h
          · exact Or.inr (Or.inr h)
      · refine ⟨hI.leak.1, hI.leak.2.1, ?_⟩
        intro x hx
        obtain ⟨k1, k2, k3, _⟩ := hI.leak.2.2 x hx
        exact ⟨by simp only [LSt.add]; rw [putSeg_out (Or.inl k2)]; exact k1, by simp only [LSt.add]; omega, k3, fun _ _ => Or.inl k2⟩
    cases c
    · exact ⟨_, b, σ.next, lk, setupArith_plain_run al σ, main _ rfl rfl rfl rfl (by simp) (fun _ => rfl), rfl⟩
    · obtain ⟨k1, k2, k3, k4⟩ := hI.bOpen (hcb rfl)
      have hq : ∃ po, σ.heap (b + protOff al) = some po ∧ po.ptr[2]? = some b := by
        cases al
        · exact ⟨_, hold_get k1 rfl, rfl⟩
        · exact ⟨_, hold_get k1 rfl, rfl⟩
      obtain ⟨po, q1, q2⟩ := hq
      have q0 : ∃ o, σ.heap b = some o := ⟨_, hold_get (i := 0) k1 rfl⟩
      obtain ⟨o, q0⟩ := q0
      exact ⟨_, b, σ.next, lk, setupArith_conv_run al σ b o (b + protOff al) po b o k2 q0 (by omega) k3 q1 (by omega) q2 q0 (by omega),
        main _ rfl rfl rfl rfl (fun _ => rfl) (by simp), rfl⟩
  | finArith pM pP nP =>
    simp only [LSess.step] at hs
    split at hs
    next ha =>
      simp only [Option.some.injEq] at hs
      subst hs
      obtain ⟨c, hc⟩ := Option.isSome_iff_exists.1 ha
      obtain ⟨o1, o2, o3, o4, o5⟩ := hI.aOpen c hc
      have hrun : ∃ σ', finArith al pM pP nP σ = .ok ((), σ') ∧ FinA σ σ' a (arithLen al c - 1) (if pP then nP else 0) := by
        cases c
        · refine finArith_plain_run al pM pP nP σ a o2 o3 ?_ o1
          apply hI.noConv
          simpa [staleFin, hc] using hst
        · exact finArith_conv_run al pM pP nP σ a o2 o3 (o4 rfl) o1
      obtain ⟨σ', r1, r2⟩ := hrun
      have hlen : 11 - 1 ≤ arithLen al c := by cases al <;> cases c <;> decide
      have hpool : σ.heap a = some ⟨.fpPool, []⟩ := hold_get (i := 0) o1 rfl
      have ha0 : ∀ x, (∀ h : x ∈ lk, x < a ∨ a + arithLen al c ≤ x) := fun x h => (hI.leak.2.2 x h).2.2.2 c hc
      refine ⟨σ', b, a, a :: lk, r1, ?_, ?_⟩
      · refine ⟨?_, ?_, ?_, ?_, ?_, ?_, ?_, ?_, ?_, ?_, ?_, ?_⟩
        · intro x hx
          rw [r2.next] at hx
          rw [r2.heap]
          exact kill_none (hI.fresh x hx)
        · intro h
          obtain ⟨k1, k2, k3, k4⟩ := hI.bOpen h
          rw [r2.heap, r2.circ, r2.prot, r2.next]
          have := hI.disj h c hc
          exact ⟨k1.kill (by rw [boolSeg_length]; omega), k2, k3, k4⟩
        · intro h1 h2
          obtain ⟨x, y, k1, k2, k3, k4, k5, k6⟩ := hI.bClosed h1 h2
          rw [r2.heap, r2.circ, r2.prot, r2.next]
          exact ⟨x, y, k1, k2, kill_none k3, kill_none k4, k5, k6⟩
        · rw [r2.circ, r2.prot]
          exact hI.bNever
        · intro c' h; simp at h
        · intro _ _
          have h7 : 7 ≤ arithLen al c - 1 := by omega
          have hp1 : 1 ≤ fpPolyOff al ∧ fpPolyOff al ≤ arithLen al c - 1 := by cases al <;> cases c <;> decide
          have e1 : killSeg σ.heap (a + 1) (arithLen al c - 1) (a + 7) = none := by
            have := killSeg_in (h := σ.heap) (b := a + 1) (k := arithLen al c - 1) (i := 6) (by omega)
            rwa [Nat.add_assoc] at this
          have e2 : killSeg σ.heap (a + 1) (arithLen al c - 1) (a + fpPolyOff al) = none := by
            have := killSeg_in (h := σ.heap) (b := a + 1) (k := arithLen al c - 1) (i := fpPolyOff al - 1) (by omega)
            rwa [show a + 1 + (fpPolyOff al - 1) = a + fpPolyOff al by omega] at this
          rw [r2.heap, r2.zk, r2.fppoly, r2.next]
          exact ⟨a + 7, a + fpPolyOff al, o2, o3, e1, e2, by omega, by omega⟩
        · intro _ h2
          rw [r2.heap, r2.conv, r2.next]
          cases c
          · obtain ⟨x, k1, k2, k3⟩ := hI.stale (by rw [hc]; simp) h2
            exact ⟨x, k1, kill_none k2, k3⟩
          · have hp1 : 1 ≤ edaOff al ∧ edaOff al ≤ arithLen al true - 1 := by cases al <;> decide
            have e2 : killSeg σ.heap (a + 1) (arithLen al true - 1) (a + edaOff al) = none := by
              have := killSeg_in (h := σ.heap) (b := a + 1) (k := arithLen al true - 1) (i := edaOff al - 1) (by omega)
              rwa [show a + 1 + (edaOff al - 1) = a + edaOff al by omega] at this
            exact ⟨a + edaOff al, o4 rfl, e2, by omega⟩
        · rw [r2.conv]; exact hI.noConv
        · intro h; simp at h
        · intro _ c' h; simp at h
        · intro x o hx
          rw [r2.heap] at hx
          obtain ⟨hx, hout⟩ := kill_some hx
          rcases hI.live x o hx with h | ⟨c', h, h'⟩ | h
          · exact Or.inl h
          · rw [hc, Option.some.injEq] at h
            subst h
            have hxa : x = a := by omega
            rw [hxa]
            exact Or.inr (Or.inr List.mem_cons_self)
          · exact Or.inr (Or.inr (List.mem_cons_of_mem _ h))
        · refine ⟨List.nodup_cons.2 ⟨fun h => ?_, hI.leak.1⟩, by simp [hI.leak.2.1], ?_⟩
          · have := ha0 a h
            omega
          · intro x hx
            rw [r2.heap, r2.next]
            rcases List.mem_cons.1 hx with rfl | hx
            · refine ⟨by rw [killSeg_out (Or.inl (by omega))]; exact hpool, by omega, ?_, by simp⟩
              intro h
              have := hI.disj h c hc
              omega
            · obtain ⟨k1, k2, k3, k4⟩ := hI.leak.2.2 x hx
              have := k4 c hc
              exact ⟨by rw [killSeg_out (by omega)]; exact k1, k2, k3, by simp⟩
      · simp only [logStep, LEv.cheats, r2.msgs, r2.rets]
    · simp at hs
  | boolOp n =>
    simp only [LSess.step] at hs
    split at hs
    next hb =>
      simp only [Option.some.injEq] at hs
      subst hs
      obtain ⟨o1, o2, o3, o4⟩ := hI.bOpen hb
      exact ⟨_, b, a, lk, boolOp_run al n σ b o2 o3 o1,
        ⟨hI.fresh, hI.bOpen, hI.bClosed, hI.bNever, hI.aOpen, hI.aClosed, hI.stale, hI.noConv, hI.seenC, hI.disj, hI.live, hI.leak⟩, rfl⟩
    · simp at hs
  | arithOp n =>
    simp only [LSess.step] at hs
    split at hs
    next ha =>
      simp only [Option.some.injEq] at hs
      subst hs
      obtain ⟨c, hc⟩ := Option.isSome_iff_exists.1 ha
      obtain ⟨o1, o2, o3, o4, o5⟩ := hI.aOpen c hc
      exact ⟨_, b, a, lk, arithOp_run al c n σ a o2 o3 o1,
        ⟨hI.fresh, hI.bOpen, hI.bClosed, hI.bNever, hI.aOpen, hI.aClosed, hI.stale, hI.noConv, hI.seenC, hI.disj, hI.live, hI.leak⟩, rfl⟩
    · simp at hs
  | convOp =>
    simp only [LSess.step] at hs
    split at hs
    next h =>
      simp only [Option.some.injEq] at hs
      subst hs
      obtain ⟨o1, o2, o3, o4, o5⟩ := hI.aOpen true h.1
      obtain ⟨q1, q2, q3, q4⟩ := hI.bOpen h.2
      exact ⟨_, b, a, lk, convOp_run al σ a b (o4 rfl) o1 q2 q3 q1, hI, rfl⟩
    · simp at hs

/-- Messages and verdicts along a history. -/
def logRun : List LEv → Nat → List Bool → Nat × List Bool
  | [], m, r => (m, r)
  | e :: es, m, r => logRun es (logStep e m r).1 (logStep e m r).2

theorem LInv.run {al : Bool} : ∀ {es : List LEv} {s s' : LSess} {σ : LSt} {b a : Nat} {lk : List Nat}, LInv al s σ b a lk →
    s.run es = some s' →
    (closesPlainAfterConv s es = true → lRun al es σ = .error .ub) ∧
    (closesPlainAfterConv s es = false → ∃ σ' b' a' lk', lRun al es σ = .ok σ' ∧ LInv al s' σ' b' a' lk' ∧
      (σ'.msgs, σ'.rets) = logRun es σ.msgs σ.rets)
  | [], s, s', σ, b, a, lk, hI, hs => by
    simp only [LSess.run, Option.some.injEq] at hs
    subst hs
    exact ⟨by simp [closesPlainAfterConv], fun _ => ⟨σ, b, a, lk, rfl, hI, rfl⟩⟩
  | e :: es, s, s', σ, b, a, lk, hI, hs => by
    simp only [LSess.run] at hs
    obtain ⟨s1, h1, h2⟩ := Option.bind_eq_some_iff.1 hs
    have hc : closesPlainAfterConv s (e :: es) = (staleFin s e || closesPlainAfterConv s1 es) := by
      cases e <;> simp [closesPlainAfterConv, staleFin, h1]
    cases hst : staleFin s e with
    | true =>
      refine ⟨fun _ => ?_, fun h => ?_⟩
      · rw [lRun, hI.stale_ub hst]
        rfl
      · rw [hc, hst] at h
        simp at h
    | false =>
      obtain ⟨σ1, b1, a1, lk1, r1, r2, r3⟩ := hI.step h1 hst
      obtain ⟨k1, k2⟩ := LInv.run r2 h2
      rw [hc, hst, Bool.false_or]
      have hr : lRun al (e :: es) σ = lRun al es σ1 := by
        rw [lRun, r1]
        rfl
      rw [hr]
      refine ⟨k1, fun h => ?_⟩
      obtain ⟨σ', b', a', lk', q1, q2, q3⟩ := k2 h
      refine ⟨σ', b', a', lk', q1, q2, q3.trans ?_⟩
      rw [logRun, ← r3]

theorem logRun_verdicts : ∀ (es : List LEv) (m : Nat) (r : List Bool), (logRun es m r).2 = r ++ verdicts m es
  | [], m, r => by simp [logRun, verdicts]
  | e :: es, m, r => by
    rw [logRun, logRun_verdicts es]
    cases e <;> simp [logStep, verdicts]

end EmpZk
