/-
C90: what a verifier that deviates from the protocol learns from an arithmetic proof.
-/
import Verif.Lemmas.ArithView
import Verif.Lemmas.ProcSame
import Verif.Props.ArithHide
import Verif.Props.ArithNet
import Mathlib.Data.Set.Card

namespace EmpZk

/-- C90 (partial). Two witnesses of the same program, the same revealed values, all claims true: against every second party `B` whatsoever
there is a bijection of the prover's masks under which `B` returns the same, whatever the schedule. Missing: if the program contains
polynomial statements, `B` must send seeds below `p` (`C90_seed_false` shows that this is needed). -/
theorem C90_view_partial {β : Type} (ne : ANetEnv) (hpub : Canon ne.base.pubMac) (d : Fp) (key : Nat → Fp) (ops ops' : List AOp)
    (ho : ∀ o ∈ ops, o.CanonC) (ho' : ∀ o ∈ ops', o.CanonC) (hsame : ops.map AOp.erase = ops'.map AOp.erase)
    (pl pl' : APlain) (hpl : aplainRun ops = some pl) (hpl' : aplainRun ops' = some pl')
    (hcl : ∀ x ∈ pl.claims, x = 0) (hcl' : ∀ x ∈ pl'.claims, x = 0) (hout : pl.outs = pl'.outs) (B : Proc β)
    (hB : (∃ st, AOp.poly st ∈ ops) → ∀ u : Fin (fpBudget ops.length) → Fp, SeedsBelow (viewProver ne d key ops u) B) :
    ∃ φ : Equiv.Perm (Fin (fpBudget ops.length) → Fp), ∀ u r,
      Returns (viewProver ne d key ops u) B r ↔ Returns (viewProver ne d key ops' (φ u)) B r := by
  have hE := session_view (d := d) (key := key) (ne := ne) (H := ∃ st, AOp.poly st ∈ ops)
    (Bad := fun n b => (∃ st, AOp.poly st ∈ ops) ∧ n = 8 ∧ ¬ Canon (decW b)) (by rintro b ⟨_, h, _⟩; omega)
    (fun hH b hb => by by_contra hc; exact hb ⟨hH, rfl, hc⟩) hpub ho ho' hsame (fun st h => ⟨st, h⟩) hpl hpl' hcl hcl' hout
  have hlen : ops'.length = ops.length := by simpa using (congrArg List.length hsame).symm
  have a1 : (aprvProg ne ops).Asks (fpBudget ops.length) := asks_prog ne ops
  have a2 : (aprvProg ne ops').Asks (fpBudget ops.length) := by rw [← hlen]; exact asks_prog ne ops'
  have e : ∀ (o : List AOp) (u : Fin (fpBudget ops.length) → Fp),
      viewProver ne d key o u = (aprvProg ne o).given (corsOf (fun n => corOf d (key n)) 0 u) := by
    intro o u
    unfold viewProver
    congr 1
    funext j
    simp only [corsOf, Nat.zero_add]
  obtain ⟨φ, hφ⟩ := equi_ret hE a1 a2 B [] [] (by
    intro u n c m k hr hp hm
    rintro ⟨hst, rfl, hc⟩
    have := hB hst u n c k
    rw [e] at this
    exact hc (this hr hp hm))
  refine ⟨φ, fun u r => ?_⟩
  rw [e, e]
  exact hφ u r

/-- C90 (partial). The number of masks for which the verifier returns something with the property `T` does not depend on the witness: a
verifier that gets random masks from the prover has exactly the same chance for every conclusion about the witness. -/
theorem C90_count_partial {β : Type} (ne : ANetEnv) (hpub : Canon ne.base.pubMac) (d : Fp) (key : Nat → Fp) (ops ops' : List AOp)
    (ho : ∀ o ∈ ops, o.CanonC) (ho' : ∀ o ∈ ops', o.CanonC) (hsame : ops.map AOp.erase = ops'.map AOp.erase)
    (pl pl' : APlain) (hpl : aplainRun ops = some pl) (hpl' : aplainRun ops' = some pl')
    (hcl : ∀ x ∈ pl.claims, x = 0) (hcl' : ∀ x ∈ pl'.claims, x = 0) (hout : pl.outs = pl'.outs) (B : Proc β) (T : β → Prop)
    (hB : (∃ st, AOp.poly st ∈ ops) → ∀ u : Fin (fpBudget ops.length) → Fp, SeedsBelow (viewProver ne d key ops u) B) :
    {u : Fin (fpBudget ops.length) → Fp | ∃ r, T r ∧ Returns (viewProver ne d key ops u) B r}.ncard =
      {u : Fin (fpBudget ops.length) → Fp | ∃ r, T r ∧ Returns (viewProver ne d key ops' u) B r}.ncard := by
  obtain ⟨φ, hφ⟩ := C90_view_partial ne hpub d key ops ops' ho ho' hsame pl pl' hpl hpl' hcl hcl' hout B hB
  rw [← Set.ncard_image_of_injective _ φ.injective]
  congr 1
  ext v
  simp only [Set.mem_image, Set.mem_ofPred_eq]
  constructor
  · rintro ⟨u, ⟨r, h1, h2⟩, rfl⟩
    exact ⟨r, h1, (hφ u r).1 h2⟩
  · rintro ⟨r, h1, h2⟩
    exact ⟨φ.symm v, ⟨r, h1, (hφ _ r).2 (by rwa [Equiv.apply_symm_apply])⟩, φ.apply_symm_apply v⟩

/-! ### a seed that is not reduced -/

/-- `x * y = 1` with the witness `x = y = 1`. -/
def spyOps1 : List AOp := [.input 1, .input 1, .poly (.inner 2305843009213693950 [(0, 1)])]
/-- `x * y = 1` with the witness `x = y = -1`. -/
def spyOps2 : List AOp := [.input 2305843009213693950, .input 2305843009213693950, .poly (.inner 2305843009213693950 [(0, 1)])]

/-- A verifier that sends the seed `2^64 - 1` and looks at the highest bit of the answer. -/
def spyV : Proc Bool :=
  .recv 8 fun _ => .recv 8 fun _ => .send (encW 0xFFFFFFFFFFFFFFFF) (.recv 16 fun b => .done (decide (2 ^ 63 ≤ (decAns b).2.toNat)))

/-- Its keys. -/
def spyKey (n : Nat) : Fp := if n = 2 then 1 else 0

theorem spy_add (x w : W) (hw : w.toNat < 2305843009213693951) (hx : x.toNat + 2305843009213693951 ≤ 2 ^ 64) :
    (addMod x w).toNat = if 2305843009213693951 ≤ x.toNat + w.toNat then x.toNat + w.toNat - 2305843009213693951 else x.toNat + w.toNat := by
  have e : (x + w).toNat = x.toNat + w.toNat := by rw [BitVec.toNat_add]; omega
  have hp : PR.toNat = 2305843009213693951 := by decide
  unfold addMod
  simp only [BitVec.le_def, hp, e]
  split
  · rw [BitVec.toNat_sub_of_le (by rw [BitVec.le_def, hp, e]; assumption), e, hp]
  · exact e

theorem spy_ans (A : W × W) (h0 : A.2 = 1 ∨ A.2 = 2305843009213693950) (o : U128) (hu : Canon (high64 o)) :
    ∃ a, apolyCheckA [A] 0xFFFFFFFFFFFFFFFF o = some a ∧ (2 ^ 63 ≤ a.2.toNat ↔ A.2 = 2305843009213693950) := by
  unfold Canon pN at hu
  refine ⟨_, rfl, ?_⟩
  simp only [List.map_cons, List.map_nil, innPrdtSumRed, innPrdtLoop]
  generalize high64 o = w at hu
  rcases h0 with h | h
  · have e : innPrdtLoop (addMod 0 (multMod 0xFFFFFFFFFFFFFFFF A.2)) (coeffFrom 18446744073709551615 18446744073709551615 0) [] = 7 := by
      rw [h]; decide
    have hne : A.2 ≠ 2305843009213693950 := by rw [h]; decide
    rw [e, spy_add 7 w hu (by decide)]
    have e7 : (7 : W).toNat = 7 := rfl
    simp only [hne, iff_false, not_le, e7]
    split <;> omega
  · have e : innPrdtLoop (addMod 0 (multMod 0xFFFFFFFFFFFFFFFF A.2)) (coeffFrom 18446744073709551615 18446744073709551615 0) [] =
        13835058055282163699 := by rw [h]; decide
    rw [e, spy_add _ w hu (by decide)]
    have e7 : (13835058055282163699 : W).toNat = 13835058055282163699 := rfl
    simp only [h, iff_true, e7]
    split <;> omega

/-- The prover on the two inputs `x`, `x` of `x * y = 1`. -/
theorem spy_prover (x q : W) (c : Nat → U128) : ∃ (c' : Nat → U128) (g : W × W → VProg APrv),
    (aprvProg exNetA [.input x, .input x, .poly (.inner q [(0, 1)])]).given c =
      .send (encW (feedA (makeBlock (high64 (c 1)) (low64 (c 1))) x).2)
        (.send (encW (feedA (makeBlock (high64 (c 2)) (low64 (c 2))) x).2) (.recv 8 fun sd =>
        ((VProg.ofOpt (apolyCheckA [apolyA (.inner q [((feedA (makeBlock (high64 (c 1)) (low64 (c 1))) x).1,
          (feedA (makeBlock (high64 (c 2)) (low64 (c 2))) x).1)])] (decW sd) (c 3))).bind
            fun a => .send (encAns a) (g a)).given c')) := by
  have hs : exNetA.env.polySz = 2 := rfl
  refine ⟨fun j => c (j + 4), fun _ => VProg.bind (.done ⟨[(feedA (makeBlock (high64 (c 1)) (low64 (c 1))) x).1,
    (feedA (makeBlock (high64 (c 2)) (low64 (c 2))) x).1], 4, [], [], [], [], 0, 1⟩) fun p =>
      (aprvFinMulV exNetA p).bind fun q => (VProg.put (encDig (exNetA.base.hash q.stored))).bind fun _ => .done q, ?_⟩
  simp only [aprvProg, aprvRunV, aprvStepV, VProg.ask, VProg.put, bind, pure, VProg.bind, VProg.given, aprvStep, APrv.init,
    AEnv.withCor, AEnv.cor, List.nil_append, Nat.zero_add, Nat.reduceAdd]
  simp only [VProg.ofOpt, VProg.bind, VProg.given, aprvPolyRoomV, hs]
  generalize (feedA (makeBlock (high64 (c 1)) (low64 (c 1))) x).1 = a
  show Proc.send _ (Proc.send (encW (feedA (makeBlock (high64 (c 2)) (low64 (c 2))) x).2) (Proc.recv 8 fun sd => _)) = _
  congr 2

theorem spy_returns (x : W) (hx : x = 1 ∨ x = 2305843009213693950) {m : Nat} (u : Fin m → Fp) :
    Returns (viewProver exNetA 0 spyKey [.input x, .input x, .poly (.inner 2305843009213693950 [(0, 1)])] u) spyV
      (decide (x = 2305843009213693950)) := by
  unfold viewProver
  obtain ⟨c', g, e⟩ := spy_prover x 2305843009213693950 (fun j => corOf 0 (spyKey j) (masks u j))
  have hA : (apolyA (.inner 2305843009213693950 [((feedA (makeBlock (high64 (corOf 0 (spyKey 1) (masks u 1))) (low64 (corOf 0 (spyKey 1) (masks u 1)))) x).1,
      (feedA (makeBlock (high64 (corOf 0 (spyKey 2) (masks u 2))) (low64 (corOf 0 (spyKey 2) (masks u 2)))) x).1)])).2 = x := by
    have e1 : toW (0 : Fp) = 0 := by decide
    have e2 : toW (1 : Fp) = 1 := by decide
    simp only [corOf, low64_lab, high64_lab, zero_mul, add_zero, spyKey, e1, e2, feedA, low64_makeBlock, if_true, Nat.reduceEqDiff, if_false]
    rcases hx with rfl | rfl <;> decide
  obtain ⟨a, e1, e2⟩ := spy_ans _ (by rw [hA]; exact hx) (corOf 0 (spyKey 3) (masks u 3)) (by
    simp only [corOf, high64_lab]; exact canon_toW _)
  rw [hA] at e2
  rw [e]
  show Ret _ _
  unfold spyV
  rw [Ret.step (.inl rfl), Ret.step (.inl rfl)]
  rw [Ret.step (.inr (by simp only [Duo.stepQ]; rw [if_pos (by simp [encW_length])]))]
  rw [Ret.step (.inr (by simp only [Duo.stepQ]; rw [if_pos (by simp [encW_length])]))]
  rw [Ret.step (.inr rfl)]
  rw [Ret.step (.inl (by simp only [Duo.stepP]; rw [if_pos (by simp [encW_length])]))]
  have t : List.take 8 ([] ++ encW 18446744073709551615) = encW 18446744073709551615 := by
    rw [List.nil_append, List.take_of_length_le (by rw [encW_length])]
  simp only [t, decW_encW, e1]
  show Ret (Duo.mk (.send (encAns a) _) _ _ _) _
  rw [Ret.step (.inl rfl)]
  rw [Ret.step (.inr (by simp only [Duo.stepQ]; rw [if_pos (by simp [encW_length, encAns_length])]))]
  rw [Ret.done_iff]
  have t2 : ∀ a1 a2 a3 : List Byte, a1.length = 8 → a2.length = 8 → a3.length = 16 →
      List.take 16 (List.drop 8 (List.drop 8 ([] ++ a1 ++ a2)) ++ a3) = a3 := by
    intro a1 a2 a3 h1 h2 h3
    rw [List.nil_append, List.drop_left' h1, List.drop_of_length_le (by omega), List.nil_append, List.take_of_length_le (by omega)]
  rw [t2 _ _ _ (encW_length _) (encW_length _) (encAns_length _), decAns_encAns]
  exact (decide_eq_decide.2 e2).symm

/-- C90 is false without a condition on the seeds: the prover uses the word it receives as it is (polynomial.h:48), a multiple of a product by
a word above `p` is not reduced to the range of the masks, and the highest bit of the answer tells the two witnesses of `x * y = 1`
apart, whatever the masks are. -/
theorem C90_seed_false : ∃ (ne : ANetEnv) (d : Fp) (key : Nat → Fp) (ops ops' : List AOp) (pl pl' : APlain) (B : Proc Bool),
    Canon ne.base.pubMac ∧ (∀ o ∈ ops, o.CanonC) ∧ (∀ o ∈ ops', o.CanonC) ∧ ops.map AOp.erase = ops'.map AOp.erase ∧
    aplainRun ops = some pl ∧ aplainRun ops' = some pl' ∧ (∀ x ∈ pl.claims, x = 0) ∧ (∀ x ∈ pl'.claims, x = 0) ∧ pl.outs = pl'.outs ∧
    ∀ u u' : Fin (fpBudget ops.length) → Fp,
      (∀ r, Returns (viewProver ne d key ops u) B r ↔ r = false) ∧ (∀ r, Returns (viewProver ne d key ops' u') B r ↔ r = true) := by
  have c1 : ∀ o ∈ spyOps1, o.CanonC := by
    simp only [spyOps1, List.forall_mem_cons, AOp.CanonC, APoly.CanonC, List.not_mem_nil, false_imp_iff, implies_true, true_and, and_true]
    decide
  have c2 : ∀ o ∈ spyOps2, o.CanonC := by
    simp only [spyOps2, List.forall_mem_cons, AOp.CanonC, APoly.CanonC, List.not_mem_nil, false_imp_iff, implies_true, true_and, and_true]
    decide
  have p1 : (aplainRun spyOps1).map (fun p => (p.outs, p.claims)) = some ([], [0]) := by decide +kernel
  have p2 : (aplainRun spyOps2).map (fun p => (p.outs, p.claims)) = some ([], [0]) := by decide +kernel
  obtain ⟨pl1, e1, f1⟩ := Option.map_eq_some_iff.1 p1
  obtain ⟨pl2, e2, f2⟩ := Option.map_eq_some_iff.1 p2
  rw [Prod.mk.injEq] at f1 f2
  have one : ∀ {P : Proc APrv} {x r : Bool}, Returns P spyV x → (Returns P spyV r ↔ r = x) := by
    intro P x r hx
    exact ⟨fun h => Ret.unique h hx, fun h => h ▸ hx⟩
  refine ⟨exNetA, 0, spyKey, spyOps1, spyOps2, pl1, pl2, spyV, by decide, c1, c2, rfl, e1, e2, by rw [f1.2]; simp, by rw [f2.2]; simp,
    by rw [f1.1, f2.1], fun u u' => ⟨fun r => one ?_, fun r => one ?_⟩⟩
  · exact spy_returns 1 (.inl rfl) u
  · exact spy_returns 2305843009213693950 (.inr rfl) u'

/-! ### the hypotheses can be met -/

/-- A program without polynomial statements: `x * y = 24` and `x + y = 10`. -/
def exViewA1 : List AOp := [.input 4, .input 6, .add 0 1, .mul 0 1, .mul 2 2, .mul 3 3, .reveal 2, .revealCheck 3 24]
def exViewA2 : List AOp := [.input 6, .input 4, .add 0 1, .mul 0 1, .mul 2 2, .mul 3 3, .reveal 2, .revealCheck 3 24]

/-- C90: every second party whatsoever, a full batch of multiplications, openings; witnesses `(4, 6)` and `(6, 4)`. -/
example {β : Type} (B : Proc β) (T : β → Prop) (d : Fp) (key : Nat → Fp) :
    {u : Fin (fpBudget exViewA1.length) → Fp | ∃ r, T r ∧ Returns (viewProver exNetA d key exViewA1 u) B r}.ncard =
      {u : Fin (fpBudget exViewA1.length) → Fp | ∃ r, T r ∧ Returns (viewProver exNetA d key exViewA2 u) B r}.ncard := by
  have c1 : ∀ o ∈ exViewA1, o.CanonC := by
    simp only [exViewA1, List.forall_mem_cons, AOp.CanonC, List.not_mem_nil, false_imp_iff, implies_true, true_and, and_true]
    decide
  have c2 : ∀ o ∈ exViewA2, o.CanonC := by
    simp only [exViewA2, List.forall_mem_cons, AOp.CanonC, List.not_mem_nil, false_imp_iff, implies_true, true_and, and_true]
    decide
  have p1 : (aplainRun exViewA1).map (fun p => (p.outs, p.claims)) = some ([10], [0]) := by decide +kernel
  have p2 : (aplainRun exViewA2).map (fun p => (p.outs, p.claims)) = some ([10], [0]) := by decide +kernel
  obtain ⟨pl1, e1, f1⟩ := Option.map_eq_some_iff.1 p1
  obtain ⟨pl2, e2, f2⟩ := Option.map_eq_some_iff.1 p2
  rw [Prod.mk.injEq] at f1 f2
  exact C90_count_partial exNetA (by decide) d key exViewA1 exViewA2 c1 c2 rfl pl1 pl2 e1 e2
    (by rw [f1.2]; simp) (by rw [f2.2]; simp) (by rw [f1.1, f2.1]) B T (by
      rintro ⟨st, h⟩
      simp [exViewA1] at h)

/-- A verifier that sends the seed 5 and looks at the first 32 bytes. -/
def exSeedV : Proc (List Byte) := .send (encW 5) (.recv 32 .done)

theorem exSeedV_below {α : Type} (P : Proc α) : SeedsBelow P exSeedV := by
  have key : ∀ n (c c' : Duo α (List Byte)), Duo.Reach n c c' →
      ((c.q = exSeedV ∧ c.qp = []) ∨ ((c.q = .recv 32 .done ∨ ∃ r, c.q = .done r) ∧ (c.qp = encW 5 ∨ c.qp.length < 8))) →
      ((c'.q = exSeedV ∧ c'.qp = []) ∨ ((c'.q = .recv 32 .done ∨ ∃ r, c'.q = .done r) ∧ (c'.qp = encW 5 ∨ c'.qp.length < 8))) := by
    intro n
    induction n with
    | zero => intro c c' h; cases h; exact id
    | succ n ih =>
      intro c c' h hc
      cases h with
      | @step _ _ c1 _ h1 t =>
        refine ih c1 c' t ?_
        obtain ⟨p, q, pq, qp⟩ := c
        rcases h1 with h1 | h1
        · cases p with
          | done a => cases h1
          | fail => cases h1
          | send bs k => simp only [Duo.stepP, Option.some.injEq] at h1; subst h1; exact hc
          | recv m k =>
            simp only [Duo.stepP] at h1
            split at h1
            · simp only [Option.some.injEq] at h1; subst h1
              rcases hc with ⟨h2, h3⟩ | ⟨h2, h3⟩
              · left; refine ⟨h2, ?_⟩; simp only at h3 ⊢; rw [h3]; simp
              · right; refine ⟨h2, ?_⟩
                simp only at h3 ⊢
                by_cases hm : m = 0
                · subst hm; simpa using h3
                · right
                  rcases h3 with h3 | h3
                  · rw [h3, List.length_drop, encW_length]; omega
                  · rw [List.length_drop]; omega
            · cases h1
        · rcases hc with ⟨h2, h3⟩ | ⟨h2 | ⟨r, h2⟩, h3⟩
          · simp only at h2 h3; subst h2 h3
            simp only [Duo.stepQ, exSeedV, Option.some.injEq] at h1; subst h1
            right; exact ⟨.inl rfl, .inl rfl⟩
          · simp only at h2; subst h2
            simp only [Duo.stepQ] at h1
            split at h1
            · simp only [Option.some.injEq] at h1; subst h1
              right; exact ⟨.inr ⟨_, rfl⟩, h3⟩
            · cases h1
          · simp only at h2; subst h2; cases h1
  intro n c k hr hp hl
  rcases key n _ c hr (.inl ⟨rfl, rfl⟩) with ⟨_, h⟩ | ⟨_, h | h⟩
  · rw [h] at hl; simp at hl
  · rw [h, List.take_of_length_le (by rw [encW_length]), decW_encW]; decide
  · omega

/-- C90: with a polynomial statement and a verifier that sends the seed 5. -/
example (d : Fp) (key : Nat → Fp) :
    ∃ φ : Equiv.Perm (Fin (fpBudget exHideA1.length) → Fp), ∀ u r,
      Returns (viewProver exNetA d key exHideA1 u) exSeedV r ↔ Returns (viewProver exNetA d key exHideA2 (φ u)) exSeedV r := by
  have c1 : ∀ o ∈ exHideA1, o.CanonC := by
    simp only [exHideA1, List.forall_mem_cons, AOp.CanonC, APoly.CanonC, List.not_mem_nil, false_imp_iff, implies_true, true_and, and_true]
    decide
  have c2 : ∀ o ∈ exHideA2, o.CanonC := by
    simp only [exHideA2, List.forall_mem_cons, AOp.CanonC, APoly.CanonC, List.not_mem_nil, false_imp_iff, implies_true, true_and, and_true]
    decide
  have p1 : (aplainRun exHideA1).map (fun p => (p.outs, p.claims)) = some ([10], [0, 0]) := by decide +kernel
  have p2 : (aplainRun exHideA2).map (fun p => (p.outs, p.claims)) = some ([10], [0, 0]) := by decide +kernel
  obtain ⟨pl1, e1, f1⟩ := Option.map_eq_some_iff.1 p1
  obtain ⟨pl2, e2, f2⟩ := Option.map_eq_some_iff.1 p2
  rw [Prod.mk.injEq] at f1 f2
  exact C90_view_partial exNetA (by decide) d key exHideA1 exHideA2 c1 c2 rfl pl1 pl2 e1 e2
    (by rw [f1.2]; simp) (by rw [f2.2]; simp) (by rw [f1.1, f2.1]) exSeedV (fun _ u => exSeedV_below _)

end EmpZk
