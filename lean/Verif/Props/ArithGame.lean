/-
C85: error of a whole arithmetic proof.
-/
import Verif.Lemmas.ArithGame
import Verif.Props.ArithProtocol

namespace EmpZk

open Classical in
/-- C85. Let `S` be any strategy of a prover (canonical words), `B` and `Q` at least the numbers of checks of the two kinds, and
let every batch of multiplications be small or divided among the threads without rest gates being lost (see C10, C19).  Of all
choices of the seeds and of `Delta`, at most the fraction `(m + n + 4) / p` lets the prover cheat, where `m` is the number of
multiplications and `n` the number of polynomial statements of the program: the verifier accepts, there is no collision of the
hash function, and no inputs make the plain program return the values returned with all claims true. -/
theorem C85_error {T B Q : Nat} (S : AStrategy T) (v : AView) (block : Fp → U128) (hblock : ∀ x, fp (low64 (block x)) = x)
    (ops : List AOp) (ho : ∀ o ∈ ops, o.CanonC) (hm : ∀ k σ τ, (S.msg k σ τ).CanonM)
    (hT : max 1 v.threads ≤ T) (hB : mulCount ops ≤ B * v.checkSz) (hQ : stmtCount ops ≤ Q * v.polySz)
    (hcover : ∀ b, b * v.checkSz < mulCount ops → batchLen (mulCount ops) v.checkSz b < 32 ∨
      batchLen (mulCount ops) v.checkSz b % v.threads < batchLen (mulCount ops) v.checkSz b / v.threads) :
    (Finset.univ.filter (Cheated (B := B) (Q := Q) v block ops S)).card ≤
      (mulCount ops + stmtCount ops + 4) * (pN ^ T) ^ B * pN ^ Q ∧
    Fintype.card (((Fin B → Fin T → Fp) × (Fin Q → Fp)) × Fp) = (pN ^ T) ^ B * pN ^ Q * pN := by
  have hcF : Fintype.card Fp = pN := ZMod.card _
  have hcA : Fintype.card ((Fin B → Fin T → Fp) × (Fin Q → Fp)) = (pN ^ T) ^ B * pN ^ Q := by
    rw [Fintype.card_prod, Fintype.card_fun, Fintype.card_fun, Fintype.card_fun, Fintype.card_fin, Fintype.card_fin,
      Fintype.card_fin, hcF]
  refine ⟨?_, by rw [Fintype.card_prod, hcA, hcF]⟩
  have h := card_fibre_le (A := (Fin B → Fin T → Fp) × (Fin Q → Fp)) (B := Fp) (fun a d => Cheated v block ops S (a, d))
    (fun a => (∃ b : Fin B, BadMul S v block ops a.1 a.2 b.1 (a.1 b)) ∨ ∃ b : Fin Q, BadPoly S v block ops a.1 a.2 b.1 (a.2 b))
    _ 4 (le_refl _) (by
      intro a hgood D hD
      by_contra hcon
      obtain ⟨d0, hd0⟩ : D.Nonempty := Finset.card_pos.1 (by omega)
      have hsep : HashSeparates v block ops S a.1 a.2 := (hD d0 hd0).1
      have hms : ∀ m ∈ S.msgs v ops (List.ofFn a.1) (List.ofFn a.2), m.CanonM := by
        intro m hmm
        simp only [AStrategy.msgs, List.mem_map] at hmm
        obtain ⟨k, _, rfl⟩ := hmm
        exact hm _ _ _
      obtain ⟨V0, ⟨hV0, hok0⟩, hne0⟩ := (hD d0 hd0).2
      obtain ⟨ab, ch, k⟩ := averSession_img (v.seeded block a.1 a.2) d0 ops ho _ hms (S.fin (List.ofFn a.1) (List.ofFn a.2))
      rw [hV0] at k
      obtain ⟨c, hc, _⟩ := Option.map_eq_some_iff.1 k.symm
      obtain ⟨ops', pl, e1, e2, e3, e4, e5⟩ := C64_extraction (v.seeded block a.1 a.2) ops ho _ hms
        (S.fin (List.ofFn a.1) (List.ofFn a.2)) c hc
        (by
          intro r hr tasks htasks herr t ht g hg
          by_contra hgc
          obtain ⟨b, hb⟩ := List.mem_iff_getElem?.1 hr
          obtain ⟨k1, k2, k3, k4⟩ := session_mulBatch hc hb
          have hbB : b < B := by
            have k3' : b * v.checkSz < mulCount ops := k3
            exact lt_of_mul_lt_mul_right (lt_of_lt_of_le k3' hB) (Nat.zero_le _)
          refine hgood (Or.inl ⟨⟨b, hbB⟩, ?_⟩)
          unfold BadMul
          have k1' : r.gates = mulBufAt (v.seeded block a.1 a.2) ops (gameMsgs S v ops a.1 a.2) (batchEnd mulCount ops v.checkSz b) := k1
          simp only
          rw [← k1']
          refine ⟨k4, tasks, htasks, ⟨t, ht, g, hg, hgc⟩, ?_⟩
          rw [← herr, k2]
          unfold mulErr seedFp
          show _ = taskSum CGate.err r.gates (fun i => fp (low64 (block (famAt (famAt a.1 b) i)))) tasks 0
          have e : famAt a.1 b = a.1 ⟨b, hbB⟩ := by unfold famAt; rw [dif_pos hbB]
          simp only [hblock, e]
          exact (rfl : taskSum CGate.err r.gates (extendSeeds (a.1 ⟨b, hbB⟩)) tasks 0 = taskSum CGate.err r.gates (fun i => famAt (a.1 ⟨b, hbB⟩) i) tasks 0))
        (by
          intro r hr
          obtain ⟨b, hb⟩ := List.mem_iff_getElem?.1 hr
          obtain ⟨k1, k2, k3, k4⟩ := session_mulBatch hc hb
          rw [k4]
          exact hcover b k3)
        (by
          intro r hr herr s hs
          by_contra hsc
          obtain ⟨b, hb⟩ := List.mem_iff_getElem?.1 hr
          obtain ⟨k1, k2, k3, k4⟩ := session_polyBatch hc hb
          have hbQ : b < Q := by
            have k3' : b * v.polySz < stmtCount ops := k3
            exact lt_of_mul_lt_mul_right (lt_of_lt_of_le k3' hQ) (Nat.zero_le _)
          refine hgood (Or.inr ⟨⟨b, hbQ⟩, ?_⟩)
          unfold BadPoly
          have k1' : r.polys = polyBufAt (v.seeded block a.1 a.2) ops (gameMsgs S v ops a.1 a.2) (batchEnd stmtCount ops v.polySz b) := k1
          simp only
          rw [← k1']
          refine ⟨k4, ⟨s, hs, hsc⟩, ?_⟩
          rw [← herr, k2]
          have e : famAt a.2 b = a.2 ⟨b, hbQ⟩ := by unfold famAt; rw [dif_pos hbQ]
          show _ = chiSum (fp (toW (famAt a.2 b))) _
          rw [fp_toW, e])
        D (by omega)
        (by
          intro d hd
          obtain ⟨V, ⟨hV, hok⟩, _⟩ := (hD d hd).2
          exact ⟨V, hV, hok⟩)
        (by
          intro d1 hd1 d2 hd2 V1 V2 hV1 hV2 hh
          obtain ⟨V1', ⟨hV1', hok1⟩, _⟩ := (hD d1 hd1).2
          obtain ⟨V2', ⟨hV2', hok2⟩, _⟩ := (hD d2 hd2).2
          have q1 : V1' = V1 := Option.some.inj (hV1'.symm.trans hV1)
          have q2 : V2' = V2 := Option.some.inj (hV2'.symm.trans hV2)
          subst q1; subst q2
          exact hsep d1 d2 V1' V2' ⟨hV1, hok1⟩ ⟨hV2, hok2⟩ hh)
      exact hne0 ⟨ops', pl, e1, e2, e3, e4, (e5 d0 hd0 V0 hV0).1⟩)
  rw [hcA, hcF] at h
  have hb := card_badSeeds (B := B) (Q := Q) S v block ops hT
  refine (le_trans (le_of_eq ?_) h).trans ((Nat.add_le_add_right hb _).trans (le_of_eq ?_))
  · rfl
  · ring

open Classical in
/-- C85 with one thread: no condition on the batches is needed. -/
theorem C85_one_thread {T B Q : Nat} (S : AStrategy T) (v : AView) (block : Fp → U128) (hblock : ∀ x, fp (low64 (block x)) = x)
    (ops : List AOp) (ho : ∀ o ∈ ops, o.CanonC) (hm : ∀ k σ τ, (S.msg k σ τ).CanonM) (h1 : v.threads = 1) (hT : 0 < T)
    (hB : mulCount ops ≤ B * v.checkSz) (hQ : stmtCount ops ≤ Q * v.polySz) :
    (Finset.univ.filter (Cheated (B := B) (Q := Q) v block ops S)).card ≤
      (mulCount ops + stmtCount ops + 4) * (pN ^ T) ^ B * pN ^ Q := by
  refine (C85_error S v block hblock ops ho hm (by rw [h1, Nat.max_self]; exact hT) hB hQ ?_).1
  intro b hb
  right
  have : 0 < v.checkSz := by
    by_contra h0
    have h0 : v.checkSz = 0 := by omega
    rw [h0] at hb hB
    omega
  rw [h1, Nat.mod_one, Nat.div_one]
  unfold batchLen
  omega

/-! ### Examples -/

/-- A strategy that uses the seeds it has seen. -/
def exStrategy : AStrategy 1 where
  msg := fun k σ τ => ⟨toW ((k : Fp) + (σ.map (fun s => s 0)).sum + τ.sum), (toW σ.length, toW τ.sum)⟩
  fin := fun σ τ => ⟨(toW (σ.map (fun s => s 0)).sum, 3), (toW τ.sum, 4), 5⟩

open Classical in
/-- C85: three multiplications and three statements, two checks of each kind: error `10 / p`. -/
example : (Finset.univ.filter (Cheated (B := 2) (Q := 2) exEnvA.view (fun x => keyWord (toW x)) exProgA exStrategy)).card ≤
    10 * (pN ^ 1) ^ 2 * pN ^ 2 :=
  C85_one_thread exStrategy exEnvA.view (fun x => keyWord (toW x)) (fun x => by rw [low64_keyWord, fp_toW]) exProgA exProgA_canon
    (fun _ _ _ => canon_toW _) rfl (by decide) (by decide) (by decide)

/-- A prover that claims `1 = 0` and guesses `Delta = 5`. -/
def exGuess : AStrategy 1 where
  msg := fun _ _ _ => ⟨0, 0, 0⟩
  fin := fun _ _ => ⟨0, 0, exEnvA.hash [6]⟩

/-- C85: the prover can cheat, with a right guess. -/
example (σ : Fin 0 → Fin 1 → Fp) (τ : Fin 0 → Fp) :
    Cheated exEnvA.view (fun x => keyWord (toW x)) [.pub 1, .revealZero 0] exGuess ((σ, τ), fp 5) := by
  have ho : ∀ o ∈ ([.pub 1, .revealZero 0] : List AOp), o.CanonC := by
    intro o ho
    simp only [List.mem_cons, List.not_mem_nil, or_false] at ho
    rcases ho with rfl | rfl
    · show Canon 1; decide
    · trivial
  have hm : ∀ m ∈ gameMsgs exGuess exEnvA.view [.pub 1, .revealZero 0] σ τ, m.CanonM := by
    intro m hmm
    simp only [gameMsgs, AStrategy.msgs, List.mem_map] at hmm
    obtain ⟨k, _, rfl⟩ := hmm
    show Canon 0; decide
  have hc : acomSession (exEnvA.view.seeded (fun x => keyWord (toW x)) σ τ) [.pub 1, .revealZero 0]
      (gameMsgs exGuess exEnvA.view [.pub 1, .revealZero 0] σ τ) (exGuess.fin (List.ofFn σ) (List.ofFn τ)) =
      some { ACom.init with wires := [(fp 1, fp 11)], opened := [((fp 1, fp 11), 0)] } := rfl
  have himg := fun d => averSession_img (exEnvA.view.seeded (fun x => keyWord (toW x)) σ τ) d [.pub 1, .revealZero 0] ho _ hm
    (exGuess.fin (List.ofFn σ) (List.ofFn τ))
  constructor
  · intro d1 d2 V1 V2 h1 h2 hh
    have hs : ∀ d V, AcceptsGame exEnvA.view (fun x => keyWord (toW x)) [.pub 1, .revealZero 0] exGuess σ τ d V → ∃ w, V.stored = [w] := by
      intro d V h
      obtain ⟨ab, ch, k⟩ := himg d
      rw [hc, Option.map_some] at k
      have := Option.some.inj (h.1.symm.trans k)
      exact ⟨_, by rw [this]; rfl⟩
    obtain ⟨w1, e1⟩ := hs d1 V1 h1
    obtain ⟨w2, e2⟩ := hs d2 V2 h2
    rw [e1, e2] at hh ⊢
    have hh : BitVec.ofNat 256 (1 * 2 ^ 64 + w1.toNat) = BitVec.ofNat 256 (1 * 2 ^ 64 + w2.toNat) := hh
    have h3 := congrArg BitVec.toNat hh
    simp only [BitVec.toNat_ofNat] at h3
    have := w1.isLt
    have := w2.isLt
    rw [Nat.mod_eq_of_lt (by omega), Nat.mod_eq_of_lt (by omega)] at h3
    rw [BitVec.eq_of_toNat_eq (show w1.toNat = w2.toNat by omega)]
  · obtain ⟨ab, ch, k⟩ := himg (fp 5)
    rw [hc, Option.map_some] at k
    refine ⟨_, ⟨k, ?_⟩, ?_⟩
    · have e : ((averSession ((exEnvA.view.seeded (fun x => keyWord (toW x)) σ τ).env (fp 5)) [.pub 1, .revealZero 0]
        (gameMsgs exGuess exEnvA.view [.pub 1, .revealZero 0] σ τ) (exGuess.fin (List.ofFn σ) (List.ofFn τ))).map AVer.accepted) = some true := by
        have : σ = fun i => i.elim0 := funext fun i => i.elim0
        subst this
        have : τ = fun i => i.elim0 := funext fun i => i.elim0
        subst this
        decide +kernel
      rw [k] at e
      exact Option.some.inj e
    · rintro ⟨ops', pl, h1, _, h3, h4, _⟩
      cases h1 with
      | cons a1 r1 => cases r1 with
        | cons a2 r2 => cases r2 with
          | nil =>
            have q1 : AOp.pub 1 = _ := a1
            have q2 : AOp.revealZero 0 = _ := a2
            subst q1; subst q2
            have h5 : aplainRun [.pub 1, .revealZero 0] = some ⟨[fp 1], [], [fp 1]⟩ := rfl
            rw [h5, Option.some.injEq] at h3
            subst h3
            have := congrArg toW (h4 (fp 1) (by simp))
            revert this
            decide +kernel

end EmpZk
