/-
Property theorems C93: a boolean proof whose AND gates fit into one batch, against a prover that may try out challenges.

The seeds of the check are derived from a hash of what the prover has sent (emp-zk-bool/ostriple.h:144-151), so a prover can compute the
challenge of any string before it sends anything.
-/
import Verif.Lemmas.RomGame
import Verif.Props.LateInput

namespace EmpZk

section
variable {F : Type} [Field F] [BlockField F] [DecidableEq F] [Fintype F]

open Classical in
/-- C93. A program without polynomial statements whose `n` AND gates fit into one batch and are all covered by the split among the threads
(C10).  All strings hashed by the verifier's endpoint have the same length `L`.  Let the seeds of the check be a random function of the string.
A prover that evaluates this function at up to `Q` strings of its choice, one after the other, and then sends bytes of its choice, makes the
verifier accept outputs that no inputs produce — for functions and secrets for which the hash of the opened blocks does not collide — in at most
the fraction `((Q + 1) * n + 4) / |F|` of all cases (function, secret). -/
theorem C93_error (ne : NetEnv F) (v : BView F) (ops : List BOp) (S : Nat) (junk : List Byte)
    (hand : 0 < ops.countP BOp.isAnd) (hfit : ops.countP BOp.isAnd ≤ v.checkSz) (hpoly : ∀ p, BOp.poly p ∉ ops)
    (hcov : ops.countP BOp.isAnd % v.threads < ops.countP BOp.isAnd / v.threads) (hext : ∀ u n, rcvDigs (ne.extV u n) = 0) :
    ∃ L, (∀ W r rest, rcvRun S (rcvInit S junk) W (sessionCallsV (ne.at v 0) ops) = .ok (r, rest) → ∃ x, r.digests = [x] ∧ x.length = L) ∧
      ∀ (Q : Nat) (P : OTree (Str L) (Fin v.threads → F) (List Byte)), P.Asks Q →
        (Finset.univ.filter (fun q => RomCheats P ne v ops S junk q)).card * Fintype.card F ≤
          ((Q + 1) * ops.countP BOp.isAnd + 4) * Fintype.card ((Str L → Fin v.threads → F) × {d : F // lsb d = true}) := by
  have hone := one_digest (ne := ne.at v 0) (hasAnd hand) hfit hext
  have hdig : ∀ {W r rest}, rcvRun S (rcvInit S junk) W (sessionCallsV (ne.at v 0) ops) = .ok (r, rest) → ∃ x, r.digests = [x] := by
    intro W r rest hr
    obtain ⟨_, _, k3⟩ := rcvRun_counts _ hr
    rw [hone] at k3
    exact List.length_eq_one_iff.1 k3
  obtain ⟨L, hL⟩ : ∃ L, ∀ W r rest, rcvRun S (rcvInit S junk) W (sessionCallsV (ne.at v 0) ops) = .ok (r, rest) →
      ∃ x, r.digests = [x] ∧ x.length = L := by
    by_cases hex : ∃ W r rest, rcvRun S (rcvInit S junk) W (sessionCallsV (ne.at v 0) ops) = .ok (r, rest)
    · obtain ⟨W0, r0, rest0, h0⟩ := hex
      obtain ⟨x0, hx0⟩ := hdig h0
      refine ⟨x0.length, ?_⟩
      intro W r rest hr
      obtain ⟨x, hx⟩ := hdig hr
      have := rcvRun_shape _ hr h0 rfl rfl rfl
      rw [hx, hx0] at this
      exact ⟨x, hx, by simpa using this⟩
    · exact ⟨0, fun W r rest hr => absurd ⟨W, r, rest, hr⟩ hex⟩
  refine ⟨L, hL, ?_⟩
  intro Q P hQ
  have hT : 0 < v.threads := by
    rcases Nat.eq_zero_or_pos v.threads with h0 | h0
    · rw [h0] at hcov; simp at hcov
    · exact h0
  -- the string hashed when the bytes `W` are delivered
  let f : List Byte → Str L := fun W =>
    if h : ∃ x : Str L, ∃ r rest, rcvRun S (rcvInit S junk) W (sessionCallsV (ne.at v 0) ops) = .ok (r, rest) ∧ r.digests = [x.1] then h.choose
    else List.Vector.replicate L 0
  have hf : ∀ {W r rest}, rcvRun S (rcvInit S junk) W (sessionCallsV (ne.at v 0) ops) = .ok (r, rest) → r.digests = [(f W).1] := by
    intro W r rest hr
    obtain ⟨x, hx, hxl⟩ := hL W r rest hr
    have hex : ∃ x : Str L, ∃ r rest, rcvRun S (rcvInit S junk) W (sessionCallsV (ne.at v 0) ops) = .ok (r, rest) ∧ r.digests = [x.1] :=
      ⟨⟨x, hxl⟩, r, rest, hr, hx⟩
    obtain ⟨r', rest', hr', hx'⟩ := hex.choose_spec
    rw [hr] at hr'
    cases hr'
    have : f W = hex.choose := dif_pos hex
    rw [this]; exact hx'
  let bad : Str L → (Fin v.threads → F) → Prop := fun x s => BadAt ne v ops S junk x.1 s
  have hB := card_hit bad _ (fun x => card_badAt (ne := ne) (v := v) (ops := ops) (S := S) (junk := junk) hand hfit hpoly x.1) P Q hQ f
  have hfib := card_fibre_le (A := Str L → Fin v.threads → F) (B := {d : F // lsb d = true}) (fun H d => RomCheats P ne v ops S junk (H, d))
    (fun H => bad (f (P.run H)) (H (f (P.run H)))) _ 2 le_rfl (by
      intro H hgood D hD
      rcases D.eq_empty_or_nonempty with he | ⟨d0, hd0⟩
      · rw [he]; simp
      obtain ⟨_, V0, ⟨r, rest, hr, _, _⟩, _⟩ := hD d0 hd0
      have hcalls : ∀ d, sessionCallsV ((romNet ne H).at v d) ops = sessionCallsV (ne.at v 0) ops := by
        intro d
        rw [show (romNet ne H).at v d = (ne.at v d).ws (romNet ne H).seeds from rfl, sessionCallsV_ws, sessionCallsV_at]
      rw [hcalls] at hr
      have hacc : ∀ d V, Accepts (romNet ne H) v ops S junk (P.run H) d V ↔
          netSessionV ((romNet ne H).at v d) ops r.bits r.datas r.digests = some V ∧ cheated V.st = false := by
        intro d V
        constructor
        · rintro ⟨r', rest', h1, h2, h3⟩
          rw [hcalls, hr] at h1
          cases h1
          exact ⟨h2, h3⟩
        · rintro ⟨h2, h3⟩
          exact ⟨r, rest, by rw [hcalls]; exact hr, h2, h3⟩
      have hx := hf hr
      have hsd : (romNet ne H).seeds (f (P.run H)).1 = extendSeeds (H (f (P.run H))) := dif_pos (f (P.run H)).2
      rw [← Finset.card_map (Function.Embedding.subtype (fun d : F => lsb d = true))]
      refine rom_two (ne := ne) (v := v) (ops := ops) (S := S) (junk := junk) hand hfit hpoly hcov (romNet ne H).seeds hr hx hsd hgood _ ?_ ?_
      · intro d hd
        obtain ⟨d', hd', rfl⟩ := Finset.mem_map.1 hd
        obtain ⟨_, V, ha, himp⟩ := hD d' hd'
        obtain ⟨a1, a2⟩ := (hacc _ _).1 ha
        exact ⟨d'.2, V, a1, a2, himp⟩
      · intro d1 h1 d2 h2 V1 V2 e1 e2 hh
        obtain ⟨d1', hd1, rfl⟩ := Finset.mem_map.1 h1
        obtain ⟨d2', hd2, rfl⟩ := Finset.mem_map.1 h2
        obtain ⟨hcl, U1, ha1, _⟩ := hD d1' hd1
        obtain ⟨_, U2, ha2, _⟩ := hD d2' hd2
        have u1 : U1 = V1 := Option.some.inj (((hacc _ _).1 ha1).1.symm.trans e1)
        have u2 : U2 = V2 := Option.some.inj (((hacc _ _).1 ha2).1.symm.trans e2)
        subst u1; subst u2
        exact hcl d1'.1 d2'.1 U1 U2 d1'.2 d2'.2 ha1 ha2 hh)
  have hsec := card_secrets (F := F)
  rw [Fintype.card_prod]
  generalize Fintype.card {d : F // lsb d = true} = m at hfib hsec ⊢
  rw [show Fintype.card (Fin v.threads → F) = Fintype.card F ^ (v.threads - 1) * Fintype.card F by
    rw [Fintype.card_fun, Fintype.card_fin, ← pow_succ, Nat.sub_add_cancel hT]] at hB
  generalize hN : Fintype.card (Str L → Fin v.threads → F) = N at hB hfib ⊢
  generalize ops.countP BOp.isAnd = n at hB ⊢
  have hq : 0 < Fintype.card F ^ (v.threads - 1) := Nat.pow_pos Fintype.card_pos
  generalize Fintype.card F ^ (v.threads - 1) = w at hB hq
  generalize (Finset.univ.filter (fun H : Str L → Fin v.threads → F => bad (f (P.run H)) (H (f (P.run H))))).card = b at hB hfib
  have hb : b * Fintype.card F ≤ (Q + 1) * n * N := by
    refine Nat.le_of_mul_le_mul_left ?_ hq
    calc w * (b * Fintype.card F) = b * (w * Fintype.card F) := by ring
      _ ≤ (Q + 1) * (n * w) * N := hB
      _ = w * ((Q + 1) * n * N) := by ring
  calc _ ≤ (b * m + 2 * N) * Fintype.card F := Nat.mul_le_mul_right _ hfib
    _ = b * Fintype.card F * m + 2 * N * (m * 2) := by rw [hsec]; ring
    _ ≤ (Q + 1) * n * N * m + 2 * N * (m * 2) := Nat.add_le_add_right (Nat.mul_le_mul_right _ hb) _
    _ = ((Q + 1) * n + 4) * (N * m) := by ring

end

theorem rom_arith (a N : Nat) (h : a * 2 ^ 128 ≤ ((2 ^ 60 + 1) * 2 + 4) * N) : a * 2 ^ 66 ≤ N := by
  refine Nat.le_of_mul_le_mul_left (c := 2 ^ 62) ?_ (by norm_num)
  calc 2 ^ 62 * (a * 2 ^ 66) = a * 2 ^ 128 := by ring
    _ ≤ ((2 ^ 60 + 1) * 2 + 4) * N := h
    _ ≤ 2 ^ 62 * N := Nat.mul_le_mul_right _ (by norm_num)

/-- Two inputs, their conjunction and its negation combined, both opened. -/
def romProg : List BOp := [.input true, .input false, .and 0 1, .not 2, .and 3 0, .reveal 4, .reveal 2]

open Classical in
/-- C93_error: its hypotheses are met by `romProg` over the block field with two threads, and the honest prover is accepted; a prover which
evaluates the function at 2^60 strings cheats in less than the fraction 2^-66 of all cases. -/
example : (∃ W r rest V, rcvRun 32768 (rcvInit 32768 []) W (sessionCallsV (exNet.at { exEnv.view with checkSz := 4, threads := 2 } 1) romProg) = .ok (r, rest) ∧
      netSessionV (exNet.at { exEnv.view with checkSz := 4, threads := 2 } 1) romProg r.bits r.datas r.digests = some V ∧ cheated V.st = false) ∧
    ∃ L, ∀ (P : OTree (Str L) (Fin 2 → GF128) (List Byte)), P.Asks (2 ^ 60) →
      (Finset.univ.filter (fun q => RomCheats P exNet { exEnv.view with checkSz := 4, threads := 2 } romProg 32768 [] q)).card * 2 ^ 66 ≤
        Fintype.card ((Str L → Fin 2 → GF128) × {d : GF128 // lsb d = true}) := by
  constructor
  · have hg : ∀ d, lsb d = true → (exNet.at { exEnv.view with checkSz := 4, threads := 2 } d).Good := fun d hd =>
      { exNet_good with e := ⟨hd, fun n => lsb_keyOf hd _⟩ }
    have h1 := hg 1 lsb_one
    have := (C76_completes (exNet.at { exEnv.view with checkSz := 4, threads := 2 } 1) h1 (by decide) (by decide) (by decide) 32768 romProg).2
      ⟨by decide, Or.inr (by decide)⟩
    obtain ⟨P, h⟩ := Option.isSome_iff_exists.1 this
    obtain ⟨c, hr, e1, e2⟩ := C76_finishes _ h1 (S := 32768) (by decide) romProg P h (junk := []) .init
    rw [netSessionP_at, sessionCallsV_at] at h
    rw [sessionCallsV_at] at hr
    obtain ⟨pl, hpl, hon⟩ := C77_honest exNet _ hg (by decide) romProg P h hr e1 e2
    obtain ⟨c', a1, _, a2, a3⟩ := C77_sender hr
    obtain ⟨V, k1, _, _, k2⟩ := hon 1 lsb_one
    obtain ⟨dn, W, b1, b2⟩ := reachAdv_run a1
    rw [a3, e2, List.append_nil] at b1
    have hrops : sessionCallsV (exNet.at { exEnv.view with checkSz := 4, threads := 2 } 0) romProg = dn := b1
    subst hrops
    rw [a2] at b2
    refine ⟨W, c.rcv, _, V, by rw [sessionCallsV_at]; exact b2, k1, k2 ?_⟩
    have : pl = ⟨[true, false, false, true, true], [true, false], []⟩ := Option.some.inj (hpl.symm.trans (by decide))
    rw [this]; intro b hb; cases hb
  · obtain ⟨L, _, h⟩ := C93_error exNet { exEnv.view with checkSz := 4, threads := 2 } romProg 32768 [] (by decide) (by decide)
      (by intro p; simp [romProg]) (by decide) (by intro u n; show rcvDigs (if u % 5 = 0 then _ else _) = 0; split <;> rfl)
    refine ⟨L, ?_⟩
    intro P hP
    have := h (2 ^ 60) P hP
    rw [GF128.card, show romProg.countP BOp.isAnd = 2 from rfl] at this
    exact rom_arith _ _ this

end EmpZk
