/-
The cheating prover of `Verif.Spec.ConvCheat` and the verifier in lock step.
-/
import Verif.Spec.ConvCheat
import Verif.Lemmas.ConvProg
import Verif.Props.Convert

namespace EmpZk

/-- The public integer `x + r + p` minus `r` is `x - 2`. -/
theorem f2Diff_plus_p {s w : W} (hs : Canon s) {X R : Nat} (e : s.toNat = X + R) (hR : w.toNat = R) (hX : 2 ≤ X) (hlt : X + R < pN) :
    (f2Diff ((s + PR).setWidth 62) (w.setWidth 62)).toNat = X - 2 := by
  have h1 : (s + PR).toNat = X + R + pN := by
    rw [BitVec.toNat_add, e, show PR.toNat = pN from by decide]
    exact Nat.mod_eq_of_lt (by simp only [pN] at *; omega)
  have h2 : (w.setWidth 62).toNat = R := by
    rw [BitVec.toNat_setWidth, hR]
    exact Nat.mod_eq_of_lt (by simp only [pN] at *; omega)
  rw [f2Diff_toNat, h2, BitVec.toNat_setWidth, h1]
  simp only [pN] at *
  have h3 : (2 ^ 62 - R + (X + R + 2305843009213693951) % 2 ^ 62) % 2 ^ 62 = X + 2305843009213693951 := by omega
  rw [h3, if_pos (by omega)]
  omega

section
variable {F : Type} [Field F] [BlockField F] [DecidableEq F] {ce : ConvEnv F} {S : Nat}

theorem lock_cheatRound (hs : ce.ne.Sane) (hg : ce.Good) (hl : ce.Lucky) (hd : 2 * (fp ce.base.delta).val ≤ pN) {x x' : U128}
    (hx : Auth ce.base.delta x x') (h2 : 2 ≤ (high64 x).toNat) (hsm : ∀ k, ∀ M ∈ ce.candA k, (high64 x).toNat + (high64 M).toNat < pN)
    {P : CPrv F} {V : CVer F} {cp : CPlain} (h : CRel ce P V cp) :
    Lock S (cheatRoundS ce P x) (a2bRoundR ce false V [x']) (fun r r' => CRel ce r.1 r'.1 (useEda ce 1 cp) ∧
      r'.2 = r.2.map (List.map (keyOf ce.ne.e.delta)) ∧ r.2.flatten.map lsb = bitsFp (fp (high64 x) - 2)) := by
  have hsum : Lock S (a2bSumS ce P [x]) (a2bSumR ce V [x']) (fun r r' => CRel ce r.1 r'.1 (takeEda ce 1 cp) ∧
      ∃ M K ls, r.2 = [(intfpAddA M x, ls)] ∧ r'.2 = [(intfpAddB K x', ls.map (keyOf ce.ne.e.delta))] ∧ Auth ce.base.delta M K ∧
        IntLab ((high64 M).setWidth 62) ls ∧ (high64 x).toNat + (high64 M).toNat < pN) := by
    simp only [a2bSumS, a2bSumR]
    refine Lock.bind (lock_next hs hg hl h) ?_
    rintro ⟨P1, ls, i⟩ ⟨V1, ls', i'⟩ ⟨k1, k2, k3, ⟨M, K, k4, k5, k6, k7⟩, k8⟩
    simp only at k1 k2 k3 k4 k5 k7 k8
    subst k2 k3
    rw [bitsW_eq] at k7
    simp only [k4, k5, SProg.ofOpt, RProg.ofOpt, SProg.bind, RProg.bind]
    refine Lock.pure ⟨k1, M, K, ls, rfl, rfl, k6, k7, hsm (P1.eda.ext - 1) M ?_⟩
    rw [← k1.fpA]
    exact List.mem_of_getElem? k4
  unfold cheatRoundS a2bRoundR
  refine Lock.bind hsum ?_
  rintro ⟨P1, ds⟩ ⟨V1, ds'⟩ ⟨k1, M, K, ls, e1, e2, hM, hls, hlt⟩
  simp only at k1 e1 e2
  subst e1 e2
  simp only
  have ha := auth_intfpAdd hM hx
  refine Lock.sendC (by rw [encWs_length]; rfl) ?_
  have hlen : ([(intfpAddB K x', ls.map (keyOf ce.ne.e.delta))] : List (U128 × List F)).length =
    (([(intfpAddA M x, ls)] : List (U128 × List F)).map (fun q => high64 q.1 + PR)).length := rfl
  rw [hlen, decWs_encWs]
  simp only [List.map_cons, List.map_nil, List.zipWith_cons_cons, List.zipWith_nil_left, Bool.false_eq_true, if_false]
  have hopen : openWord ce.base.delta (high64 (intfpAddA M x) + PR) (intfpAddB K x') = low64 (intfpAddA M x) := by
    have h1 := openWord_eq hg.env.delta ha
    have hdl : toW (fp ce.base.delta) = ce.base.delta := toW_fp hg.env.delta
    have h3 := multMod_plus_p (fp (high64 (intfpAddA M x))) (fp ce.base.delta) hd
    rw [toW_fp ha.value, hdl] at h3
    rw [openWord, h3, ← h1]
    congr 1
    refine fp_inj (canon_toW _) (canon_multMod ha.value hg.env.delta) ?_
    rw [fp_toW]
    exact (fp_multMod ha.value hg.env.delta).symm
  rw [hopen]
  have hval : (high64 (intfpAddA M x)).toNat = (high64 x).toNat + (high64 M).toNat := by
    rw [intfpAddA, high64_makeBlock]
    have hc := canon_addMod hM.value hx.value
    have hf := fp_addMod_canon hM.value hx.value
    have : (fp (addMod (high64 M) (high64 x))).val = (fp (high64 M) + fp (high64 x)).val := by rw [hf]
    rw [canon_val hc, ZMod.val_add_of_lt (by rw [canon_val hM.value, canon_val hx.value]; omega), canon_val hM.value, canon_val hx.value] at this
    omega
  have hdiff := f2Diff_plus_p ha.value hval rfl h2 hlt
  obtain ⟨o, hb⟩ := k1.b
  have hout := lock_a2bOut (S := S) hs hg.diff (X := [f2Diff ((high64 (intfpAddA M x) + PR).setWidth 62) ((high64 M).setWidth 62)])
    (ds := [(high64 (intfpAddA M x) + PR, ls)]) (.cons ⟨_, hls, rfl⟩ .nil) hb k1.bg
  simp only [List.map_cons, List.map_nil] at hout
  refine Lock.bind hout ?_
  rintro r r' ⟨m1, m2, m3, m4⟩
  refine Lock.pure ⟨?_, m3, ?_⟩
  · have hk' := k1.setB ⟨o, m1⟩ m2
    rw [useEda_eq]
    refine ⟨hk'.b, hk'.a, hk'.bg, hk'.ag, hk'.eda, hk'.inv, hk'.pos, hk'.num, hk'.fpA, hk'.fpB, ?_, hk'.outs, hk'.cand⟩
    simp only
    rw [k1.hashed]
  · obtain ⟨R1, R2⟩ := r
    simp only at m4 ⊢
    cases m4 with
    | @cons a l t t' hl1 hl2 =>
      cases hl2
      rw [List.flatten_cons, List.flatten_nil, List.append_nil, hl1]
      unfold bitsFp
      congr 1
      refine BitVec.eq_of_toNat_eq ?_
      rw [hdiff, BitVec.toNat_ofNat]
      have hv : (fp (high64 x) - 2).val = (high64 x).toNat - 2 := by
        have h22 : (2 : Fp).val = 2 := by decide +kernel
        rw [ZMod.val_sub (by rw [canon_val hx.value, h22]; exact h2), canon_val hx.value, h22]
      have := hx.value
      unfold Canon at this
      rw [hv]
      refine (Nat.mod_eq_of_lt ?_).symm
      simp only [pN] at *
      omega

/-- The whole cheating prover in lock step with the verifier. -/
theorem lock_cheat (hs : ce.ne.Sane) (ha : ce.env.Sane) (hg : ce.Good) (hl : ce.Lucky) (hd : 2 * (fp ce.base.delta).val ≤ pN)
    {ops1 ops2 : List COp} {i : Nat} (hc1 : ∀ o ∈ ops1, o.CanonC) (hc2 : ∀ o ∈ ops2, o.CanonC) {cp1 cp : CPlain} {x : Fp}
    (ho1 : cplainRun ce ops1 = some cp1) (hx : cp1.a.wires[i]? = some x) (h2 : 2 ≤ x.val)
    (hsm : ∀ k, ∀ M ∈ ce.candA k, x.val + (high64 M).toNat < pN)
    (ho : cheatRun ce ops1 i ops2 = some cp) (hcb : ∀ b ∈ cp.b.claims, b = false) (hca : ∀ x ∈ cp.a.claims, x = 0)
    (hand : lastBatch cp.ands ce.ne.e.checkSz = 0 ∨ ce.ne.e.threads ≤ lastBatch cp.ands ce.ne.e.checkSz)
    (hmul : lastBatch cp.muls ce.base.checkSz = 0 ∨ (mulTasks (lastBatch cp.muls ce.base.checkSz) ce.base.threads).isSome) :
    Lock S ((rcotS ce.ne 0 1).bind (fun _ => (extAS ce 0 0).bind (fun _ => (SProg.calls (ce.edP 0 1)).bind (fun _ =>
      (copsS ce ⟨PrvSt.init, APrv.init, edaInit, [], ce.candA 0, [], []⟩ ops1).bind (fun s =>
        (cheatS ce s i).bind (fun s1 => (copsS ce s1 ops2).bind (fun s2 => cfinS ce s2)))))))
      (convR ce (ops1 ++ .a2b i :: ops2)) (CEnd ce cp) := by
  unfold convR
  have happ : ∀ (l1 l2 : List COp) (s : CVer F), copsR ce s (l1 ++ l2) = (copsR ce s l1).bind (fun s1 => copsR ce s1 l2) := by
    intro l1
    induction l1 with
    | nil => intro l2 s; rfl
    | cons o l1 ih =>
      intro l2 s
      simp only [List.cons_append, copsR, RProg.bind_assoc]
      congr 1
      funext s1
      exact ih l2 s1
  rw [happ]
  simp only [copsR, RProg.bind_assoc]
  refine Lock.bind (lock_rcot hg.ne 0 1) (fun _ _ _ => ?_)
  refine Lock.bind (lock_extA hg 0 0) ?_
  intro _ _ _
  refine Lock.bind (Lock.calls (hg.ed 0 1)) ?_
  intro _ _ _
  have h0 : CRel ce ⟨PrvSt.init, APrv.init, edaInit, [], ce.candA 0, [], []⟩ ⟨VerSt.init, AVer.init, edaInit, [], ce.candB 0, [], []⟩
      ⟨⟨[], [], []⟩, ⟨[], [], []⟩, 0, 0, 0⟩ :=
    ⟨⟨[], BRel.init _⟩, ARel.init _, rfl, rfl, rfl, edaInit_inv _ _, edaInit_pos _ _, rfl, rfl, rfl, rfl, ⟨rfl, rfl⟩, fun h => absurd rfl h⟩
  refine Lock.bind (lock_cops hs ha hg hl ops1 h0 hc1 ho1) ?_
  intro P V h
  simp only [cheatRun, ho1, hx, Option.bind_eq_bind, Option.bind_some] at ho
  have hstep : Lock S (cheatS ce P i) (copR ce V (.a2b i)) (fun P' V' => CRel ce P' V'
      (useEda ce 1 { cp1 with b := { cp1.b with wires := cp1.b.wires ++ bitsFp (x - 2) } })) := by
    have hw : List.Forall₂ (Auth ce.base.delta) P.a.wires V.a.wires := by
      have := h.a.auth hg.env
      exact this
    have hpw := h.a.plainWires
    have h1 := hx
    rw [hpw] at h1
    have hi := (List.getElem?_eq_some_iff.1 h1).1
    rw [List.length_map] at hi
    obtain ⟨m, k, g1, g2, g3⟩ := Auth.get hw hi
    rw [List.getElem?_map, g1, Option.map_some, Option.some.injEq] at h1
    have hmv : (high64 m).toNat = x.val := by rw [← h1, canon_val g3.value]
    simp only [cheatS, copR, g1, g2, SProg.ofOpt, RProg.ofOpt, SProg.bind, RProg.bind]
    refine Lock.bind (lock_cheatRound hs hg hl hd g3 (by rw [hmv]; exact h2) (by rw [hmv]; exact hsm) h) ?_
    rintro ⟨P1, r⟩ ⟨V1, r'⟩ ⟨k1, k2, k3⟩
    simp only at k2 k3
    subst k2
    refine Lock.pure ?_
    rw [useEda_setB]
    have := k1.pushB k3
    rw [(useEda_a _ cp1).2, h1] at this
    exact this
  refine Lock.bind hstep ?_
  intro P V h
  refine Lock.bind (lock_cops hs ha hg hl ops2 h hc2 ho) ?_
  intro P V h
  unfold cfinS cfinR
  obtain ⟨o, hb⟩ := h.b
  refine Lock.bind (lock_bfin hs hb (by rw [h.bg]; exact hand) hcb) ?_
  rintro b v ⟨_, _, m3⟩
  unfold tripleS tripleR
  simp only [SProg.bind, RProg.bind]
  refine Lock.dataC (hg.dig _) (by decide) ?_
  rw [h.hashed, if_pos rfl]
  simp only [RProg.bind]
  rw [h.eda]
  refine Lock.bind (lock_afin hg ha _ h.a (by rw [h.ag]; exact hmul) hca) ?_
  rintro a a' ⟨n1, n2, n3, n4, n5⟩
  exact Lock.pure ⟨h.outs.1, h.outs.2, m3, n1, n2, n3, n4, n5⟩

end
end EmpZk
