/-
The boolean protocol hides the inputs: lemmas.
-/
import Verif.Spec.BoolSim
import Verif.Lemmas.BoolExtract

namespace EmpZk

section
variable {F : Type} [Field F] [PackField F]

theorem packBits_congr {u u' : Nat → Bool} {n : Nat} (h : ∀ i, i < 128 → u (n + i) = u' (n + i)) :
    (packBits u n : F) = packBits u' n := by
  unfold packBits
  exact Finset.sum_congr rfl (fun i _ => by rw [h i i.2])

theorem packBits_inj {u u' : Nat → Bool} {n : Nat} (h : (packBits u n : F) = packBits u' n) :
    ∀ i, i < 128 → u (n + i) = u' (n + i) := by
  intro i hi
  have := PackField.pack_bijective (F := F).1 (a₁ := fun i : Fin 128 => u (n + i)) (a₂ := fun i : Fin 128 => u' (n + i)) h
  exact congrFun this ⟨i, hi⟩

theorem packBits_surj (a : F) (n : Nat) : ∃ u0 : Nat → Bool, packBits u0 n = a := by
  obtain ⟨b, hb⟩ := PackField.pack_bijective (F := F).2 a
  refine ⟨fun k => if h : n ≤ k ∧ k - n < 128 then b ⟨k - n, h.2⟩ else false, ?_⟩
  rw [← hb]
  unfold packBits
  apply Finset.sum_congr rfl
  intro i _
  have : n ≤ n + (i : Nat) ∧ n + (i : Nat) - n < 128 := ⟨by omega, by omega⟩
  simp only [dif_pos this]
  congr 3
  apply Fin.ext
  simp

theorem packLsbs_mac {e : BEnv F} (he : e.Good) (n : Nat) :
    packLsbs (fun i => e.mac (n + i)) = packBits e.choice n := by
  unfold packLsbs packBits
  exact Finset.sum_congr rfl (fun i _ => by rw [he.choice_eq])

/-! ### messages determine the correlation bits -/

theorem BEnv.Good.withChoice {e : BEnv F} (he : e.Good) (c : Nat → Bool) : (e.withChoice c).Good :=
  ⟨he.lsb_delta, he.lsb_key⟩

omit [PackField F] in
theorem mac_congr {e : BEnv F} {c1 c2 : Nat → Bool} {n : Nat} (h : c1 n = c2 n) :
    (e.withChoice c1).mac n = (e.withChoice c2).mac n := by
  simp only [BEnv.mac, BEnv.withChoice, h]

theorem prvAndCheck_inj {e : BEnv F} (he : e.Good) {c1 c2 : Nat → Bool} {s : PrvSt F} {q1 q2 : PrvSt F × (F × F)}
    (h1 : prvAndCheck (e.withChoice c1) s = some q1) (h2 : prvAndCheck (e.withChoice c2) s = some q2)
    (hq : q1.2 = q2.2) : q1 = q2 ∧ q1.1.used = s.used + 128 ∧ ∀ n, s.used ≤ n → n < s.used + 128 → c1 n = c2 n := by
  have e1 : (e.withChoice c1).threads = e.threads := rfl
  have e2 : (e.withChoice c2).threads = e.threads := rfl
  simp only [prvAndCheck, andCheckPrv, e1, e2] at h1 h2
  cases hs : splitTasks s.gates.length e.threads with
  | none => rw [hs] at h1; simp at h1
  | some tasks =>
    rw [hs] at h1 h2
    simp only [Option.some.injEq] at h1 h2
    subst h1; subst h2
    refine ⟨Prod.ext rfl hq, rfl, ?_⟩
    have := congrArg Prod.snd hq
    simp only at this
    have hp : packLsbs (fun i => (e.withChoice c1).mac (s.used + i)) = packLsbs (fun i => (e.withChoice c2).mac (s.used + i)) :=
      add_right_cancel this
    rw [packLsbs_mac (he.withChoice c1), packLsbs_mac (he.withChoice c2)] at hp
    intro n hn hn'
    have := packBits_inj hp (n - s.used) (by omega)
    rw [Nat.add_sub_cancel' hn] at this
    exact this

theorem prvPolyCheck_inj {e : BEnv F} (he : e.Good) {c1 c2 : Nat → Bool} {s : PrvSt F}
    (hq : (prvPolyCheck (e.withChoice c1) s).2 = (prvPolyCheck (e.withChoice c2) s).2) :
    prvPolyCheck (e.withChoice c1) s = prvPolyCheck (e.withChoice c2) s ∧
      (prvPolyCheck (e.withChoice c1) s).1.used = s.used + 128 ∧
      ∀ n, s.used ≤ n → n < s.used + 128 → c1 n = c2 n := by
  refine ⟨Prod.ext rfl hq, rfl, ?_⟩
  have := congrArg Prod.snd hq
  simp only [prvPolyCheck, polyCheckPrv] at this
  have hp : packLsbs (fun i => (e.withChoice c1).mac (s.used + i)) = packLsbs (fun i => (e.withChoice c2).mac (s.used + i)) :=
    add_left_cancel this
  rw [packLsbs_mac (he.withChoice c1), packLsbs_mac (he.withChoice c2)] at hp
  intro n hn hn'
  have := packBits_inj hp (n - s.used) (by omega)
  rw [Nat.add_sub_cancel' hn] at this
  exact this

theorem prvAndRoom_inj {e : BEnv F} (he : e.Good) {c1 c2 : Nat → Bool} {s : PrvSt F} {q1 q2 : PrvSt F × (F × F)}
    (h1 : prvAndRoom (e.withChoice c1) s = some q1) (h2 : prvAndRoom (e.withChoice c2) s = some q2)
    (hq : q1.2 = q2.2) :
    q1 = q2 ∧ s.used ≤ q1.1.used ∧ q1.1.used ≤ s.used + 128 ∧ ∀ n, s.used ≤ n → n < q1.1.used → c1 n = c2 n := by
  have e1 : (e.withChoice c1).checkSz = e.checkSz := rfl
  have e2 : (e.withChoice c2).checkSz = e.checkSz := rfl
  unfold prvAndRoom at h1 h2
  rw [e1] at h1
  rw [e2] at h2
  split at h1
  · rename_i hf
    rw [if_pos hf] at h2
    obtain ⟨k1, k2, k3⟩ := prvAndCheck_inj he h1 h2 hq
    exact ⟨k1, by omega, by omega, by rw [k2]; exact k3⟩
  · rename_i hf
    rw [if_neg hf] at h2
    simp only [Option.some.injEq] at h1 h2
    subst h1; subst h2
    exact ⟨rfl, by simp, by simp, fun n h h' => absurd h' (by simp; omega)⟩

theorem prvPolyRoom_inj {e : BEnv F} (he : e.Good) {c1 c2 : Nat → Bool} {s : PrvSt F}
    (hq : (prvPolyRoom (e.withChoice c1) s).2 = (prvPolyRoom (e.withChoice c2) s).2) :
    prvPolyRoom (e.withChoice c1) s = prvPolyRoom (e.withChoice c2) s ∧
      s.used ≤ (prvPolyRoom (e.withChoice c1) s).1.used ∧ (prvPolyRoom (e.withChoice c1) s).1.used ≤ s.used + 128 ∧
      ∀ n, s.used ≤ n → n < (prvPolyRoom (e.withChoice c1) s).1.used → c1 n = c2 n := by
  have e1 : (e.withChoice c1).polySz = e.polySz := rfl
  have e2 : (e.withChoice c2).polySz = e.polySz := rfl
  unfold prvPolyRoom at hq ⊢
  rw [e1, e2] at hq ⊢
  split at hq
  · rename_i hf
    rw [if_pos hf, if_pos hf]
    obtain ⟨k1, k2, k3⟩ := prvPolyCheck_inj he hq
    exact ⟨k1, by omega, by omega, by rw [k2]; exact k3⟩
  · rename_i hf
    rw [if_neg hf, if_neg hf]
    exact ⟨rfl, by simp, by simp, fun n h h' => absurd h' (by simp; omega)⟩

theorem lsb_mac_withChoice {e : BEnv F} (he : e.Good) (c : Nat → Bool) (n : Nat) :
    lsb ((e.withChoice c).mac n) = c n := ((he.withChoice c).choice_eq n).symm

theorem prvStep_inj {e : BEnv F} (he : e.Good) {c1 c2 : Nat → Bool} {s : PrvSt F} {o : BOp}
    {q1 q2 : PrvSt F × BMsg F}
    (h1 : prvStep (e.withChoice c1) s o = some q1) (h2 : prvStep (e.withChoice c2) s o = some q2)
    (hq : q1.2 = q2.2) :
    q1 = q2 ∧ s.used ≤ q1.1.used ∧ q1.1.used ≤ s.used + 129 ∧ ∀ n, s.used ≤ n → n < q1.1.used → c1 n = c2 n := by
  cases o with
  | input b =>
    simp only [prvStep, Option.some.injEq] at h1 h2
    subst h1; subst h2
    simp only [BMsg.mk.injEq, and_true] at hq
    have hc : c1 s.used = c2 s.used := by
      simp only [inputPrv, lsb_mac_withChoice he] at hq
      exact (Bool.xor_left_inj).mp hq
    refine ⟨?_, by simp, by simp, ?_⟩
    · rw [mac_congr hc]
    · intro n h h'
      simp only at h'
      have : n = s.used := by omega
      rw [this]; exact hc
  | pub b =>
    simp only [prvStep, Option.some.injEq] at h1 h2
    subst h1; subst h2
    exact ⟨rfl, by simp, by simp, fun n h h' => absurd h' (by simp; omega)⟩
  | xor i j =>
    simp only [prvStep] at h1 h2
    rw [h1] at h2
    simp only [Option.some.injEq] at h2
    subst h2
    simp only [Option.bind_eq_bind, Option.bind_eq_some_iff, Option.some.injEq] at h1
    obtain ⟨a, ha, b, hb, rfl⟩ := h1
    exact ⟨rfl, by simp, by simp, fun n h h' => absurd h' (by simp; omega)⟩
  | not i =>
    simp only [prvStep] at h1 h2
    rw [h1] at h2
    simp only [Option.some.injEq] at h2
    subst h2
    simp only [Option.bind_eq_bind, Option.bind_eq_some_iff, Option.some.injEq] at h1
    obtain ⟨a, ha, rfl⟩ := h1
    exact ⟨rfl, by simp, by simp, fun n h h' => absurd h' (by simp; omega)⟩
  | reveal i =>
    simp only [prvStep] at h1 h2
    rw [h1] at h2
    simp only [Option.some.injEq] at h2
    subst h2
    simp only [Option.bind_eq_bind, Option.bind_eq_some_iff, Option.some.injEq] at h1
    obtain ⟨a, ha, rfl⟩ := h1
    exact ⟨rfl, by simp, by simp, fun n h h' => absurd h' (by simp; omega)⟩
  | and i j =>
    simp only [prvStep, Option.bind_eq_bind, Option.bind_eq_some_iff, Option.some.injEq] at h1 h2
    obtain ⟨a, ha, b, hb, r, hr, p, hp, rfl⟩ := h1
    obtain ⟨a', ha', b', hb', r', hr', p', hp', rfl⟩ := h2
    rw [ha] at ha'; rw [hb] at hb'
    simp only [Option.some.injEq] at ha' hb'
    subst ha'; subst hb'
    simp only [BMsg.mk.injEq] at hq
    obtain ⟨k1, k2, k3, k4⟩ := prvAndRoom_inj he hr hr' hq.2
    subst k1
    have e1 : (e.withChoice c1).checkSz = e.checkSz := rfl
    have e2 : (e.withChoice c2).checkSz = e.checkSz := rfl
    unfold prvAndPush at hp hp'
    rw [e1] at hp
    rw [e2] at hp'
    split at hp
    · rename_i hlt
      rw [if_pos hlt] at hp'
      simp only [Option.some.injEq] at hp hp'
      subst hp; subst hp'
      have hc : c1 r.1.used = c2 r.1.used := by
        have := hq.1
        simp only [andPrv, lsb_mac_withChoice he] at this
        exact (Bool.xor_right_inj).mp this
      refine ⟨?_, by simp; omega, by simp; omega, ?_⟩
      · rw [mac_congr hc]
      · intro n h h'
        simp only at h'
        by_cases hn : n < r.1.used
        · exact k4 n h hn
        · have : n = r.1.used := by omega
          rw [this]; exact hc
    · simp at hp
  | poly st =>
    simp only [prvStep, Option.bind_eq_bind, Option.bind_eq_some_iff, Option.some.injEq] at h1 h2
    obtain ⟨p, hp, q, hq1, rfl⟩ := h1
    obtain ⟨p', hp', q', hq1', rfl⟩ := h2
    rw [hp] at hp'
    simp only [Option.some.injEq] at hp'
    subst hp'
    simp only [BMsg.mk.injEq, true_and] at hq
    obtain ⟨k1, k2, k3, k4⟩ := prvPolyRoom_inj he hq
    have e1 : (e.withChoice c1).polySz = e.polySz := rfl
    have e2 : (e.withChoice c2).polySz = e.polySz := rfl
    unfold prvPolyPush at hq1 hq1'
    rw [e1] at hq1
    rw [e2, ← k1] at hq1'
    split at hq1
    · rename_i hlt
      rw [if_pos hlt] at hq1'
      simp only [Option.some.injEq] at hq1 hq1'
      subst hq1; subst hq1'
      refine ⟨?_, by simpa using k2, by simp; omega, k4⟩
      rw [hq]
    · simp at hq1

theorem prvRun_inj {e : BEnv F} (he : e.Good) {c1 c2 : Nat → Bool} (ops : List BOp) :
    ∀ {s : PrvSt F} {q1 q2 : PrvSt F × List (BMsg F)},
    prvRun (e.withChoice c1) s ops = some q1 → prvRun (e.withChoice c2) s ops = some q2 → q1.2 = q2.2 →
    q1 = q2 ∧ s.used ≤ q1.1.used ∧ q1.1.used ≤ s.used + 129 * ops.length ∧
      ∀ n, s.used ≤ n → n < q1.1.used → c1 n = c2 n := by
  induction ops with
  | nil =>
    intro s q1 q2 h1 h2 _
    simp only [prvRun, Option.some.injEq] at h1 h2
    subst h1; subst h2
    exact ⟨rfl, by simp, by simp, fun n h h' => absurd h' (by simp; omega)⟩
  | cons o os ih =>
    intro s q1 q2 h1 h2 hq
    simp only [prvRun, Option.bind_eq_bind, Option.bind_eq_some_iff, Option.some.injEq] at h1 h2
    obtain ⟨r, hr, t, ht, rfl⟩ := h1
    obtain ⟨r', hr', t', ht', rfl⟩ := h2
    simp only [List.cons.injEq] at hq
    obtain ⟨k1, k2, k3, k4⟩ := prvStep_inj he hr hr' hq.1
    subst k1
    obtain ⟨l1, l2, l3, l4⟩ := ih ht ht' hq.2
    subst l1
    refine ⟨rfl, by simp; omega, by simp; omega, ?_⟩
    intro n h h'
    by_cases hn : n < r.1.used
    · exact k4 n h hn
    · exact l4 n (by omega) h'

theorem prvSession_inj {e : BEnv F} (he : e.Good) {c1 c2 : Nat → Bool} {ops : List BOp}
    {q1 q2 : PrvSt F × List (BMsg F) × BFin F}
    (h1 : prvSession (e.withChoice c1) ops = some q1) (h2 : prvSession (e.withChoice c2) ops = some q2)
    (hq : q1.2 = q2.2) :
    q1.1.used = q2.1.used ∧ q1.1.used ≤ 257 + 129 * ops.length ∧ ∀ n, 1 ≤ n → n < q1.1.used → c1 n = c2 n := by
  simp only [prvSession, prvFinalize, Option.bind_eq_bind, Option.bind_eq_some_iff, Option.some.injEq] at h1 h2
  obtain ⟨r, hr, t, ⟨p, hp, rfl⟩, rfl⟩ := h1
  obtain ⟨r', hr', t', ⟨p', hp', rfl⟩, rfl⟩ := h2
  simp only [Prod.mk.injEq, BFin.mk.injEq] at hq
  obtain ⟨hm, hpoly, hand, _⟩ := hq
  obtain ⟨k1, k2, k3, k4⟩ := prvRun_inj he ops hr hr' hm
  subst k1
  have hu : (PrvSt.init : PrvSt F).used = 1 := rfl
  rw [hu] at k2 k3 k4
  -- polynomial check
  have hP : prvFinPoly (e.withChoice c1) r.1 = prvFinPoly (e.withChoice c2) r.1 ∧
      r.1.used ≤ (prvFinPoly (e.withChoice c1) r.1).1.used ∧
      (prvFinPoly (e.withChoice c1) r.1).1.used ≤ r.1.used + 128 ∧
      ∀ n, r.1.used ≤ n → n < (prvFinPoly (e.withChoice c1) r.1).1.used → c1 n = c2 n := by
    unfold prvFinPoly at hpoly ⊢
    split at hpoly
    · rename_i hf
      rw [if_pos hf, if_pos hf]
      obtain ⟨k1, k2, k3⟩ := prvPolyCheck_inj he hpoly
      exact ⟨k1, by omega, by omega, by rw [k2]; exact k3⟩
    · rename_i hf
      rw [if_neg hf, if_neg hf]
      exact ⟨rfl, by simp, by simp, fun n h h' => absurd h' (by simp; omega)⟩
  obtain ⟨l1, l2, l3, l4⟩ := hP
  rw [← l1] at hp'
  generalize (prvFinPoly (e.withChoice c1) r.1).1 = s1 at *
  have hA : p = p' ∧ s1.used ≤ p.1.used ∧ p.1.used ≤ s1.used + 128 ∧
      ∀ n, s1.used ≤ n → n < p.1.used → c1 n = c2 n := by
    unfold prvFinAnd at hp hp'
    split at hp
    · rename_i hf
      rw [if_pos hf] at hp'
      obtain ⟨k1, k2, k3⟩ := prvAndCheck_inj he hp hp' hand
      exact ⟨k1, by omega, by omega, by rw [k2]; exact k3⟩
    · rename_i hf
      rw [if_neg hf] at hp'
      simp only [Option.some.injEq] at hp hp'
      subst hp; subst hp'
      exact ⟨rfl, by simp, by simp, fun n h h' => absurd h' (by simp; omega)⟩
  obtain ⟨m1, m2, m3, m4⟩ := hA
  refine ⟨by rw [m1], by simp; omega, ?_⟩
  intro n h h'
  by_cases g1 : n < r.1.used
  · exact k4 n h g1
  · by_cases g2 : n < s1.used
    · exact l4 n (by omega) g2
    · exact m4 n (by omega) h'

/-! ### the simulator reproduces every honest accepted session -/

section sim
variable [DecidableEq F]

omit [DecidableEq F] in
theorem simMsg_congr (e : BEnv F) {u u' : Nat → Bool} (outs : List Bool) (s : VerSt F) (o : BOp)
    (h : ∀ n, s.used ≤ n → n < s.used + 129 → u n = u' n) : simMsg e u outs s o = simMsg e u' outs s o := by
  have hp : (packBits u s.used : F) = packBits u' s.used :=
    packBits_congr (fun i hi => h _ (by omega) (by omega))
  cases o <;> simp only [simMsg, simAnd, simPoly, hp, h s.used (by omega) (by omega),
    h (s.used + 128) (by omega) (by omega)]

theorem cheats_verAndCheck {e : BEnv F} {s s' : VerSt F} {ans : F × F} (h : verAndCheck e s ans = some s')
    (h' : s'.cheats = []) :
    s.cheats = [] ∧ andCheckVer e.delta s.gates e.threads (e.chal s.andBatches s.transcript)
      (fun i => e.key (s.used + i)) ans = some true := by
  unfold verAndCheck at h
  split at h
  · simp at h
  · rename_i ok hok
    simp only [Option.some.injEq] at h
    subst h
    simp only at h'
    cases ok
    · simp at h'
    · exact ⟨by simpa using h', hok⟩

theorem cheats_verPolyCheck {e : BEnv F} {s : VerSt F} {ans : F × F} (h' : (verPolyCheck e s ans).cheats = []) :
    s.cheats = [] ∧ polyCheckVer e.delta s.polys (e.polySeed s.polyBatches) (fun i => e.key (s.used + i)) ans = true := by
  unfold verPolyCheck at h'
  simp only at h'
  split at h'
  · rename_i h; exact ⟨h', h⟩
  · simp at h'

theorem cheats_verStep {e : BEnv F} {s s' : VerSt F} {m : BMsg F} {o : BOp} (h : verStep e s m o = some s')
    (h' : s'.cheats = []) : s.cheats = [] := by
  cases o with
  | input b => simp only [verStep, Option.some.injEq] at h; subst h; exact h'
  | pub b => simp only [verStep, Option.some.injEq] at h; subst h; exact h'
  | xor i j =>
    simp only [verStep, Option.bind_eq_bind, Option.bind_eq_some_iff, Option.some.injEq] at h
    obtain ⟨a, _, b, _, rfl⟩ := h; exact h'
  | not i =>
    simp only [verStep, Option.bind_eq_bind, Option.bind_eq_some_iff, Option.some.injEq] at h
    obtain ⟨a, _, rfl⟩ := h; exact h'
  | reveal i =>
    simp only [verStep, Option.bind_eq_bind, Option.bind_eq_some_iff, Option.some.injEq] at h
    obtain ⟨a, _, rfl⟩ := h; exact h'
  | and i j =>
    simp only [verStep, Option.bind_eq_bind, Option.bind_eq_some_iff] at h
    obtain ⟨a, _, b, _, r, hr, hp⟩ := h
    unfold verAndPush at hp
    split at hp
    · simp only [Option.some.injEq] at hp
      subst hp
      unfold verAndRoom at hr
      split at hr
      · exact (cheats_verAndCheck hr h').1
      · simp only [Option.some.injEq] at hr; subst hr; exact h'
    · simp at hp
  | poly st =>
    simp only [verStep, Option.bind_eq_bind, Option.bind_eq_some_iff] at h
    obtain ⟨p, _, hp⟩ := h
    unfold verPolyPush at hp
    split at hp
    · simp only [Option.some.injEq] at hp
      subst hp
      simp only at h'
      unfold verPolyRoom at h'
      split at h'
      · exact (cheats_verPolyCheck h').1
      · exact h'
    · simp at hp

theorem cheats_verRun {e : BEnv F} (ops : List BOp) : ∀ {s s' : VerSt F} {ms : List (BMsg F)},
    verRun e s ops ms = some s' → s'.cheats = [] → s.cheats = [] := by
  induction ops with
  | nil =>
    intro s s' ms h h'
    cases ms with
    | nil => simp only [verRun, Option.some.injEq] at h; subst h; exact h'
    | cons => simp [verRun] at h
  | cons o os ih =>
    intro s s' ms h h'
    cases ms with
    | nil => simp [verRun] at h
    | cons m ms =>
      simp only [verRun, Option.bind_eq_bind, Option.bind_eq_some_iff] at h
      obtain ⟨t, ht, hs⟩ := h
      exact cheats_verStep ht (ih hs h')

theorem simAnd_of_accept {e : BEnv F} {s s' : VerSt F} {ans : F × F} (h : verAndCheck e s ans = some s')
    (h' : s'.cheats = []) {u : Nat → Bool} (hu : packBits u s.used = ans.2) : simAnd e u s = ans := by
  have := (cheats_verAndCheck h h').2
  unfold andCheckVer at this
  unfold simAnd
  cases hs : splitTasks s.gates.length e.threads with
  | none => rw [hs] at this; simp at this
  | some tasks =>
    rw [hs] at this
    simp only [Option.some.injEq, decide_eq_true_eq] at this
    simp only [hu]
    apply Prod.ext
    · simp only
      rw [← this, add_right_comm, addSelf, zero_add]
    · rfl

theorem simPoly_of_accept {e : BEnv F} {s : VerSt F} {ans : F × F} (h' : (verPolyCheck e s ans).cheats = [])
    {u : Nat → Bool} (hu : packBits u s.used = ans.2) : simPoly e u s = ans := by
  have := (cheats_verPolyCheck h').2
  unfold polyCheckVer at this
  simp only [decide_eq_true_eq] at this
  unfold simPoly
  rw [hu]
  exact Prod.ext this.symm rfl

/-- One instruction: bits that make the simulator send the honest message. -/
theorem sim_step (v : BView F) {delta : F} {c : ComSt F} {ch : List Cheat} {o : BOp} {P1 : PrvSt F} {m : BMsg F}
    {V1 : VerSt F} {outs : List Bool} (hp : prvStep (v.env delta) (prvOf c) o = some (P1, m))
    (hv : verStep (v.env delta) (verImg delta c ch) m o = some V1) (hc : V1.cheats = [])
    (ho : V1.outs <+: outs) :
    ∃ u0 : Nat → Bool, c.used ≤ V1.used ∧ ∀ u, (∀ n, c.used ≤ n → n < V1.used → u n = u0 n) →
      simMsg (v.env delta) u outs (verImg delta c ch) o = some m := by
  have hused : (verImg delta c ch).used = c.used := rfl
  cases o with
  | input b =>
    simp only [prvStep, Option.some.injEq, Prod.mk.injEq] at hp
    simp only [verStep, Option.some.injEq] at hv
    subst hv
    obtain ⟨_, rfl⟩ := hp
    refine ⟨fun _ => (inputPrv ((v.env delta).mac (prvOf c).used) b).2, by simp [hused], ?_⟩
    intro u hu
    simp only [simMsg, hused, hu c.used (le_refl _) (by simp [hused])]
  | pub b =>
    simp only [prvStep, Option.some.injEq, Prod.mk.injEq] at hp
    simp only [verStep, Option.some.injEq] at hv
    subst hv
    obtain ⟨_, rfl⟩ := hp
    exact ⟨fun _ => false, le_refl _, fun u _ => rfl⟩
  | xor i j =>
    simp only [prvStep, Option.bind_eq_bind, Option.bind_eq_some_iff, Option.some.injEq, Prod.mk.injEq] at hp
    obtain ⟨a, _, b, _, _, rfl⟩ := hp
    simp only [verStep, Option.bind_eq_bind, Option.bind_eq_some_iff, Option.some.injEq] at hv
    obtain ⟨a', _, b', _, rfl⟩ := hv
    exact ⟨fun _ => false, le_refl _, fun u _ => rfl⟩
  | not i =>
    simp only [prvStep, Option.bind_eq_bind, Option.bind_eq_some_iff, Option.some.injEq, Prod.mk.injEq] at hp
    obtain ⟨a, _, _, rfl⟩ := hp
    simp only [verStep, Option.bind_eq_bind, Option.bind_eq_some_iff, Option.some.injEq] at hv
    obtain ⟨a', _, rfl⟩ := hv
    exact ⟨fun _ => false, le_refl _, fun u _ => rfl⟩
  | reveal i =>
    simp only [prvStep, Option.bind_eq_bind, Option.bind_eq_some_iff, Option.some.injEq, Prod.mk.injEq] at hp
    obtain ⟨a, _, _, rfl⟩ := hp
    simp only [verStep, Option.bind_eq_bind, Option.bind_eq_some_iff, Option.some.injEq] at hv
    obtain ⟨a', _, rfl⟩ := hv
    refine ⟨fun _ => false, le_refl _, fun u _ => ?_⟩
    have : outs[(verImg delta c ch).outs.length]? = some (lsb a) := by
      obtain ⟨t, rfl⟩ := ho
      simp
    simp only [simMsg, this, Option.map_some]
  | and i j =>
    simp only [prvStep, Option.bind_eq_bind, Option.bind_eq_some_iff, Option.some.injEq, Prod.mk.injEq] at hp
    obtain ⟨a, _, b, _, r, hr, q, hq, _, rfl⟩ := hp
    simp only [verStep, Option.bind_eq_bind, Option.bind_eq_some_iff] at hv
    obtain ⟨a', _, b', _, s, hs, hpush⟩ := hv
    unfold verAndPush at hpush
    split at hpush
    · simp only [Option.some.injEq] at hpush
      subst hpush
      simp only at hc
      unfold verAndRoom at hs
      unfold prvAndRoom at hr
      have hlen : (verImg delta c ch).gates.length = (prvOf c).gates.length := by simp [verImg, prvOf]
      rw [hlen] at hs
      split at hs
      · rename_i hf
        rw [if_pos hf] at hr
        obtain ⟨w, hw⟩ := packBits_surj r.2.2 c.used
        have hsu : s.used = c.used + 128 := by
          unfold verAndCheck at hs
          split at hs
          · simp at hs
          · simp only [Option.some.injEq] at hs; subst hs; rfl
        refine ⟨fun n => if n < c.used + 128 then w n else q.2, by simp [hsu]; omega, ?_⟩
        intro u hu
        simp only [hsu] at hu
        have h1 : packBits u c.used = r.2.2 := by
          rw [← hw]
          apply packBits_congr
          intro k hk
          rw [hu _ (by omega) (by omega), if_pos (by omega)]
        have h2 : u (c.used + 128) = q.2 := by
          rw [hu _ (by omega) (by omega), if_neg (by omega)]
        have h3 := simAnd_of_accept hs hc (u := u) h1
        simp only [simMsg, hlen, hf, if_true, hused, h2, h3]
      · rename_i hf
        rw [if_neg hf] at hr
        simp only [Option.some.injEq] at hr hs
        subst hr; subst hs
        refine ⟨fun _ => q.2, by simp [hused], ?_⟩
        intro u hu
        have h2 : u c.used = q.2 := hu _ (le_refl _) (by simp [hused])
        simp only [simMsg, hlen, hf, if_false, hused, h2]
    · simp at hpush
  | poly st =>
    simp only [prvStep, Option.bind_eq_bind, Option.bind_eq_some_iff, Option.some.injEq, Prod.mk.injEq] at hp
    obtain ⟨p, _, q, hq, _, rfl⟩ := hp
    simp only [verStep, Option.bind_eq_bind, Option.bind_eq_some_iff] at hv
    obtain ⟨p', _, hpush⟩ := hv
    unfold verPolyPush at hpush
    split at hpush
    · simp only [Option.some.injEq] at hpush
      subst hpush
      simp only at hc ⊢
      have hlen : ((verImg delta c ch).polys.length ≥ (v.env delta).polySz ∧ (verImg delta c ch).polys ≠ []) ↔
          ((prvOf c).polys.length ≥ (v.env delta).polySz ∧ (prvOf c).polys ≠ []) := by simp [verImg, prvOf]
      unfold verPolyRoom at hc ⊢
      unfold prvPolyRoom at hc ⊢
      simp only [hlen] at hc ⊢
      split at hc
      · rename_i hf
        simp only [if_pos hf] at hc ⊢
        obtain ⟨w, hw⟩ := packBits_surj (prvPolyCheck (v.env delta) (prvOf c)).2.2 c.used
        refine ⟨w, by simp [verPolyCheck, hused], ?_⟩
        intro u hu
        have h1 : packBits u c.used = (prvPolyCheck (v.env delta) (prvOf c)).2.2 := by
          rw [← hw]
          apply packBits_congr
          intro k hk
          exact hu _ (by omega) (by simp [verPolyCheck, hused]; omega)
        have h3 := simPoly_of_accept hc (u := u) h1
        simp only [simMsg, hlen, if_pos hf, h3]
      · rename_i hf
        simp only [if_neg hf] at hc ⊢
        refine ⟨fun _ => false, le_refl _, fun u _ => ?_⟩
        simp only [simMsg, hlen, if_neg hf]
    · simp at hpush

theorem outs_verStep {e : BEnv F} {s s' : VerSt F} {m : BMsg F} {o : BOp} (h : verStep e s m o = some s') :
    s.outs <+: s'.outs := by
  cases o with
  | input b => simp only [verStep, Option.some.injEq] at h; subst h; exact List.prefix_refl _
  | pub b => simp only [verStep, Option.some.injEq] at h; subst h; exact List.prefix_refl _
  | xor i j =>
    simp only [verStep, Option.bind_eq_bind, Option.bind_eq_some_iff, Option.some.injEq] at h
    obtain ⟨a, _, b, _, rfl⟩ := h; exact List.prefix_refl _
  | not i =>
    simp only [verStep, Option.bind_eq_bind, Option.bind_eq_some_iff, Option.some.injEq] at h
    obtain ⟨a, _, rfl⟩ := h; exact List.prefix_refl _
  | reveal i =>
    simp only [verStep, Option.bind_eq_bind, Option.bind_eq_some_iff, Option.some.injEq] at h
    obtain ⟨a, _, rfl⟩ := h; exact List.prefix_append _ _
  | and i j =>
    simp only [verStep, Option.bind_eq_bind, Option.bind_eq_some_iff] at h
    obtain ⟨a, _, b, _, r, hr, hp⟩ := h
    unfold verAndPush at hp
    split at hp
    · simp only [Option.some.injEq] at hp
      subst hp
      unfold verAndRoom at hr
      split at hr
      · unfold verAndCheck at hr
        split at hr
        · simp at hr
        · simp only [Option.some.injEq] at hr; subst hr; exact List.prefix_refl _
      · simp only [Option.some.injEq] at hr; subst hr; exact List.prefix_refl _
    · simp at hp
  | poly st =>
    simp only [verStep, Option.bind_eq_bind, Option.bind_eq_some_iff] at h
    obtain ⟨p, _, hp⟩ := h
    unfold verPolyPush at hp
    split at hp
    · simp only [Option.some.injEq] at hp
      subst hp
      simp only [verPolyRoom]
      split
      · exact List.prefix_refl _
      · exact List.prefix_refl _
    · simp at hp

theorem outs_verRun {e : BEnv F} (ops : List BOp) : ∀ {s s' : VerSt F} {ms : List (BMsg F)},
    verRun e s ops ms = some s' → s.outs <+: s'.outs := by
  induction ops with
  | nil =>
    intro s s' ms h
    cases ms with
    | nil => simp only [verRun, Option.some.injEq] at h; subst h; exact List.prefix_refl _
    | cons => simp [verRun] at h
  | cons o os ih =>
    intro s s' ms h
    cases ms with
    | nil => simp [verRun] at h
    | cons m ms =>
      simp only [verRun, Option.bind_eq_bind, Option.bind_eq_some_iff] at h
      obtain ⟨t, ht, hs⟩ := h
      exact (outs_verStep ht).trans (ih hs)

theorem sim_run (v : BView F) {delta : F} (hd : lsb delta = true) {outs : List Bool} (ops : List BOp) :
    ∀ {c : ComSt F} {ch : List Cheat} {P : PrvSt F} {ms : List (BMsg F)} {V : VerSt F}, Hon v c →
    prvRun (v.env delta) (prvOf c) ops = some (P, ms) →
    verRun (v.env delta) (verImg delta c ch) ops ms = some V → V.cheats = [] → V.outs <+: outs →
    ∃ u0 : Nat → Bool, c.used ≤ V.used ∧ ∀ u, (∀ n, c.used ≤ n → n < V.used → u n = u0 n) →
      simRun (v.env delta) u outs (verImg delta c ch) ops = some (V, ms) := by
  induction ops with
  | nil =>
    intro c ch P ms V hon hp hv hc ho
    simp only [prvRun, Option.some.injEq, Prod.mk.injEq] at hp
    obtain ⟨_, rfl⟩ := hp
    simp only [verRun, Option.some.injEq] at hv
    subst hv
    exact ⟨fun _ => false, le_refl _, fun u _ => rfl⟩
  | cons o os ih =>
    intro c ch P ms V hon hp hv hc ho
    simp only [prvRun, Option.bind_eq_bind, Option.bind_eq_some_iff, Option.some.injEq, Prod.mk.injEq] at hp
    obtain ⟨⟨P1, m⟩, h1, ⟨P2, ms'⟩, h2, _, rfl⟩ := hp
    simp only [verRun, Option.bind_eq_bind, Option.bind_eq_some_iff] at hv
    obtain ⟨V1, hv1, hv2⟩ := hv
    obtain ⟨c', k1, k2, k3, _⟩ := prvStep_com v delta h1 hon
    obtain ⟨ch', hi⟩ := verStep_img v hd c ch m o
    simp only at k1
    rw [k1, Option.map_some, hv1] at hi
    simp only [Option.some.injEq] at hi
    obtain ⟨u1, l1, hu1⟩ := sim_step v h1 hv1 (cheats_verRun os hv2 hc) ((outs_verRun os hv2).trans ho)
    subst hi
    simp only at k2
    rw [k2] at h2
    obtain ⟨u2, l2, hu2⟩ := ih k3 h2 hv2 hc ho
    have hused : (verImg delta c' ch').used = c'.used := rfl
    rw [hused] at l1 hu1
    refine ⟨fun n => if n < c'.used then u1 n else u2 n, by omega, ?_⟩
    intro u hu
    have g1 := hu1 u (fun n hn hn' => (hu n hn (by omega)).trans (if_pos hn'))
    have g2 := hu2 u (fun n hn hn' => (hu n (by omega) hn').trans (if_neg (by omega)))
    simp only [simRun, Option.bind_eq_bind, g1, Option.bind_some, hv1, g2]

/-- Every honest session the verifier accepts is a simulated one. -/
theorem sim_session (v : BView F) {delta : F} (hd : lsb delta = true) {ops : List BOp} {P : PrvSt F}
    {ms : List (BMsg F)} {fin : BFin F} {V : VerSt F} (hp : prvSession (v.env delta) ops = some (P, ms, fin))
    (hv : verSession (v.env delta) ops ms fin = some V) (hc : V.cheats = []) :
    ∃ u0 : Nat → Bool, V.used = P.used ∧ 1 ≤ P.used ∧ ∀ u, (∀ n, 1 ≤ n → n < P.used → u n = u0 n) →
      simSession (v.env delta) u V.outs ops = some (ms, fin) := by
  simp only [prvSession, prvFinalize, Option.bind_eq_bind, Option.bind_eq_some_iff, Option.some.injEq,
    Prod.mk.injEq] at hp
  obtain ⟨⟨P1, ms⟩, h1, _, ⟨⟨P3, a⟩, h3, rfl⟩, rfl, rfl, rfl⟩ := hp
  simp only at h3 hv ⊢
  obtain ⟨fin', h5⟩ : ∃ fin' : BFin F, (⟨(prvFinPoly (v.env delta) P1).2, a, (v.env delta).hash P3.digest⟩ : BFin F) = fin' :=
    ⟨_, rfl⟩
  rw [h5] at hv ⊢
  simp only [verSession, verFinalize, Option.bind_eq_bind, Option.bind_eq_some_iff, Option.some.injEq] at hv
  obtain ⟨V1, hv1, V3, hv3, rfl⟩ := hv
  have hf : V3.cheats = [] ∧ fin'.digest = (v.env delta).hash V3.digest := by
    unfold verFinHash at hc
    split at hc
    · rename_i h; exact ⟨hc, h⟩
    · simp at hc
  have hV : verFinHash (v.env delta) V3 fin'.digest = V3 := by
    unfold verFinHash; rw [if_pos hf.2]
  rw [hV]
  have ea : fin'.andAns = a := by rw [← h5]
  have ep : fin'.polyAns = (prvFinPoly (v.env delta) P1).2 := by rw [← h5]
  obtain ⟨c, k1, k2, k3, _⟩ := prvRun_com v delta ops (c := ComSt.init) h1 (Hon.init v)
  simp only at k1 k2
  obtain ⟨ch, hi⟩ := verRun_img v hd ops ComSt.init [] ms
  rw [verImg_init, hv1, k1, Option.map_some, Option.some.injEq] at hi
  have hu1 : V1.used = P1.used := by rw [hi, k2]; rfl
  have hg1 : V1.gates.length = P1.gates.length := by rw [hi, k2]; simp [verImg, prvOf]
  have hp1 : V1.polys.length = P1.polys.length := by rw [hi, k2]; simp [verImg, prvOf]
  have hpn : (V1.polys ≠ []) ↔ (P1.polys ≠ []) := by
    rw [← List.length_pos_iff, ← List.length_pos_iff, hp1]
  -- cheats of the intermediate states
  have hc2 : (verFinPoly (v.env delta) V1 fin'.polyAns).cheats = [] := by
    unfold verFinAnd at hv3
    split at hv3
    · exact (cheats_verAndCheck hv3 hf.1).1
    · simp only [Option.some.injEq] at hv3; rw [hv3]; exact hf.1
  have hc1 : V1.cheats = [] := by
    unfold verFinPoly at hc2
    split at hc2
    · exact (cheats_verPolyCheck hc2).1
    · exact hc2
  have ho2 : (verFinPoly (v.env delta) V1 fin'.polyAns).outs = V1.outs := by
    unfold verFinPoly; split <;> rfl
  have hg2 : (verFinPoly (v.env delta) V1 fin'.polyAns).gates = V1.gates := by
    unfold verFinPoly; split <;> rfl
  have ho3 : V3.outs = V1.outs := by
    rw [← ho2]
    unfold verFinAnd at hv3
    split at hv3
    · unfold verAndCheck at hv3
      split at hv3
      · simp at hv3
      · simp only [Option.some.injEq] at hv3; subst hv3; rfl
    · simp only [Option.some.injEq] at hv3; rw [hv3]
  obtain ⟨u1, l1, hs1⟩ := sim_run v hd (outs := V3.outs) ops (c := ComSt.init) (ch := []) (Hon.init v) h1
    (by rw [verImg_init]; exact hv1) hc1 (by rw [ho3])
  have hinit : (ComSt.init : ComSt F).used = 1 := rfl
  rw [hinit] at l1 hs1
  rw [verImg_init] at hs1
  -- polynomial check
  have hP : ∃ u2 : Nat → Bool, V1.used ≤ (verFinPoly (v.env delta) V1 fin'.polyAns).used ∧
      (verFinPoly (v.env delta) V1 fin'.polyAns).used = (prvFinPoly (v.env delta) P1).1.used ∧
      ∀ u, (∀ n, V1.used ≤ n → n < (verFinPoly (v.env delta) V1 fin'.polyAns).used → u n = u2 n) →
      (if V1.polys ≠ [] then simPoly (v.env delta) u V1 else (0, 0)) = fin'.polyAns := by
    by_cases hne : V1.polys ≠ []
    · have hne' := hpn.1 hne
      simp only [verFinPoly, prvFinPoly, if_pos hne, if_pos hne'] at hc2 ep ⊢
      obtain ⟨w, hw⟩ := packBits_surj fin'.polyAns.2 V1.used
      refine ⟨w, by simp [verPolyCheck], by simp [verPolyCheck, prvPolyCheck, hu1], ?_⟩
      intro u hu
      refine simPoly_of_accept hc2 ?_
      rw [← hw]
      exact packBits_congr (fun k hk => hu _ (by omega) (by simp [verPolyCheck]; omega))
    · have hne' : ¬ (P1.polys ≠ []) := fun h => hne (hpn.2 h)
      simp only [verFinPoly, prvFinPoly, if_neg hne, if_neg hne'] at ep ⊢
      exact ⟨fun _ => false, le_refl _, hu1, fun u _ => ep.symm⟩
  obtain ⟨u2, l2, e2, hs2⟩ := hP
  have hg3 : (prvFinPoly (v.env delta) P1).1.gates = P1.gates := by
    unfold prvFinPoly; split <;> rfl
  have hgn : (V1.gates ≠ []) ↔ (P1.gates ≠ []) := by
    rw [← List.length_pos_iff, ← List.length_pos_iff, hg1]
  generalize hS : verFinPoly (v.env delta) V1 fin'.polyAns = S at *
  generalize (prvFinPoly (v.env delta) P1).1 = Q at *
  have hA : ∃ u3 : Nat → Bool, S.used ≤ V3.used ∧ V3.used = P3.used ∧
      ∀ u, (∀ n, S.used ≤ n → n < V3.used → u n = u3 n) →
      (if S.gates ≠ [] then simAnd (v.env delta) u S else (0, 0)) = fin'.andAns := by
    by_cases hne : V1.gates ≠ []
    · have hne' := hgn.1 hne
      simp only [verFinAnd, prvFinAnd, hg2, hg3, if_pos hne, if_pos hne'] at hv3 h3 ⊢
      obtain ⟨w, hw⟩ := packBits_surj fin'.andAns.2 S.used
      have hu3 : V3.used = S.used + 128 := by
        unfold verAndCheck at hv3
        split at hv3
        · simp at hv3
        · simp only [Option.some.injEq] at hv3; subst hv3; rfl
      have hu4 : P3.used = Q.used + 128 := by
        unfold prvAndCheck at h3
        split at h3
        · simp at h3
        · simp only [Option.some.injEq, Prod.mk.injEq] at h3; rw [← h3.1]
      refine ⟨w, by omega, by omega, ?_⟩
      intro u hu
      refine simAnd_of_accept hv3 hf.1 ?_
      rw [← hw]
      exact packBits_congr (fun k hk => hu _ (by omega) (by omega))
    · have hne' : ¬ (P1.gates ≠ []) := fun h => hne (hgn.2 h)
      simp only [verFinAnd, prvFinAnd, hg2, hg3, if_neg hne, if_neg hne', Option.some.injEq, Prod.mk.injEq] at hv3 h3 ⊢
      exact ⟨fun _ => false, by rw [hv3], by rw [← hv3, ← h3.1, e2], fun u _ => by rw [ea, ← h3.2]⟩
  obtain ⟨u3, l3, e3, hs3⟩ := hA
  refine ⟨fun n => if n < V1.used then u1 n else if n < S.used then u2 n else u3 n, e3, by omega, ?_⟩
  intro u hu
  have g1 := hs1 u (fun n hn hn' => (hu n hn (by omega)).trans (if_pos hn'))
  have g2 := hs2 u (fun n hn hn' => (hu n (by omega) (by omega)).trans ((if_neg (by omega)).trans (if_pos hn')))
  have g3 := hs3 u (fun n hn hn' =>
    (hu n (by omega) (by omega)).trans ((if_neg (by omega)).trans (if_neg (by omega))))
  simp only [simSession, simFin, Option.bind_eq_bind, g1, Option.bind_some, g2, hS, g3, hv3, Option.some.injEq,
    Prod.mk.injEq, true_and]
  rw [← hf.2]

omit [PackField F] in
theorem simRun_public [BlockField F] (e : BEnv F) (c : Nat → Bool) (u : Nat → Bool) (outs : List Bool)
    (ops : List BOp) : ∀ s : VerSt F,
    simRun (e.withChoice c) u outs s (ops.map BOp.erase) = simRun e u outs s ops := by
  induction ops with
  | nil => intro s; rfl
  | cons o os ih =>
    intro s
    have h1 : ∀ s : VerSt F, simMsg (e.withChoice c) u outs s o.erase = simMsg e u outs s o := by
      intro s; cases o <;> rfl
    have h2 : ∀ (s : VerSt F) m, verStep (e.withChoice c) s m o.erase = verStep e s m o := by
      intro s m; cases o <;> rfl
    simp only [List.map_cons, simRun, h1, h2, ih]

omit [PackField F] in
/-- The simulator uses neither the prover's correlation bits nor the values of the private inputs. -/
theorem simSession_public [BlockField F] (e : BEnv F) (c : Nat → Bool) (u : Nat → Bool) (outs : List Bool)
    (ops : List BOp) : simSession (e.withChoice c) u outs (ops.map BOp.erase) = simSession e u outs ops := by
  simp only [simSession, simRun_public]
  rfl

end sim

end
end EmpZk
