/-
The arithmetic protocol hides the inputs: lemmas.
-/
import Verif.Spec.ArithSim
import Verif.Lemmas.ArithSound

namespace EmpZk

/-- The prover's view when the verifier has keys `k` and secret `d` and the correlation values are `u`. -/
def hview (e : AEnv) (u : Nat → Fp) : AView := { e.view with u := u, mac := fun n => fp (e.key n) + fp e.delta * u n }

theorem withU_eq {e : AEnv} (he : e.Good) (u : Nat → Fp) : e.withU u = (hview e u).env (fp e.delta) := by
  unfold AEnv.withU hview AView.env AEnv.view
  simp only [toW_fp he.delta, toW_fp he.pub]
  congr 1
  funext n
  have : fp (e.key n) + fp e.delta * u n - u n * fp e.delta = fp (e.key n) := by ring
  rw [this, toW_fp (he.key n)]

theorem withU_good {e : AEnv} (he : e.Good) (u : Nat → Fp) : (e.withU u).Good := by
  rw [withU_eq he]; exact AView.good _ _

section inj
variable {e : AEnv} {u1 u2 : Nat → Fp}

theorem hcor (e : AEnv) (u : Nat → Fp) (n : Nat) : (hview e u).cor n = (u n, fp (e.key n) + fp e.delta * u n) := rfl

theorem hcor_congr {n : Nat} (h : u1 n = u2 n) : (hview e u1).cor n = (hview e u2).cor n := by
  rw [hcor, hcor, h]

/-! ### messages determine the correlation values -/

theorem aprvMulCheck_inj {d : Fp} {c : ACom} {q1 q2 : APrv × (W × W)}
    (h1 : aprvMulCheck ((hview e u1).env d) (aprvOf c) = some q1)
    (h2 : aprvMulCheck ((hview e u2).env d) (aprvOf c) = some q2) (hq : q1.2 = q2.2) :
    q1 = q2 ∧ q1.1.used = c.used + 1 ∧ u1 c.used = u2 c.used := by
  have e1 : ∀ u, mulCheckA (aprvOf c).gates ((hview e u).env d).threads (((hview e u).env d).seed (aprvOf c).mulBatches)
      (((hview e u).env d).cor (aprvOf c).used) =
      mulCheckA (c.gates.map CGate.lab) e.threads (e.seed c.mulBatches) (lab ((hview e u).cor c.used)) := fun _ => rfl
  simp only [aprvMulCheck, e1, mulCheckA_lab, Option.bind_eq_bind, Option.bind_eq_some_iff, Option.some.injEq,
    Option.map_eq_some_iff] at h1 h2
  obtain ⟨a, ⟨ts, hts, rfl⟩, rfl⟩ := h1
  obtain ⟨a', ⟨ts', hts', rfl⟩, rfl⟩ := h2
  rw [hts, Option.some.injEq] at hts'
  subst hts'
  refine ⟨Prod.ext rfl hq, rfl, ?_⟩
  have := toW_inj (congrArg Prod.snd hq)
  simp only [mulAns, hcor] at this
  exact add_left_cancel this

theorem aprvPolyCheck_inj {d : Fp} {c : ACom} (hcan : ∀ p ∈ c.polys, p.CanonC) (hp : c.polys ≠ [])
    {q1 q2 : APrv × (W × W)}
    (h1 : aprvPolyCheck ((hview e u1).env d) (aprvOf c) = some q1)
    (h2 : aprvPolyCheck ((hview e u2).env d) (aprvOf c) = some q2) (hq : q1.2 = q2.2) :
    q1 = q2 ∧ q1.1.used = c.used + 1 ∧ u1 c.used = u2 c.used := by
  have e1 : ∀ u, apolyCheckA (aprvOf c).polys (mod64 (((hview e u).env d).polySeed (aprvOf c).polyBatches))
      (((hview e u).env d).cor (aprvOf c).used) =
      apolyCheckA (c.polys.map (fun p => apolyA (p.map lab))) (toW (fp (e.polySeed c.polyBatches)))
        (lab ((hview e u).cor c.used)) := by
    intro u; rw [mod64_eq_toW]; rfl
  simp only [aprvPolyCheck, e1, apolyCheckA_lab _ hcan hp, Option.bind_eq_bind, Option.bind_some, Option.some.injEq] at h1 h2
  subst h1; subst h2
  refine ⟨Prod.ext rfl hq, rfl, ?_⟩
  have := toW_inj (congrArg Prod.snd hq)
  simp only [polyAns, hcor] at this
  exact add_left_cancel this

theorem aprvStep_inj {d : Fp} {c : ACom} {v0 : AView} (hon : AHon v0 c) {o : AOp} (ho : o.CanonC) {q1 q2 : APrv × AMsg}
    (h1 : aprvStep ((hview e u1).env d) (aprvOf c) o = some q1)
    (h2 : aprvStep ((hview e u2).env d) (aprvOf c) o = some q2) (hq : q1.2 = q2.2) :
    q1 = q2 ∧ c.used ≤ q1.1.used ∧ q1.1.used ≤ c.used + 2 ∧ ∀ n, c.used ≤ n → n < q1.1.used → u1 n = u2 n := by
  have hu : (aprvOf c).used = c.used := rfl
  have hw : (aprvOf c).wires = c.wires.map lab := rfl
  cases o with
  | input w =>
    have e' : ∀ u, feedA (((hview e u).env d).cor (aprvOf c).used) w =
        (lab (fp w, fp (e.key c.used) + fp e.delta * u c.used), toW (u c.used - fp w)) := by
      intro u
      have e := feedA_lab ((hview e u).cor c.used) (fp w)
      rw [toW_fp (show Canon w from ho)] at e
      exact e
    simp only [aprvStep, Option.some.injEq, e'] at h1 h2
    subst h1; subst h2
    have hc : u1 c.used = u2 c.used := by
      simp only [AMsg.mk.injEq, and_true] at hq
      exact sub_left_injective (toW_inj hq)
    refine ⟨by rw [hc], by simp [hu], by simp [hu], ?_⟩
    intro n h h'
    simp only [hu] at h'
    have : n = c.used := by omega
    rw [this]; exact hc
  | pub w =>
    simp only [aprvStep, Option.some.injEq] at h1 h2
    subst h1; subst h2
    exact ⟨rfl, by simp [hu], by simp [hu], fun n h h' => absurd h' (by simp [hu]; omega)⟩
  | add i j =>
    simp only [aprvStep] at h1 h2
    rw [h1] at h2
    simp only [Option.some.injEq] at h2
    subst h2
    simp only [Option.bind_eq_bind, Option.bind_eq_some_iff, Option.some.injEq] at h1
    obtain ⟨a, ha, b, hb, rfl⟩ := h1
    exact ⟨rfl, by simp [hu], by simp [hu], fun n h h' => absurd h' (by simp [hu]; omega)⟩
  | mulc i k =>
    simp only [aprvStep] at h1 h2
    rw [h1] at h2
    simp only [Option.some.injEq] at h2
    subst h2
    simp only [Option.bind_eq_bind, Option.bind_eq_some_iff, Option.some.injEq] at h1
    obtain ⟨a, ha, rfl⟩ := h1
    exact ⟨rfl, by simp [hu], by simp [hu], fun n h h' => absurd h' (by simp [hu]; omega)⟩
  | reveal i =>
    simp only [aprvStep] at h1 h2
    rw [h1] at h2
    simp only [Option.some.injEq] at h2
    subst h2
    simp only [Option.bind_eq_bind, Option.bind_eq_some_iff, Option.some.injEq] at h1
    obtain ⟨a, ha, rfl⟩ := h1
    exact ⟨rfl, by simp [hu], by simp [hu], fun n h h' => absurd h' (by simp [hu]; omega)⟩
  | revealCheck i x =>
    simp only [aprvStep] at h1 h2
    rw [h1] at h2
    simp only [Option.some.injEq] at h2
    subst h2
    simp only [Option.bind_eq_bind, Option.bind_eq_some_iff, Option.some.injEq] at h1
    obtain ⟨a, ha, rfl⟩ := h1
    exact ⟨rfl, by simp [hu], by simp [hu], fun n h h' => absurd h' (by simp [hu]; omega)⟩
  | revealZero i =>
    simp only [aprvStep] at h1 h2
    rw [h1] at h2
    simp only [Option.some.injEq] at h2
    subst h2
    simp only [Option.bind_eq_bind, Option.bind_eq_some_iff, Option.some.injEq] at h1
    obtain ⟨a, ha, rfl⟩ := h1
    exact ⟨rfl, by simp [hu], by simp [hu], fun n h h' => absurd h' (by simp [hu]; omega)⟩
  | mul i j =>
    simp only [aprvStep, hw, List.getElem?_map, Option.bind_eq_bind, Option.bind_eq_some_iff, Option.some.injEq,
      Option.map_eq_some_iff] at h1 h2
    obtain ⟨_, ⟨a, ha, rfl⟩, _, ⟨b, hb, rfl⟩, r, hr, p, hp, rfl⟩ := h1
    obtain ⟨_, ⟨a', ha', rfl⟩, _, ⟨b', hb', rfl⟩, r', hr', p', hp', rfl⟩ := h2
    rw [ha] at ha'; rw [hb] at hb'
    simp only [Option.some.injEq] at ha' hb'
    subst ha'; subst hb'
    simp only [AMsg.mk.injEq] at hq
    have hroom : r = r' ∧ c.used ≤ r.1.used ∧ r.1.used ≤ c.used + 1 ∧ ∀ n, c.used ≤ n → n < r.1.used → u1 n = u2 n := by
      have g : ∀ u, ((hview e u).env d).checkSz = e.checkSz := fun _ => rfl
      simp only [aprvMulRoom, g] at hr hr'
      split at hr
      · rename_i hf
        rw [if_pos hf] at hr'
        obtain ⟨k1, k2, k3⟩ := aprvMulCheck_inj hr hr' hq.2
        refine ⟨k1, by omega, by omega, ?_⟩
        intro n h h'
        have : n = c.used := by omega
        rw [this]; exact k3
      · rename_i hf
        rw [if_neg hf] at hr'
        simp only [Option.some.injEq] at hr hr'
        subst hr; subst hr'
        exact ⟨rfl, by simp [hu], by simp [hu], fun n h h' => absurd h' (by simp [hu]; omega)⟩
    obtain ⟨rfl, k2, k3, k4⟩ := hroom
    have g : ∀ u, ((hview e u).env d).checkSz = e.checkSz := fun _ => rfl
    have es : ∀ u, mulSend (((hview e u).env d).cor r.1.used) (lab a) (lab b) =
        (lab (a.1 * b.1, fp (e.key r.1.used) + fp e.delta * u r.1.used), toW (u r.1.used - a.1 * b.1)) := by
      intro u
      exact mulSend_lab ((hview e u).cor r.1.used) a b
    simp only [aprvMulPush, g, es] at hp hp'
    split at hp
    · rename_i hlt
      rw [if_pos hlt] at hp'
      simp only [Option.some.injEq] at hp hp'
      subst hp; subst hp'
      have hc : u1 r.1.used = u2 r.1.used := sub_left_injective (toW_inj hq.1)
      refine ⟨by rw [hc], by simp; omega, by simp; omega, ?_⟩
      intro n h h'
      simp only at h'
      by_cases hn : n < r.1.used
      · exact k4 n h hn
      · have : n = r.1.used := by omega
        rw [this]; exact hc
    · simp at hp
  | poly st =>
    simp only [aprvStep, Option.bind_eq_bind, Option.bind_eq_some_iff, Option.some.injEq] at h1 h2
    obtain ⟨p, hp, r, hr, q, hq1, rfl⟩ := h1
    obtain ⟨p', hp', r', hr', q', hq1', rfl⟩ := h2
    rw [hp] at hp'
    simp only [Option.some.injEq] at hp'
    subst hp'
    simp only [AMsg.mk.injEq, true_and] at hq
    have hpp : (aprvOf c).polys ≠ [] ↔ c.polys ≠ [] := by simp [aprvOf]
    have hroom : r = r' ∧ c.used ≤ r.1.used ∧ r.1.used ≤ c.used + 1 ∧ ∀ n, c.used ≤ n → n < r.1.used → u1 n = u2 n := by
      have g : ∀ u, ((hview e u).env d).polySz = e.polySz := fun _ => rfl
      simp only [aprvPolyRoom, g] at hr hr'
      split at hr
      · rename_i hf
        rw [if_pos hf] at hr'
        obtain ⟨k1, k2, k3⟩ := aprvPolyCheck_inj (fun p hp => hon.canon p (by simp [ACom.stmts, hp])) (hpp.1 hf.2) hr hr' hq
        refine ⟨k1, by omega, by omega, ?_⟩
        intro n h h'
        have : n = c.used := by omega
        rw [this]; exact k3
      · rename_i hf
        rw [if_neg hf] at hr'
        simp only [Option.some.injEq] at hr hr'
        subst hr; subst hr'
        exact ⟨rfl, by simp [hu], by simp [hu], fun n h h' => absurd h' (by simp [hu]; omega)⟩
    obtain ⟨rfl, k2, k3, k4⟩ := hroom
    have g : ∀ u, ((hview e u).env d).polySz = e.polySz := fun _ => rfl
    simp only [aprvPolyPush, g] at hq1 hq1'
    split at hq1
    · rename_i hlt
      rw [if_pos hlt] at hq1'
      simp only [Option.some.injEq] at hq1 hq1'
      subst hq1; subst hq1'
      exact ⟨rfl, by simpa using k2, by simp; omega, k4⟩
    · simp at hq1

theorem aprvRun_inj {d : Fp} (ops : List AOp) : ∀ {c : ACom} {pl : APlain} {q1 q2 : APrv × List AMsg},
    (∀ o ∈ ops, o.CanonC) → AHon (hview e u1) c → APlainOf c pl →
    aprvRun ((hview e u1).env d) (aprvOf c) ops = some q1 → aprvRun ((hview e u2).env d) (aprvOf c) ops = some q2 →
    q1.2 = q2.2 →
    q1 = q2 ∧ c.used ≤ q1.1.used ∧ q1.1.used ≤ c.used + 2 * ops.length ∧
      ∀ n, c.used ≤ n → n < q1.1.used → u1 n = u2 n := by
  induction ops with
  | nil =>
    intro c pl q1 q2 _ _ _ h1 h2 _
    simp only [aprvRun, Option.some.injEq] at h1 h2
    subst h1; subst h2
    exact ⟨rfl, le_refl _, by simp [aprvOf], fun n h h' => absurd h' (by simp [aprvOf]; omega)⟩
  | cons o os ih =>
    intro c pl q1 q2 ho hon hpl h1 h2 hq
    simp only [aprvRun, Option.bind_eq_bind, Option.bind_eq_some_iff, Option.some.injEq] at h1 h2
    obtain ⟨r, hr, t, ht, rfl⟩ := h1
    obtain ⟨r', hr', t', ht', rfl⟩ := h2
    simp only [List.cons.injEq] at hq
    obtain ⟨k1, k2, k3, k4⟩ := aprvStep_inj hon (ho o (by simp)) hr hr' hq.1
    subst k1
    obtain ⟨c', _, m2, m3, _, pl', _, m6⟩ := aprvStep_com _ _ (ho o (by simp)) hr hon hpl
    rw [m2] at ht ht' k2 k3 k4
    obtain ⟨l1, l2, l3, l4⟩ := ih (fun x hx => ho x (by simp [hx])) m3 m6 ht ht' hq.2
    subst l1
    have hu : (aprvOf c').used = c'.used := rfl
    rw [hu] at k2 k3 k4
    refine ⟨rfl, by simp; omega, by simp; omega, ?_⟩
    intro n h h'
    by_cases hn : n < c'.used
    · exact k4 n h hn
    · exact l4 n (by omega) h'

theorem aprvSession_inj (d : Fp) {ops : List AOp} (ho : ∀ o ∈ ops, o.CanonC) {q1 q2 : APrv × List AMsg × AFin}
    (h1 : aprvSession ((hview e u1).env d) ops = some q1) (h2 : aprvSession ((hview e u2).env d) ops = some q2)
    (hq : q1.2 = q2.2) :
    q1.1.used = q2.1.used ∧ q1.1.used ≤ 3 + 2 * ops.length ∧ ∀ n, 1 ≤ n → n < q1.1.used → u1 n = u2 n := by
  simp only [aprvSession, aprvFinalize, Option.bind_eq_bind, Option.bind_eq_some_iff, Option.some.injEq] at h1 h2
  obtain ⟨r, hr, t, ⟨p, hp, s, hs, rfl⟩, rfl⟩ := h1
  obtain ⟨r', hr', t', ⟨p', hp', s', hs', rfl⟩, rfl⟩ := h2
  simp only [Prod.mk.injEq, AFin.mk.injEq] at hq
  obtain ⟨hm, hpoly, hmul, _⟩ := hq
  obtain ⟨k1, k2, k3, k4⟩ := aprvRun_inj ops (c := ACom.init) ho (AHon.init _) APlainOf.init hr hr' hm
  subst k1
  obtain ⟨c, _, m2, m3, _, pl, _, m6⟩ := aprvRun_com _ _ ops (c := ACom.init) ho hr (AHon.init _) APlainOf.init
  have hu : (ACom.init).used = 1 := rfl
  rw [hu] at k2 k3 k4
  rw [m2] at hp hp' k2 k3 k4
  have huc : (aprvOf c).used = c.used := rfl
  rw [huc] at k2 k3 k4
  have hP : p = p' ∧ c.used ≤ p.1.used ∧ p.1.used ≤ c.used + 1 ∧ (∀ n, c.used ≤ n → n < p.1.used → u1 n = u2 n) ∧
      ∃ c2, p.1 = aprvOf c2 := by
    unfold aprvFinPoly at hp hp'
    have hpp : (aprvOf c).polys ≠ [] ↔ c.polys ≠ [] := by simp [aprvOf]
    split at hp
    · rename_i hf
      rw [if_pos hf] at hp'
      obtain ⟨k1, k2, k3⟩ := aprvPolyCheck_inj (fun p hp => m3.canon p (by simp [ACom.stmts, hp])) (hpp.1 hf) hp hp' hpoly
      obtain ⟨ans, l1, _⟩ := aprvPolyCheck_com (hview e u1) d (hpp.1 hf) m3
      rw [hp, Option.some.injEq] at l1
      refine ⟨k1, by omega, by omega, ?_, _, by rw [l1]⟩
      intro n h h'
      have : n = c.used := by omega
      rw [this]; exact k3
    · rename_i hf
      rw [if_neg hf] at hp'
      simp only [Option.some.injEq] at hp hp'
      subst hp; subst hp'
      exact ⟨rfl, by simp [huc], by simp [huc], fun n h h' => absurd h' (by simp [huc]; omega), c, rfl⟩
  obtain ⟨rfl, l2, l3, l4, c2, l5⟩ := hP
  rw [l5] at hs hs' l2 l3 l4
  have huc2 : (aprvOf c2).used = c2.used := rfl
  rw [huc2] at l2 l3 l4
  have hA : s = s' ∧ c2.used ≤ s.1.used ∧ s.1.used ≤ c2.used + 1 ∧ ∀ n, c2.used ≤ n → n < s.1.used → u1 n = u2 n := by
    unfold aprvFinMul at hs hs'
    split at hs
    · rename_i hf
      rw [if_pos hf] at hs'
      obtain ⟨k1, k2, k3⟩ := aprvMulCheck_inj hs hs' hmul
      refine ⟨k1, by omega, by omega, ?_⟩
      intro n h h'
      have : n = c2.used := by omega
      rw [this]; exact k3
    · rename_i hf
      rw [if_neg hf] at hs'
      simp only [Option.some.injEq] at hs hs'
      subst hs; subst hs'
      exact ⟨rfl, by simp [huc2], by simp [huc2], fun n h h' => absurd h' (by simp [huc2]; omega)⟩
  obtain ⟨rfl, n2, n3, n4⟩ := hA
  refine ⟨rfl, by simp; omega, ?_⟩
  intro n h h'
  by_cases g1 : n < c.used
  · exact k4 n h g1
  · by_cases g2 : n < c2.used
    · exact l4 n (by omega) g2
    · exact n4 n (by omega) h'

end inj


/-! ### shape of the messages of the honest prover -/

/-- The unused parts of a message are zero, the used words are canonical. -/
structure AShape (e : AEnv) (gl pl : Nat) (m : AMsg) (o : AOp) : Prop where
  w : Canon m.w
  a : Canon m.ans.2
  zero : match o with
    | .input _ => m.ans = (0, 0)
    | .mul _ _ => gl ≠ e.checkSz → m.ans = (0, 0)
    | .reveal _ => m.ans = (0, 0)
    | .revealCheck _ _ => m.ans = (0, 0)
    | .poly _ => m.w = 0 ∧ (¬ (pl ≥ e.polySz ∧ pl ≠ 0) → m.ans = (0, 0))
    | _ => m.w = 0 ∧ m.ans = (0, 0)

theorem canon_zero' : Canon 0 := by decide

theorem aprvMulCheck_canon {v : AView} {d : Fp} {c : ACom} {q : APrv × (W × W)}
    (h : aprvMulCheck (v.env d) (aprvOf c) = some q) : Canon q.2.2 := by
  have e1 : mulCheckA (aprvOf c).gates (v.env d).threads ((v.env d).seed (aprvOf c).mulBatches)
      ((v.env d).cor (aprvOf c).used) =
      mulCheckA (c.gates.map CGate.lab) v.threads (v.seed c.mulBatches) (lab (v.cor c.used)) := rfl
  simp only [aprvMulCheck, e1, mulCheckA_lab, Option.bind_eq_bind, Option.bind_eq_some_iff, Option.some.injEq,
    Option.map_eq_some_iff] at h
  obtain ⟨a, ⟨ts, hts, rfl⟩, rfl⟩ := h
  exact canon_toW _

theorem aprvPolyCheck_canon {v : AView} {d : Fp} {c : ACom} (hcan : ∀ p ∈ c.polys, p.CanonC) (hp : c.polys ≠ [])
    {q : APrv × (W × W)} (h : aprvPolyCheck (v.env d) (aprvOf c) = some q) : Canon q.2.2 := by
  have e1 : apolyCheckA (aprvOf c).polys (mod64 ((v.env d).polySeed (aprvOf c).polyBatches))
      ((v.env d).cor (aprvOf c).used) =
      apolyCheckA (c.polys.map (fun p => apolyA (p.map lab))) (toW (fp (v.polySeed c.polyBatches)))
        (lab (v.cor c.used)) := by
    rw [mod64_eq_toW]; rfl
  simp only [aprvPolyCheck, e1, apolyCheckA_lab _ hcan hp, Option.bind_eq_bind, Option.bind_some, Option.some.injEq] at h
  subst h
  exact canon_toW _

theorem aprvStep_shape {v : AView} {d : Fp} {c : ACom} (hon : AHon v c) {o : AOp} {q : APrv × AMsg}
    (h : aprvStep (v.env d) (aprvOf c) o = some q) (hw : Canon q.2.w) :
    AShape (v.env d) c.gates.length c.polys.length q.2 o := by
  have hgl : (aprvOf c).gates.length = c.gates.length := by simp [aprvOf]
  have hpl : (aprvOf c).polys.length = c.polys.length := by simp [aprvOf]
  have hpp : (aprvOf c).polys ≠ [] ↔ c.polys ≠ [] := by simp [aprvOf]
  cases o with
  | input w =>
    simp only [aprvStep, Option.some.injEq] at h
    subst h
    exact ⟨hw, canon_zero', rfl⟩
  | pub w =>
    simp only [aprvStep, Option.some.injEq] at h
    subst h
    exact ⟨hw, canon_zero', rfl, rfl⟩
  | add i j =>
    simp only [aprvStep, Option.bind_eq_bind, Option.bind_eq_some_iff, Option.some.injEq] at h
    obtain ⟨a, ha, b, hb, rfl⟩ := h
    exact ⟨hw, canon_zero', rfl, rfl⟩
  | mulc i k =>
    simp only [aprvStep, Option.bind_eq_bind, Option.bind_eq_some_iff, Option.some.injEq] at h
    obtain ⟨a, ha, rfl⟩ := h
    exact ⟨hw, canon_zero', rfl, rfl⟩
  | reveal i =>
    simp only [aprvStep, Option.bind_eq_bind, Option.bind_eq_some_iff, Option.some.injEq] at h
    obtain ⟨a, ha, rfl⟩ := h
    exact ⟨hw, canon_zero', rfl⟩
  | revealCheck i x =>
    simp only [aprvStep, Option.bind_eq_bind, Option.bind_eq_some_iff, Option.some.injEq] at h
    obtain ⟨a, ha, rfl⟩ := h
    exact ⟨hw, canon_zero', rfl⟩
  | revealZero i =>
    simp only [aprvStep, Option.bind_eq_bind, Option.bind_eq_some_iff, Option.some.injEq] at h
    obtain ⟨a, ha, rfl⟩ := h
    exact ⟨hw, canon_zero', rfl, rfl⟩
  | mul i j =>
    simp only [aprvStep, Option.bind_eq_bind, Option.bind_eq_some_iff, Option.some.injEq] at h
    obtain ⟨a, ha, b, hb, r, hr, p, hp, rfl⟩ := h
    simp only [aprvMulRoom, hgl] at hr
    split at hr
    · rename_i hf
      exact ⟨hw, aprvMulCheck_canon hr, fun h' => absurd hf h'⟩
    · simp only [Option.some.injEq] at hr
      subst hr
      exact ⟨hw, canon_zero', fun _ => rfl⟩
  | poly st =>
    simp only [aprvStep, Option.bind_eq_bind, Option.bind_eq_some_iff, Option.some.injEq] at h
    obtain ⟨p, hp, r, hr, q, hq1, rfl⟩ := h
    simp only [aprvPolyRoom, hpl, hpp] at hr
    split at hr
    · rename_i hf
      refine ⟨hw, aprvPolyCheck_canon (fun p hp => hon.canon p (by simp [ACom.stmts, hp])) hf.2 hr, rfl, ?_⟩
      intro h'
      exact absurd ⟨hf.1, by simpa using hf.2⟩ h'
    · simp only [Option.some.injEq] at hr
      subst hr
      exact ⟨hw, canon_zero', rfl, fun _ => rfl⟩

/-! ### monotone parts of the verifier -/

/-- What only grows during the verifier's work. -/
structure AMono (s s' : AVer) : Prop where
  used : s.used ≤ s'.used
  outs : s.outs <+: s'.outs
  aborted : s'.aborted = false → s.aborted = false
  cheat : s'.cheat = false → s.cheat = false

theorem AMono.refl (s : AVer) : AMono s s := ⟨le_refl _, List.prefix_refl _, id, id⟩

theorem AMono.trans {s t w : AVer} (h : AMono s t) (k : AMono t w) : AMono s w :=
  ⟨h.used.trans k.used, h.outs.trans k.outs, h.aborted ∘ k.aborted, h.cheat ∘ k.cheat⟩

theorem AMono.mulCheck {e : AEnv} {s s' : AVer} {ans : W × W} (h : averMulCheck e s ans = some s') : AMono s s' := by
  simp only [averMulCheck, Option.bind_eq_bind, Option.bind_eq_some_iff, Option.some.injEq] at h
  obtain ⟨ok, hok, rfl⟩ := h
  exact ⟨by simp, by simp, by simp +contextual, by simp +contextual⟩

theorem AMono.polyCheck {e : AEnv} {s s' : AVer} {ans : W × W} (h : averPolyCheck e s ans = some s') : AMono s s' := by
  simp only [averPolyCheck, Option.bind_eq_bind, Option.bind_eq_some_iff, Option.some.injEq] at h
  obtain ⟨ok, hok, rfl⟩ := h
  exact ⟨by simp, by simp, by simp +contextual, by simp +contextual⟩

theorem AMono.mulRoom {e : AEnv} {s s' : AVer} {ans : W × W} (h : averMulRoom e s ans = some s') : AMono s s' := by
  unfold averMulRoom at h
  split at h
  · exact AMono.mulCheck h
  · rw [Option.some.injEq] at h
    subst h
    exact AMono.refl _

theorem AMono.polyRoom {e : AEnv} {s s' : AVer} {ans : W × W} (h : averPolyRoom e s ans = some s') : AMono s s' := by
  unfold averPolyRoom at h
  split at h
  · exact AMono.polyCheck h
  · rw [Option.some.injEq] at h
    subst h
    exact AMono.refl _

theorem AMono.mulPush {e : AEnv} {s s' : AVer} {a b : U128} {d : W} (h : averMulPush e s a b d = some s') : AMono s s' := by
  unfold averMulPush at h
  split at h
  · rw [Option.some.injEq] at h
    subst h
    exact ⟨by simp, by simp, by simp +contextual, by simp +contextual⟩
  · simp at h

theorem AMono.polyPush {e : AEnv} {s s' : AVer} {p : APoly U128} (h : averPolyPush e s p = some s') : AMono s s' := by
  unfold averPolyPush at h
  split at h
  · rw [Option.some.injEq] at h
    subst h
    exact ⟨by simp, by simp, by simp +contextual, by simp +contextual⟩
  · simp at h

theorem AMono.step {e : AEnv} {s s' : AVer} {m : AMsg} {o : AOp} (h : averStep e s m o = some s') : AMono s s' := by
  cases o with
  | input w =>
    simp only [averStep, Option.some.injEq] at h
    subst h
    exact ⟨by simp, by simp, by simp +contextual, by simp +contextual⟩
  | pub w =>
    simp only [averStep, Option.some.injEq] at h
    subst h
    exact ⟨by simp, by simp, by simp +contextual, by simp +contextual⟩
  | mul i j =>
    simp only [averStep, Option.bind_eq_bind, Option.bind_eq_some_iff] at h
    obtain ⟨a, ha, b, hb, r, hr, hp⟩ := h
    exact (AMono.mulRoom hr).trans (AMono.mulPush hp)
  | poly st =>
    simp only [averStep, Option.bind_eq_bind, Option.bind_eq_some_iff] at h
    obtain ⟨p, hp, r, hr, hp⟩ := h
    exact (AMono.polyRoom hr).trans (AMono.polyPush hp)
  | add i j =>
    simp only [averStep, Option.bind_eq_bind, Option.bind_eq_some_iff, Option.some.injEq] at h
    obtain ⟨a, ha, b, hb, rfl⟩ := h
    exact ⟨by simp, by simp, by simp +contextual, by simp +contextual⟩
  | _ =>
    simp only [averStep, Option.bind_eq_bind, Option.bind_eq_some_iff, Option.some.injEq] at h
    obtain ⟨a, ha, rfl⟩ := h
    exact ⟨by simp, by simp, by simp +contextual, by simp +contextual⟩

theorem AMono.run {e : AEnv} (ops : List AOp) : ∀ {s s' : AVer} {ms : List AMsg}, averRun e s ops ms = some s' →
    AMono s s' := by
  induction ops with
  | nil =>
    intro s s' ms h
    cases ms with
    | nil => simp only [averRun, Option.some.injEq] at h; subst h; exact AMono.refl _
    | cons m ms => simp [averRun] at h
  | cons o os ih =>
    intro s s' ms h
    cases ms with
    | nil => simp [averRun] at h
    | cons m ms =>
      simp only [averRun, Option.bind_eq_bind, Option.bind_eq_some_iff] at h
      obtain ⟨t, ht, h⟩ := h
      exact (AMono.step ht).trans (ih h)

/-! ### an accepted transcript of the right shape is a transcript of the simulator -/

section sim
variable {e : AEnv}

theorem simMulA_of {s s' : AVer} {ans : W × W} (h : averMulCheck e s ans = some s') (hab : s'.aborted = false)
    (ha : Canon ans.2) {t : Nat → Fp} (ht : t s.used = fp ans.2) :
    simMulA e t s = ans ∧ s'.used = s.used + 1 ∧ s'.outs = s.outs := by
  simp only [averMulCheck, mulCheckB, Option.bind_eq_bind, Option.bind_eq_some_iff, Option.some.injEq] at h
  obtain ⟨ok, ⟨w, hw, rfl⟩, rfl⟩ := h
  simp only [Bool.or_eq_false_iff, Bool.not_eq_false', beq_iff_eq] at hab
  refine ⟨?_, rfl, rfl⟩
  simp only [simMulA, hw, ht, toW_fp ha]
  exact Prod.ext hab.2.symm rfl

theorem simPolyA_of {s s' : AVer} {ans : W × W} (h : averPolyCheck e s ans = some s') (hch : s'.cheat = false)
    (ha : Canon ans.2) {t : Nat → Fp} (ht : t s.used = fp ans.2) :
    simPolyA e t s = ans ∧ s'.used = s.used + 1 ∧ s'.outs = s.outs := by
  simp only [averPolyCheck, apolyCheckB, Option.bind_eq_bind, Option.bind_eq_some_iff, Option.some.injEq] at h
  obtain ⟨ok, ⟨w, hw, rfl⟩, rfl⟩ := h
  simp only [Bool.or_eq_false_iff, Bool.not_eq_false', beq_iff_eq] at hch
  refine ⟨?_, rfl, rfl⟩
  simp only [simPolyA, hw, ht, toW_fp ha]
  exact Prod.ext hch.2 rfl

theorem asim_step {V V1 : AVer} {m : AMsg} {o : AOp} (h : averStep e V m o = some V1) (hab : V1.aborted = false)
    (hch : V1.cheat = false) (sh : AShape e V.gates.length V.polys.length m o) {outs : List W} (ho : V1.outs <+: outs) :
    ∃ t0 : Nat → Fp, ∀ t : Nat → Fp, (∀ n, V.used ≤ n → n < V1.used → t n = t0 n) → simMsgA e t outs V o = some m := by
  cases o with
  | input w =>
    simp only [averStep, Option.some.injEq] at h
    subst h
    refine ⟨fun _ => fp m.w, fun t ht => ?_⟩
    have := ht V.used (le_refl _) (by simp)
    simp only [simMsgA, this, toW_fp sh.w]
    have z := sh.zero
    simp only at z
    rw [← z]
  | mul i j =>
    simp only [averStep, Option.bind_eq_bind, Option.bind_eq_some_iff] at h
    obtain ⟨a, ha, b, hb, r, hr, hp⟩ := h
    have hab' := (AMono.mulPush hp).aborted hab
    have hu : V1.used = r.used + 1 := by
      unfold averMulPush at hp
      split at hp
      · rw [Option.some.injEq] at hp; subst hp; rfl
      · simp at hp
    unfold averMulRoom at hr
    split at hr
    · rename_i hf
      refine ⟨fun n => if n = V.used then fp m.ans.2 else fp m.w, fun t ht => ?_⟩
      have hru : r.used = V.used + 1 := by
        simp only [averMulCheck, Option.bind_eq_bind, Option.bind_eq_some_iff, Option.some.injEq] at hr
        obtain ⟨ok, _, rfl⟩ := hr
        rfl
      have h1 := ht V.used (le_refl _) (by omega)
      have h2 := ht (V.used + 1) (by omega) (by omega)
      simp only [if_true] at h1
      simp only at h2
      rw [if_neg (by omega)] at h2
      obtain ⟨k1, _, _⟩ := simMulA_of hr hab' sh.a h1
      simp only [simMsgA, if_pos hf, k1, h2, toW_fp sh.w]
    · rename_i hf
      simp only [Option.some.injEq] at hr
      subst hr
      refine ⟨fun _ => fp m.w, fun t ht => ?_⟩
      have h1 := ht V.used (le_refl _) (by omega)
      have z := sh.zero hf
      simp only [simMsgA, if_neg hf, h1, toW_fp sh.w]
      rw [← z]
  | poly st =>
    simp only [averStep, Option.bind_eq_bind, Option.bind_eq_some_iff] at h
    obtain ⟨p, hp, r, hr, hp⟩ := h
    have hch' := (AMono.polyPush hp).cheat hch
    have hu : V1.used = r.used := by
      unfold averPolyPush at hp
      split at hp
      · rw [Option.some.injEq] at hp; subst hp; rfl
      · simp at hp
    obtain ⟨z1, z2⟩ := sh.zero
    unfold averPolyRoom at hr
    split at hr
    · rename_i hf
      refine ⟨fun _ => fp m.ans.2, fun t ht => ?_⟩
      have hru : r.used = V.used + 1 := by
        simp only [averPolyCheck, Option.bind_eq_bind, Option.bind_eq_some_iff, Option.some.injEq] at hr
        obtain ⟨ok, _, rfl⟩ := hr
        rfl
      have h1 := ht V.used (le_refl _) (by omega)
      obtain ⟨k1, _, _⟩ := simPolyA_of hr hch' sh.a h1
      simp only [simMsgA, if_pos hf, k1]
      rw [← z1]
    · rename_i hf
      refine ⟨fun _ => 0, fun t ht => ?_⟩
      have z := z2 (by simpa using hf)
      simp only [simMsgA, if_neg hf]
      rw [← z, ← z1]
  | reveal i =>
    simp only [averStep, Option.bind_eq_bind, Option.bind_eq_some_iff, Option.some.injEq] at h
    obtain ⟨a, ha, rfl⟩ := h
    refine ⟨fun _ => 0, fun t ht => ?_⟩
    have : outs[V.outs.length]? = some m.w := by
      obtain ⟨l, hl⟩ := ho
      rw [← hl]
      simp
    have z := sh.zero
    simp only at z
    simp only [simMsgA, this, Option.map_some]
    rw [← z]
  | revealCheck i x =>
    simp only [averStep, Option.bind_eq_bind, Option.bind_eq_some_iff, Option.some.injEq] at h
    obtain ⟨a, ha, rfl⟩ := h
    simp only [Bool.or_eq_false_iff, Bool.not_eq_false', beq_iff_eq] at hab
    refine ⟨fun _ => 0, fun t ht => ?_⟩
    have z := sh.zero
    simp only at z
    simp only [simMsgA, hab.2]
    rw [← z]
  | _ =>
    refine ⟨fun _ => 0, fun t ht => ?_⟩
    obtain ⟨z1, z2⟩ := sh.zero
    simp only [simMsgA]
    obtain ⟨w, a⟩ := m
    simp only at z1 z2
    rw [z1, z2]

theorem asim_run (v : AView) (d : Fp) {outs : List W} (ops : List AOp) :
    ∀ {c : ACom} {pl : APlain} {ab ch : Bool} {q : APrv × List AMsg} {V : AVer}, (∀ o ∈ ops, o.CanonC) →
    aprvRun (v.env d) (aprvOf c) ops = some q → AHon v c → APlainOf c pl →
    averRun (v.env d) (averImg d c ab ch) ops q.2 = some V → V.aborted = false → V.cheat = false → V.outs <+: outs →
    ∃ t0 : Nat → Fp, ∀ t : Nat → Fp, (∀ n, c.used ≤ n → n < V.used → t n = t0 n) →
      simRunA (v.env d) t outs (averImg d c ab ch) ops = some (V, q.2) := by
  induction ops with
  | nil =>
    intro c pl ab ch q V _ h _ _ hv _ _ _
    simp only [aprvRun, Option.some.injEq] at h
    subst h
    simp only [averRun, Option.some.injEq] at hv
    subst hv
    exact ⟨fun _ => 0, fun t _ => rfl⟩
  | cons o os ih =>
    intro c pl ab ch q V ho h hon hpl hv hab hch hout
    simp only [aprvRun, Option.bind_eq_bind, Option.bind_eq_some_iff, Option.some.injEq] at h
    obtain ⟨r, hr, q', hq', rfl⟩ := h
    obtain ⟨c', m1, m2, m3, m4, pl', _, m6⟩ := aprvStep_com v d (ho o (by simp)) hr hon hpl
    simp only [averRun, Option.bind_eq_bind, Option.bind_eq_some_iff] at hv
    obtain ⟨V1, hv1, hv⟩ := hv
    obtain ⟨ab', ch', k1⟩ := averStep_img v d c ab ch r.2 m4 o (ho o (by simp))
    rw [m1, hv1, Option.map_some, Option.some.injEq] at k1
    have mono := AMono.run os hv
    have sh : AShape (v.env d) (averImg d c ab ch).gates.length (averImg d c ab ch).polys.length r.2 o := by
      have := aprvStep_shape hon hr m4
      simpa [averImg] using this
    obtain ⟨t1, h1⟩ := asim_step hv1 (mono.aborted hab) (mono.cheat hch) sh (mono.outs.trans hout)
    have mono1 := AMono.step hv1
    have hu1 : V1.used = c'.used := by rw [k1]; rfl
    have hv1' := hv1
    rw [m2] at hq'
    rw [k1] at hv hv1'
    obtain ⟨t2, h2⟩ := ih (fun x hx => ho x (by simp [hx])) hq' m3 m6 hv hab hch hout
    have hm1 : c.used ≤ c'.used := by rw [← hu1]; exact mono1.used
    refine ⟨fun n => if n < c'.used then t1 n else t2 n, fun t ht => ?_⟩
    have e1 := h1 t (fun n hn hn' => by
      have := ht n hn (lt_of_lt_of_le hn' mono.used)
      rw [this]
      exact if_pos (by omega))
    have e2 := h2 t (fun n hn hn' => by
      have := ht n (hm1.trans hn) hn'
      rw [this]
      exact if_neg (by omega))
    simp only [simRunA, e1, hv1', e2, Option.bind_eq_bind, Option.bind_some]

theorem asim_session (v : AView) (d : Fp) {ops : List AOp} (ho : ∀ o ∈ ops, o.CanonC) {P : APrv} {ms : List AMsg}
    {fin : AFin} {V : AVer} (h : aprvSession (v.env d) ops = some (P, ms, fin))
    (hv : averSession (v.env d) ops ms fin = some V) (hacc : V.accepted = true) :
    P.used = V.used ∧ ∃ t0 : Nat → Fp, ∀ t : Nat → Fp, (∀ n, 1 ≤ n → n < P.used → t n = t0 n) →
      simSessionA (v.env d) t V.outs ops = some (ms, fin) := by
  have hsess := aprvSession_com v d ho h
  obtain ⟨cF, f1, f2, _, f4, _, _⟩ := hsess
  obtain ⟨abF, chF, f5⟩ := averSession_img v d ops ho ms f4 fin
  simp only at f1 f2
  rw [f1, hv, Option.map_some, Option.some.injEq] at f5
  have hPV : P.used = V.used := by rw [f2, f5]; rfl
  refine ⟨hPV, ?_⟩
  rw [hPV]
  simp only [AVer.accepted, Bool.and_eq_true, Bool.not_eq_true'] at hacc
  obtain ⟨hab, hch⟩ := hacc
  simp only [aprvSession, aprvFinalize, Option.bind_eq_bind, Option.bind_eq_some_iff, Option.some.injEq, Prod.mk.injEq] at h
  obtain ⟨r, hr, t, ⟨p, hp, s, hs, rfl⟩, -, rfl, rfl⟩ := h
  simp only [averSession, averFinalize, Option.bind_eq_bind, Option.bind_eq_some_iff, Option.some.injEq] at hv
  obtain ⟨V1, hv1, V2, hv2, V3, hv3, rfl⟩ := hv
  simp only [averFinHash, Bool.or_eq_false_iff, Bool.not_eq_false', beq_iff_eq] at hab hch
  obtain ⟨hab, hdig⟩ := hab
  obtain ⟨c, m1, m2, m3, m4, pl, _, m6⟩ := aprvRun_com v d ops (c := ACom.init) ho hr (AHon.init _) APlainOf.init
  obtain ⟨ab', ch', k1⟩ := averRun_img v d ops ACom.init false false r.2 m4 ho
  rw [m1, averImg_init, hv1, Option.map_some, Option.some.injEq] at k1
  -- the last polynomial batch
  have mono2 : AMono V1 V2 := by
    unfold averFinPoly at hv2
    split at hv2
    · exact AMono.polyCheck hv2
    · rw [Option.some.injEq] at hv2; subst hv2; exact AMono.refl _
  have mono3 : AMono V2 V3 := by
    unfold averFinMul at hv3
    split at hv3
    · exact AMono.mulCheck hv3
    · rw [Option.some.injEq] at hv3; subst hv3; exact AMono.refl _
  have hV1 : V1.polys ≠ [] ↔ (aprvOf c).polys ≠ [] := by rw [k1]; simp [averImg, aprvOf]
  have hV1c : (aprvOf c).polys ≠ [] ↔ c.polys ≠ [] := by simp [aprvOf]
  rw [m2] at hp
  have hP : (∃ t2 : Nat → Fp, ∀ t : Nat → Fp, (∀ n, V1.used ≤ n → n < V2.used → t n = t2 n) →
      (if V1.polys ≠ [] then simPolyA (v.env d) t V1 else (0, 0)) = p.2) ∧
      (∃ c2, p.1 = aprvOf c2 ∧ (V2.gates ≠ [] ↔ c2.gates ≠ [])) := by
    unfold aprvFinPoly at hp
    unfold averFinPoly at hv2
    by_cases hf : V1.polys ≠ []
    · rw [if_pos (hV1.1 hf)] at hp
      rw [if_pos hf] at hv2
      have hcan : ∀ p ∈ c.polys, p.CanonC := fun p hp => m3.canon p (by simp [ACom.stmts, hp])
      have ha := aprvPolyCheck_canon hcan (hV1c.1 (hV1.1 hf)) hp
      refine ⟨⟨fun _ => fp p.2.2, fun t ht => ?_⟩, ?_⟩
      · rw [if_pos hf]
        have hru : V2.used = V1.used + 1 := by
          simp only [averPolyCheck, Option.bind_eq_bind, Option.bind_eq_some_iff, Option.some.injEq] at hv2
          obtain ⟨ok, _, rfl⟩ := hv2
          rfl
        exact (simPolyA_of hv2 (mono3.cheat hch) ha (ht V1.used (le_refl _) (by omega))).1
      · obtain ⟨ans, l1, _⟩ := aprvPolyCheck_com v d (hV1c.1 (hV1.1 hf)) m3
        rw [hp, Option.some.injEq] at l1
        refine ⟨_, by rw [l1], ?_⟩
        simp only [averPolyCheck, Option.bind_eq_bind, Option.bind_eq_some_iff, Option.some.injEq] at hv2
        obtain ⟨ok, _, rfl⟩ := hv2
        rw [k1]
        simp [averImg, acomPolyCheck]
    · rw [if_neg (fun h' => hf (hV1.2 h')), Option.some.injEq] at hp
      rw [if_neg hf, Option.some.injEq] at hv2
      subst hp; subst hv2
      exact ⟨⟨fun _ => 0, fun t _ => by rw [if_neg hf]⟩, c, rfl, by rw [k1]; simp [averImg]⟩
  obtain ⟨⟨t2, h2⟩, c2, p1, p2⟩ := hP
  rw [p1] at hs
  have hA : ∃ t3 : Nat → Fp, ∀ t : Nat → Fp, (∀ n, V2.used ≤ n → n < V3.used → t n = t3 n) →
      (if V2.gates ≠ [] then simMulA (v.env d) t V2 else (0, 0)) = s.2 := by
    unfold aprvFinMul at hs
    unfold averFinMul at hv3
    have e2 : (aprvOf c2).gates ≠ [] ↔ V2.gates ≠ [] := by rw [p2]; simp [aprvOf]
    by_cases hf : V2.gates ≠ []
    · rw [if_pos (e2.2 hf)] at hs
      rw [if_pos hf] at hv3
      have ha := aprvMulCheck_canon hs
      refine ⟨fun _ => fp s.2.2, fun t ht => ?_⟩
      rw [if_pos hf]
      have hru : V3.used = V2.used + 1 := by
        simp only [averMulCheck, Option.bind_eq_bind, Option.bind_eq_some_iff, Option.some.injEq] at hv3
        obtain ⟨ok, _, rfl⟩ := hv3
        rfl
      exact (simMulA_of hv3 hab ha (ht V2.used (le_refl _) (by omega))).1
    · rw [if_neg (fun h' => hf (e2.1 h')), Option.some.injEq] at hs
      subst hs
      exact ⟨fun _ => 0, fun t _ => by rw [if_neg hf]⟩
  obtain ⟨t3, h3⟩ := hA
  obtain ⟨t1, h1⟩ := asim_run v d (outs := V3.outs) ops (c := ACom.init) (ab := false) (ch := false) ho hr (AHon.init _)
    APlainOf.init (by rw [averImg_init]; exact hv1)
    (mono2.aborted (mono3.aborted hab)) (mono2.cheat (mono3.cheat hch)) (mono2.outs.trans mono3.outs)
  refine ⟨fun n => if n < V1.used then t1 n else if n < V2.used then t2 n else t3 n, fun t ht => ?_⟩
  have hu3 : (averFinHash (v.env d) V3 ((v.env d).hash s.1.stored)).used = V3.used := rfl
  have hu0 : 1 ≤ V1.used := (AMono.run ops hv1).used
  have m2u := mono2.used
  have m3u := mono3.used
  simp only [hu3] at ht
  have e1 := h1 t (fun n hn hn' => by
    have hn1 : 1 ≤ n := hn
    rw [ht n hn1 (by omega)]
    exact if_pos hn')
  have e2 := h2 t (fun n hn hn' => by
    rw [ht n (by omega) (by omega)]
    exact (if_neg (by omega)).trans (if_pos hn'))
  have e3 := h3 t (fun n hn hn' => by
    rw [ht n (by omega) (by omega)]
    exact (if_neg (by omega)).trans (if_neg (by omega)))
  rw [averImg_init] at e1
  have ho3 : (averFinHash (v.env d) V3 ((v.env d).hash s.1.stored)).outs = V3.outs := rfl
  simp only [simSessionA, ho3, e1, simFinA, e2, hv2, e3, hv3, Option.bind_eq_bind, Option.bind_some, hdig]

end sim

theorem simRunA_public (e : AEnv) (u mac : Nat → W) (t : Nat → Fp) (outs : List W) (ops : List AOp) : ∀ s : AVer,
    simRunA { e with u := u, mac := mac } t outs s (ops.map AOp.erase) = simRunA e t outs s ops := by
  induction ops with
  | nil => intro s; rfl
  | cons o os ih =>
    intro s
    have h1 : ∀ s : AVer, simMsgA { e with u := u, mac := mac } t outs s o.erase = simMsgA e t outs s o := by
      intro s; cases o <;> rfl
    have h2 : ∀ (s : AVer) m, averStep { e with u := u, mac := mac } s m o.erase = averStep e s m o := by
      intro s m; cases o <;> rfl
    simp only [List.map_cons, simRunA, h1, h2, ih]

/-- The simulator uses neither the prover's correlation values nor the values of the private inputs. -/
theorem simSessionA_public (e : AEnv) (u mac : Nat → W) (t : Nat → Fp) (outs : List W) (ops : List AOp) :
    simSessionA { e with u := u, mac := mac } t outs (ops.map AOp.erase) = simSessionA e t outs ops := by
  simp only [simSessionA, simRunA_public]
  rfl

theorem simSessionA_withU (e : AEnv) (u : Nat → Fp) (t : Nat → Fp) (outs : List W) (ops : List AOp) :
    simSessionA (e.withU u) t outs ops = simSessionA e.blind t outs (ops.map AOp.erase) := by
  rw [AEnv.blind, simSessionA_public, ← simSessionA_public (e.withU u) e.u e.mac, ← simSessionA_public e e.u e.mac]
  rfl

end EmpZk
