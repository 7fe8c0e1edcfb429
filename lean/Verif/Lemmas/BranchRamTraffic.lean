/-
The instructions of two branching programs with a memory that reveal the same bits.
-/
import Verif.Spec.BranchTraffic
import Verif.Lemmas.RamTraffic
import Verif.Lemmas.RamCheckNet

namespace EmpZk

/-- As many wires for other values. -/
theorem bits_both {p p' : Plain} (h : p.wires.length = p'.wires.length) {o o' : MOp} (ho : o.erase = o'.erase) :
    OBoth (fun a b => a.wires.length = b.wires.length) (MOp.bits p o) (MOp.bits p' o') := by
  cases o <;> cases o' <;> simp only [MOp.erase, reduceCtorEq, MOp.bool.injEq] at ho <;>
  first
  | exact plainStep_both h ho
  | exact OBoth.some h

theorem allBits_both : ∀ {l l' : List MOp} {p p' : Plain}, p.wires.length = p'.wires.length → l.map MOp.erase = l'.map MOp.erase →
    OBoth (fun a b => a.wires.length = b.wires.length) (l.foldlM MOp.bits p) (l'.foldlM MOp.bits p') := by
  intro l
  induction l with
  | nil =>
    intro l' p p' h hl
    cases l' with
    | nil => exact OBoth.some h
    | cons o l' => simp at hl
  | cons o l ih =>
    intro l' p p' h hl
    cases l' with
    | nil => simp at hl
    | cons o' l' =>
      simp only [List.map_cons, List.cons.injEq] at hl
      rw [List.foldlM_cons, List.foldlM_cons]
      exact (bits_both h hl.1).bind (fun _ _ hab => ih hab hl.2)

theorem plainAll_both : ∀ {l l' : List BOp} {p p' : Plain}, p.wires.length = p'.wires.length → l.map BOp.erase = l'.map BOp.erase →
    OBoth (fun a b => a.wires.length = b.wires.length) (l.foldlM plainStep p) (l'.foldlM plainStep p') := by
  intro l
  induction l with
  | nil =>
    intro l' p p' h hl
    cases l' with
    | nil => exact OBoth.some h
    | cons o l' => simp at hl
  | cons o l ih =>
    intro l' p p' h hl
    cases l' with
    | nil => simp at hl
    | cons o' l' =>
      simp only [List.map_cons, List.cons.injEq] at hl
      rw [List.foldlM_cons, List.foldlM_cons]
      exact (plainStep_both h hl.1).bind (fun _ _ hab => ih hab hl.2)

section
variable {F : Type} [Field F] [BlockField F] [DecidableEq F]

theorem mplain_bits {ch : Nat → F} {s s' : MPlain F} {o : MOp} (h : mplainStep ch s o = some s') : MOp.bits s.bp o = some s'.bp := by
  cases o with
  | bool o =>
    simp only [mplainStep, Option.map_eq_some_iff] at h
    obtain ⟨b, hb, rfl⟩ := h
    exact hb
  | chal => simp only [mplainStep, Option.some.injEq] at h; subst h; rfl
  | chals n => simp only [mplainStep, Option.some.injEq] at h; subst h; rfl
  | sync => simp only [mplainStep, Option.some.injEq] at h; subst h; rfl
  | _ =>
    simp only [mplainStep, Option.bind_eq_bind, Option.bind_eq_some_iff, Option.ite_none_right_eq_some, Option.some.injEq] at h
    first
    | (obtain ⟨_, _, _, _, _, rfl⟩ := h; rfl)
    | (obtain ⟨_, _, _, _, rfl⟩ := h; rfl)
    | (obtain ⟨_, _, _, rfl⟩ := h; rfl)
    | (obtain ⟨_, _, rfl⟩ := h; rfl)

theorem mplains_bits {ch : Nat → F} : ∀ {l : List MOp} {s s' : MPlain F}, mplainOps ch s l = some s' → l.foldlM MOp.bits s.bp = some s'.bp := by
  intro l
  induction l with
  | nil => intro s s' h; cases h; rfl
  | cons o l ih =>
    intro s s' h
    rw [mplainOps, List.foldlM_cons, Option.bind_eq_bind, Option.bind_eq_some_iff] at h
    obtain ⟨m, hm, h⟩ := h
    rw [List.foldlM_cons, mplain_bits hm]
    exact ih h

end

/-- How the calls end. -/
def RamEnd (c : RamCfg) (u u' : UPlain) (r r' : Branch BOp Unit) : Prop :=
  (3 ≤ u.log.length ∧ u.log.length ≤ 2 ^ (c.ssz - 1) ∧ WrittenFirst u.log) ∧
    (3 ≤ u'.log.length ∧ u'.log.length ≤ 2 ^ (c.ssz - 1) ∧ WrittenFirst u'.log) ∧
    ∀ w w', w.length = w'.length → OpensB (fun _ _ _ _ => True) ⟨u.bp.wires ++ w, u.bp.outs ++ [true], u.bp.claims⟩
      ⟨u'.bp.wires ++ w', u'.bp.outs ++ [true], u'.bp.claims⟩ r r'

theorem opens_logs {c : RamCfg} {u u' : UPlain} {t t' : Branch UOp (Branch BOp Unit)}
    (h : Branch.Opens UOp.erase (uplainStep c) (fun u => u.bp.outs) (RamEnd c) u u' t t') :
    u.log.length ≤ 2 ^ (c.ssz - 1) ∧ u'.log.length ≤ 2 ^ (c.ssz - 1) := by
  induction h with
  | fin h => exact ⟨h.1.2.1, h.2.1.2.1⟩
  | ops _ h1 h2 _ _ ih => exact ⟨(uplainOps_log _ h1).trans ih.1, (uplainOps_log _ h2).trans ih.2⟩

section
variable (F : Type) [Field F] [BlockField F] [DecidableEq F]

theorem uTree_opens {lib : CmpLib} (hl : lib.Good) {c : RamCfg} (hc : c.Ok) {u u' : UPlain} {t t' : Branch UOp (Branch BOp Unit)}
    (h : Branch.Opens UOp.erase (uplainStep c) (fun u => u.bp.outs) (RamEnd c) u u' t t') :
    u.bp.outs = u'.bp.outs → ∀ {g g' : RNet} {s s' : MPlain F}, RSim c g u s → RSim c g' u' s' → RSame g g' →
      Branch.Opens MOp.erase MOp.bits Plain.outs (OpensB (fun _ _ _ _ => True)) u.bp u'.bp (uTreeGen lib c g t) (uTreeGen lib c g' t') := by
  induction h with
  | fin h =>
    intro ho g g' s s' h1 h2 hg
    obtain ⟨⟨a1, a2, a3⟩, ⟨b1, b2, b3⟩, hr⟩ := h
    obtain ⟨l, w, ok, _, k1, _, _, _, k2, k3⟩ := rsim_check hl hc h1 a1 a2
    obtain ⟨l', w', ok', _, m1, _, _, _, m2, m3⟩ := rsim_check hl hc h2 b1 b2
    rw [k2 a3] at k3
    rw [m2 b3] at m3
    obtain ⟨_, k4⟩ := k3 (fun _ => 0)
    obtain ⟨_, m4⟩ := m3 (fun _ => 0)
    have k5 := mplains_bits k4
    have m5 := mplains_bits m4
    rw [h1.bp] at k5
    rw [h2.bp] at m5
    have he := checkGen_both lib c hg l l' k1 m1
    have hw : _ = _ := h1.bits ▸ h2.bits ▸ hg.bits
    have hw' := allBits_both hw he _ _ k5 m5
    simp only [List.length_append, hw, Nat.add_left_cancel_iff] at hw'
    rw [uTreeGen, uTreeGen, k1, m1]
    exact .ops he k5 m5 (by simp [ho]) (.fin (hr w w' hw'))
  | ops he hq hq' ho h ih =>
    intro _ g g' s s' h1 h2 hg
    have hb := opens_logs h
    have hpow : 2 ^ (c.ssz - 1) ≤ 2 ^ c.ssz := Nat.pow_le_pow_right (by decide) (by omega)
    obtain ⟨l, g1, s1, k1, k2, _, k3⟩ := rsim_steps hc _ h1 (hb.1.trans hpow) hq
    obtain ⟨l', g1', s1', m1, m2, _, m3⟩ := rsim_steps hc _ h2 (hb.2.trans hpow) hq'
    have hs := uGens_both c he hg _ _ k1 m1
    have k4 := mplains_bits (k3 (fun _ => 0))
    have m4 := mplains_bits (m3 (fun _ => 0))
    rw [h1.bp, k2.bp] at k4
    rw [h2.bp, m2.bp] at m4
    rw [uTreeGen, uTreeGen, k1, m1]
    exact .ops hs.1 k4 m4 ho (ih ho k2 m2 hs.2)

include F in
theorem ramTree_opens {lib : CmpLib} (hl : lib.Good) {c : RamCfg} (hc : c.Ok) {p p' : Plain} {t t' : RamTree}
    (h : OpensB (fun p p' a b => Branch.Opens UOp.erase (uplainStep c) (fun u => u.bp.outs) (RamEnd c) ⟨p, []⟩ ⟨p', []⟩ a b) p p' t t') :
    p.outs = p'.outs → p.wires.length = p'.wires.length →
      OpensB (Branch.Opens MOp.erase MOp.bits Plain.outs (OpensB (fun _ _ _ _ => True))) p p' (ramTreeGen lib c p t) (ramTreeGen lib c p' t') := by
  induction h with
  | @fin p p' a b h =>
    intro ho hw
    have h0 (b0 : Plain) : RSim c ⟨b0.wires, 0, ramInit c, []⟩ ⟨b0, []⟩ (⟨b0, [], []⟩ : MPlain F) := ⟨rfl, rfl, rfl, ramInit_inv c, rfl, rfl⟩
    exact .fin (uTree_opens F hl hc h ho (h0 p) (h0 p') ⟨hw, rfl, rfl, rfl⟩)
  | ops he hq hq' ho h ih =>
    intro _ hw
    rw [ramTreeGen, ramTreeGen, hq, hq']
    exact .ops he hq hq' ho (ih ho (plainAll_both hw he _ _ hq hq'))

end
end EmpZk
