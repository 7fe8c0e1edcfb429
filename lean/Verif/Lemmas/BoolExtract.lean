/-
Extraction: a committed session whose gates are correct and whose openings are honest is the run of the plain program on
the committed inputs.
-/
import Verif.Lemmas.BoolSound

namespace EmpZk
section
variable {F : Type} [Field F] [BlockField F]

/-- What has to be checked of a committed state for it to describe a plain run. -/
structure Faithful (c : ComSt F) : Prop where
  gates : ∀ g ∈ c.allGates, g.Correct
  opened : ∀ o ∈ c.opened, o.2 = lsb o.1

theorem comAndRoom_facts {v : BView F} {c r : ComSt F} {ans : F × F} (h : comAndRoom v c ans = some r) :
    r.allGates = c.allGates ∧ r.opened = c.opened ∧ r.plain = c.plain ∧ r.wires = c.wires := by
  unfold comAndRoom at h
  split at h
  · split at h
    · simp only [Option.some.injEq] at h
      subst h
      exact ⟨by simp [ComSt.allGates, comAndCheck], rfl, rfl, rfl⟩
    · simp at h
  · simp only [Option.some.injEq] at h
    subst h
    exact ⟨rfl, rfl, rfl, rfl⟩

theorem comPolyRoom_facts {v : BView F} {c : ComSt F} {ans : F × F} :
    (comPolyRoom v c ans).allGates = c.allGates ∧ (comPolyRoom v c ans).opened = c.opened ∧
      (comPolyRoom v c ans).plain = c.plain ∧ (comPolyRoom v c ans).wires = c.wires := by
  unfold comPolyRoom
  split
  · exact ⟨rfl, rfl, by simp [ComSt.plain, comPolyCheck, ComSt.stmts], rfl⟩
  · exact ⟨rfl, rfl, rfl, rfl⟩

theorem comStep_mono {v : BView F} {c c' : ComSt F} {m : BMsg F} {op : BOp} (h : comStep v c m op = some c')
    (hf : Faithful c') : Faithful c := by
  cases op with
  | input b => simp only [comStep, Option.some.injEq] at h; subst h; exact ⟨hf.gates, hf.opened⟩
  | pub b => simp only [comStep, Option.some.injEq] at h; subst h; exact ⟨hf.gates, hf.opened⟩
  | xor i j =>
    simp only [comStep, Option.bind_eq_bind, Option.bind_eq_some_iff, Option.some.injEq] at h
    obtain ⟨_, _, _, _, rfl⟩ := h; exact ⟨hf.gates, hf.opened⟩
  | not i =>
    simp only [comStep, Option.bind_eq_bind, Option.bind_eq_some_iff, Option.some.injEq] at h
    obtain ⟨_, _, rfl⟩ := h; exact ⟨hf.gates, hf.opened⟩
  | reveal i =>
    simp only [comStep, Option.bind_eq_bind, Option.bind_eq_some_iff, Option.some.injEq] at h
    obtain ⟨_, _, rfl⟩ := h
    exact ⟨hf.gates, fun o ho => hf.opened o (by simp [ho])⟩
  | and i j =>
    simp only [comStep, Option.bind_eq_bind, Option.bind_eq_some_iff] at h
    obtain ⟨_, _, _, _, r, hr, hs⟩ := h
    obtain ⟨k1, k2, _, _⟩ := comAndRoom_facts hr
    unfold comAndPush at hs
    split at hs
    · simp only [Option.some.injEq] at hs
      subst hs
      constructor
      · intro g hg
        apply hf.gates
        rw [← k1] at hg
        simp only [ComSt.allGates, ← List.append_assoc, List.mem_append] at hg ⊢
        exact Or.inl hg
      · rw [← k2]; exact hf.opened
    · simp at hs
  | poly st =>
    simp only [comStep, Option.bind_eq_bind, Option.bind_eq_some_iff] at h
    obtain ⟨_, _, hs⟩ := h
    obtain ⟨k1, k2, _, _⟩ := comPolyRoom_facts (v := v) (c := c) (ans := m.ans)
    unfold comPolyPush at hs
    split at hs
    · simp only [Option.some.injEq] at hs
      subst hs
      exact ⟨by rw [← k1]; exact hf.gates, by rw [← k2]; exact hf.opened⟩
    · simp at hs

/-- One step: the same instruction (on the committed input bit) in the plain program. -/
theorem comStep_plain {v : BView F} {c c' : ComSt F} {m : BMsg F} {op : BOp} (h : comStep v c m op = some c')
    (hf : Faithful c') : ∃ op', BOp.same op op' ∧ plainStep c.plain op' = some c'.plain := by
  cases op with
  | input b =>
    simp only [comStep, Option.some.injEq] at h
    subst h
    refine ⟨.input (lsb (v.mac c.used + bit m.bit)), trivial, ?_⟩
    simp only [plainStep, ComSt.plain, List.map_append, List.map_cons, List.map_nil]
    rfl
  | pub b =>
    simp only [comStep, Option.some.injEq] at h
    subst h
    refine ⟨.pub b, rfl, ?_⟩
    simp only [plainStep, ComSt.plain, List.map_append, List.map_cons, List.map_nil, lsb_pubPrv]
    rfl
  | xor i j =>
    simp only [comStep, Option.bind_eq_bind, Option.bind_eq_some_iff, Option.some.injEq] at h
    obtain ⟨a, ha, b, hb, rfl⟩ := h
    refine ⟨.xor i j, rfl, ?_⟩
    simp only [plainStep, ComSt.plain, List.map_append, List.map_cons, List.map_nil, List.getElem?_map, ha, hb,
        Option.map_some, Option.bind_eq_bind, Option.bind_some, lsb_add]
    rfl
  | not i =>
    simp only [comStep, Option.bind_eq_bind, Option.bind_eq_some_iff, Option.some.injEq] at h
    obtain ⟨a, ha, rfl⟩ := h
    refine ⟨.not i, rfl, ?_⟩
    simp only [plainStep, ComSt.plain, List.map_append, List.map_cons, List.map_nil, List.getElem?_map, ha,
        Option.map_some, Option.bind_eq_bind, Option.bind_some, lsb_add, lsb_one, Bool.xor_true]
    rfl
  | reveal i =>
    simp only [comStep, Option.bind_eq_bind, Option.bind_eq_some_iff, Option.some.injEq] at h
    obtain ⟨a, ha, rfl⟩ := h
    refine ⟨.reveal i, rfl, ?_⟩
    have : m.bit = lsb a := hf.opened (a, m.bit) (by simp)
    simp only [plainStep, ComSt.plain, List.map_append, List.map_cons, List.map_nil, List.getElem?_map, ha,
        Option.map_some, Option.bind_eq_bind, Option.bind_some, this]
    rfl
  | and i j =>
    simp only [comStep, Option.bind_eq_bind, Option.bind_eq_some_iff] at h
    obtain ⟨a, ha, b, hb, r, hr, hs⟩ := h
    obtain ⟨k1, k2, k3, k4⟩ := comAndRoom_facts hr
    unfold comAndPush at hs
    split at hs
    · simp only [Option.some.injEq] at hs
      subst hs
      refine ⟨.and i j, rfl, ?_⟩
      have hc : lsb (v.mac r.used + bit m.bit) = (lsb a && lsb b) :=
        hf.gates ⟨a, b, v.mac r.used + bit m.bit⟩ (by simp [ComSt.allGates])
      rw [← k3]
      simp only [plainStep, ComSt.plain, k4, List.map_append, List.map_cons, List.map_nil, List.getElem?_map,
          ha, hb, Option.map_some, Option.bind_eq_bind, Option.bind_some, hc]
      rfl
    · simp at hs
  | poly st =>
    simp only [comStep, Option.bind_eq_bind, Option.bind_eq_some_iff] at h
    obtain ⟨p, hp, hs⟩ := h
    obtain ⟨k1, k2, k3, k4⟩ := comPolyRoom_facts (v := v) (c := c) (ans := m.ans)
    unfold comPolyPush at hs
    split at hs
    · simp only [Option.some.injEq] at hs
      subst hs
      refine ⟨.poly st, rfl, ?_⟩
      rw [← k3]
      simp only [plainStep, ComSt.plain, k4, lookup_map, hp, Option.map_some, Option.bind_eq_bind, Option.bind_some,
          ComSt.stmts, ← List.append_assoc, List.map_append, List.map_cons, List.map_nil]
    · simp at hs

theorem comRun_faithful {v : BView F} (ops : List BOp) : ∀ {c c' : ComSt F} {ms : List (BMsg F)},
    comRun v c ops ms = some c' → Faithful c' →
    Faithful c ∧ ∃ ops', List.Forall₂ BOp.same ops ops' ∧ ops'.foldlM plainStep c.plain = some c'.plain := by
  induction ops with
  | nil =>
    intro c c' ms hs hf
    cases ms with
    | nil =>
      simp only [comRun, Option.some.injEq] at hs; subst hs
      exact ⟨hf, [], .nil, rfl⟩
    | cons => simp [comRun] at hs
  | cons o os ih =>
    intro c c' ms hs hf
    cases ms with
    | nil => simp [comRun] at hs
    | cons m ms =>
      simp only [comRun, Option.bind_eq_bind, Option.bind_eq_some_iff] at hs
      obtain ⟨c1, h1, h2⟩ := hs
      obtain ⟨f1, ops', k1, k2⟩ := ih h2 hf
      obtain ⟨o', l1, l2⟩ := comStep_plain h1 f1
      refine ⟨comStep_mono h1 f1, o' :: ops', .cons l1 k1, ?_⟩
      simp only [List.foldlM_cons, l2, Option.bind_eq_bind, Option.bind_some, k2]

theorem comFinalize_facts {v : BView F} {c c' : ComSt F} {m : BFin F} (h : comFinalize v c m = some c') :
    c'.allGates = c.allGates ∧ c'.opened = c.opened ∧ c'.plain = c.plain ∧ c'.wires = c.wires ∧ c'.gates = [] ∧
      c'.polys = [] ∧ c'.stmts = c.stmts := by
  have h1 : (comFinPoly v c m.polyAns).allGates = c.allGates ∧ (comFinPoly v c m.polyAns).opened = c.opened ∧
      (comFinPoly v c m.polyAns).plain = c.plain ∧ (comFinPoly v c m.polyAns).wires = c.wires ∧
      (comFinPoly v c m.polyAns).polys = [] ∧ (comFinPoly v c m.polyAns).stmts = c.stmts := by
    unfold comFinPoly
    split
    · exact ⟨rfl, rfl, by simp [ComSt.plain, comPolyCheck, ComSt.stmts], rfl, rfl, by simp [comPolyCheck, ComSt.stmts]⟩
    · rename_i hp
      exact ⟨rfl, rfl, rfl, rfl, by simpa using hp, rfl⟩
  obtain ⟨a1, a2, a3, a4, a5, a6⟩ := h1
  unfold comFinalize comFinAnd at h
  split at h
  · split at h
    · simp only [Option.some.injEq] at h
      subst h
      refine ⟨?_, a2, a3, a4, rfl, a5, a6⟩
      rw [← a1]
      simp [ComSt.allGates, comAndCheck]
    · simp at h
  · rename_i hg
    simp only [Option.some.injEq] at h
    subst h
    exact ⟨a1, a2, a3, a4, by simpa using hg, a5, a6⟩

/-- A whole session. -/
theorem comSession_faithful {v : BView F} {ops : List BOp} {ms : List (BMsg F)} {fin : BFin F} {c : ComSt F}
    (h : comSession v ops ms fin = some c) (hf : Faithful c) :
    ∃ ops', List.Forall₂ BOp.same ops ops' ∧ plainRun ops' = some c.plain := by
  simp only [comSession, Option.bind_eq_bind, Option.bind_eq_some_iff] at h
  obtain ⟨c1, h1, h2⟩ := h
  obtain ⟨k1, k2, k3, _⟩ := comFinalize_facts h2
  obtain ⟨_, ops', l1, l2⟩ := comRun_faithful ops h1 ⟨by rw [← k1]; exact hf.gates, by rw [← k2]; exact hf.opened⟩
  refine ⟨ops', l1, ?_⟩
  rw [k3]
  exact l2

/-- An honest transcript is accepted for every `Delta`. -/
theorem honest_accepts [DecidableEq F] (v : BView F) {delta : F} (hl : lsb delta = true) {ops : List BOp}
    {ms : List (BMsg F)} {fin : BFin F} {c : ComSt F} (k1 : comSession v ops ms fin = some c) (k3 : Hon v c)
    (k5 : fin.digest = v.hash (c.opened.map Prod.fst)) :
    ∃ ch, verSession (v.env delta) ops ms fin = some (verImg delta c ch) ∧
      (verImg delta c ch).digest = c.opened.map Prod.fst ∧
      ((∀ b ∈ c.plain.claims, b = false) → cheated (verImg delta c ch) = false) := by
  obtain ⟨ch, k6⟩ := verSession_img v hl ops ms fin
  rw [k1, Option.map_some] at k6
  have hdig : (verImg delta c ch).digest = c.opened.map Prod.fst := by
    simp only [verImg]
    apply List.map_congr_left
    intro o ho
    rw [openVer_keyOf, k3.opened o ho, Bool.xor_self, bit_false, zero_mul, add_zero]
  refine ⟨ch, k6, hdig, ?_⟩
  intro hclaims
  have := (cheats_session k6).2 ⟨?_, ?_, ?_⟩
  · simp [cheated, this]
  · intro r hr
    simp only [verImg, List.mem_map] at hr
    obtain ⟨r', hr', rfl⟩ := hr
    have hp := k3.andLog r' hr'
    have hgc : ∀ g ∈ r'.gates, g.Correct := by
      intro g hg
      apply k3.gates
      simp only [ComSt.allGates, List.mem_append, List.mem_flatMap]
      exact Or.inl ⟨r', hr', hg⟩
    unfold andCheckPrv at hp
    have := andCheckVer_keyOf delta r'.gates v.threads r'.seeds (fun i => v.mac (r'.ope + i)) r'.ans
    unfold AndOK
    refine this.trans ?_
    cases hs : splitTasks r'.gates.length v.threads with
    | none => rw [hs] at hp; simp at hp
    | some tasks =>
      rw [hs] at hp
      simp only [Option.some.injEq] at hp
      rw [Option.map_some, ← hp, errSum_correct _ hgc]
      simp only [Option.some.injEq, decide_eq_true_eq]
      ring
  · intro r hr
    simp only [verImg, List.mem_map] at hr
    obtain ⟨r', hr', rfl⟩ := hr
    have hp := k3.polyLog r' hr'
    have := polyCheckVer_keyOf delta r'.polys r'.seed (fun i => v.mac (r'.ope + i)) r'.ans
    unfold PolyOK
    refine this.trans ?_
    rw [chiSum_zero _ _ _ (by
      intro s hs
      have : (s.map lsb).eval = false := by
        apply hclaims
        simp only [ComSt.plain, ComSt.stmts, List.map_append, List.mem_append, List.mem_map, List.mem_flatMap]
        exact Or.inl ⟨s, ⟨r', hr', hs⟩, rfl⟩
      rw [this, bit_false])]
    simp only [hp, decide_eq_true_eq]
    rw [addSelf]
    ring
  · rw [hdig, k5]
    rfl

end
end EmpZk
