/-
Two honest provers with the same program and different witnesses look alike to every verifier.
-/
import Verif.Lemmas.View
import Verif.Lemmas.ArithSound

namespace EmpZk

/-! ### wires of two provers with the same key -/

/-- A wire in two sessions: its two values and the verifier's key. -/
structure JW where
  x : Fp
  x' : Fp
  k : Fp

/-- Value and MAC in the first session. -/
def JW.l (d : Fp) (j : JW) : Fp × Fp := (j.x, j.k + j.x * d)
/-- Value and MAC in the second session. -/
def JW.r (d : Fp) (j : JW) : Fp × Fp := (j.x', j.k + j.x' * d)

/-- A multiplication in two sessions. -/
structure JG where
  a : JW
  b : JW
  c : JW

def JG.l (d : Fp) (g : JG) : CGate := ⟨g.a.l d, g.b.l d, g.c.l d⟩
def JG.r (d : Fp) (g : JG) : CGate := ⟨g.a.r d, g.b.r d, g.c.r d⟩

theorem keyAt_jw (d : Fp) (j : JW) : keyAt d (j.l d) = keyAt d (j.r d) := by
  simp only [keyAt, JW.l, JW.r]
  congr 2
  ring

theorem taskSum_map {α β : Type} (f : β → Fp) (h : α → β) (buf : List α) (seeds : Nat → Fp) (ts : List (Nat × Nat)) (i : Nat) :
    taskSum f (buf.map h) seeds ts i = taskSum (fun x => f (h x)) buf seeds ts i := by
  induction ts generalizing i with
  | nil => rfl
  | cons t ts ih => simp only [taskSum, ih, taskSlice_map, List.map_map, Function.comp_def]

/-- The sums of the multiplication check of the two sessions differ along the line known to the verifier. -/
theorem jsum_eq (d : Fp) (gs : List JG) (hl : ∀ g ∈ gs, (g.l d).Correct) (hr : ∀ g ∈ gs, (g.r d).Correct) (seeds : Nat → Fp)
    (ts : List (Nat × Nat)) :
    taskSum CGate.a0 (gs.map (JG.l d)) seeds ts 0 - taskSum CGate.a1 (gs.map (JG.l d)) seeds ts 0 * d =
      taskSum CGate.a0 (gs.map (JG.r d)) seeds ts 0 - taskSum CGate.a1 (gs.map (JG.r d)) seeds ts 0 * d := by
  have h1 := taskSum_B d (gs.map (JG.l d)) seeds ts 0
  have h2 := taskSum_B d (gs.map (JG.r d)) seeds ts 0
  have z1 : taskSum CGate.err (gs.map (JG.l d)) seeds ts 0 = 0 :=
    taskSum_correct _ (by simpa using hl) seeds ts 0
  have z2 : taskSum CGate.err (gs.map (JG.r d)) seeds ts 0 = 0 :=
    taskSum_correct _ (by simpa using hr) seeds ts 0
  rw [z1, zero_mul, add_zero] at h1
  rw [z2, zero_mul, add_zero] at h2
  rw [← h1, ← h2, taskSum_map, taskSum_map]
  congr 1
  funext g
  simp only [JG.l, JG.r, JW.l, JW.r, CGate.a0, CGate.a1, CGate.err]
  ring

/-- The same for the sums of the polynomial check. -/
theorem jpoly_eq (d : Fp) (ps : List (APoly JW)) (hc : ∀ p ∈ ps, p.CanonC) (hl : ∀ p ∈ ps, (p.map (JW.l d)).value = 0)
    (hr : ∀ p ∈ ps, (p.map (JW.r d)).value = 0) (s : Fp) :
    chiSum s ((ps.map (APoly.map (JW.l d))).map APoly.a0) - chiSum s ((ps.map (APoly.map (JW.l d))).map APoly.a1) * d =
      chiSum s ((ps.map (APoly.map (JW.r d))).map APoly.a0) - chiSum s ((ps.map (APoly.map (JW.r d))).map APoly.a1) * d := by
  have hcm : ∀ (f : JW → Fp × Fp) (p : APoly JW), p.CanonC → (p.map f).CanonC := by
    intro f p h
    cases p with
    | deg2 c t => exact ⟨h.1, by intro x hx; simp only [List.mem_map] at hx; obtain ⟨y, hy, rfl⟩ := hx; exact h.2 y hy⟩
    | inner c t => exact h
  have e : ∀ p ∈ ps, (p.map (JW.l d)).a0 + (p.map (JW.l d)).a1 * (-d) = (p.map (JW.r d)).a0 + (p.map (JW.r d)).a1 * (-d) := by
    intro p hp
    have h1 := apolyB_keyAt d (p.map (JW.l d)) (hcm _ p (hc p hp))
    have h2 := apolyB_keyAt d (p.map (JW.r d)) (hcm _ p (hc p hp))
    have e0 : (p.map (JW.l d)).map (keyAt d) = (p.map (JW.r d)).map (keyAt d) := by
      rw [APoly.map_map, APoly.map_map]
      congr 1
      funext j
      exact keyAt_jw d j
    rw [e0, h2, hl p hp, hr p hp] at h1
    have := toW_inj h1
    linear_combination -this
  have hm : ∀ f : JW → Fp × Fp, chiSum s ((ps.map (APoly.map f)).map APoly.a0) - chiSum s ((ps.map (APoly.map f)).map APoly.a1) * d =
      chiSum s (ps.map (fun p => (p.map f).a0 + (p.map f).a1 * (-d))) := by
    intro f
    rw [chiSum_add, chiSum_mul, List.map_map, List.map_map]
    simp only [Function.comp_def]
    ring
  rw [hm, hm]
  congr 1
  exact List.map_congr_left e

/-! ### the two sessions -/

/-- The states of the two provers and the plain programs. `H`: what is needed as soon as there are polynomial statements. -/
structure Pair (d : Fp) (H : Prop) (s s' : APrv) (pl pl' : APlain) (js : List JW) (gs : List JG) (ps : List (APoly JW)) : Prop where
  w : s.wires = (js.map (JW.l d)).map lab
  w' : s'.wires = (js.map (JW.r d)).map lab
  g : s.gates = (gs.map (JG.l d)).map CGate.lab
  g' : s'.gates = (gs.map (JG.r d)).map CGate.lab
  gc : ∀ g ∈ gs, (g.l d).Correct
  gc' : ∀ g ∈ gs, (g.r d).Correct
  p : s.polys = (ps.map (APoly.map (JW.l d))).map (fun p => apolyA (p.map lab))
  p' : s'.polys = (ps.map (APoly.map (JW.r d))).map (fun p => apolyA (p.map lab))
  pc : ∀ p ∈ ps, p.CanonC
  pz : ∀ p ∈ ps, (p.map (JW.l d)).value = 0
  pz' : ∀ p ∈ ps, (p.map (JW.r d)).value = 0
  st : s.stored = s'.stored
  pw : pl.wires = js.map JW.x
  pw' : pl'.wires = js.map JW.x'
  np : ps ≠ [] → H

/-- The two states match. -/
def Matched (d : Fp) (H : Prop) (pl pl' : APlain) (s s' : APrv) : Prop := ∃ js gs ps, Pair d H s s' pl pl' js gs ps

section
variable {d : Fp} {H : Prop} {s s' : APrv} {pl pl' : APlain} {js : List JW} {gs : List JG} {ps : List (APoly JW)}
  {key : Nat → Fp} {Bad : Nat → List Byte → Prop} {ne : ANetEnv}

theorem equi_ofOpt {α β : Type} {vc : Nat → Fp → U128} {Φ : Nat → α → β → Prop} {i : Nat} {a : Option α} {b : Option β}
    (h : (a = none ∧ b = none) ∨ ∃ x y, a = some x ∧ b = some y ∧ Φ i x y) :
    VProg.Equi vc Bad Φ i (VProg.ofOpt a) (VProg.ofOpt b) := by
  rcases h with ⟨rfl, rfl⟩ | ⟨x, y, rfl, rfl, h⟩
  · exact .fail
  · exact .done h

/-- Two matched answers. -/
theorem mulCheck_view (hP : Pair d H s s' pl pl' js gs ps) (hb : ∀ b, ¬ Bad 16 b) (i : Nat) :
    VProg.Equi (fun n => corOf d (key n)) Bad (fun _ t t' => Pair d H t t' pl pl' js [] ps ∧ t.gates = []) i
      (aprvMulCheckV ne s) (aprvMulCheckV ne s') := by
  unfold aprvMulCheckV
  refine .recv 16 (fun b _ => ?_)
  set seeds := ne.expand (decBlk b)
  have e1 : ∀ u, mulCheckA s.gates ne.base.threads seeds (corOf d (key i) u) =
      (mulTasks gs.length ne.base.threads).map (fun ts => (toW (mulAns (gs.map (JG.l d)) seeds ts (u, key i + d * u)).1,
        toW (mulAns (gs.map (JG.l d)) seeds ts (u, key i + d * u)).2)) := by
    intro u
    rw [hP.g, corOf, mulCheckA_lab, List.length_map]
  have e2 : ∀ u, mulCheckA s'.gates ne.base.threads seeds (corOf d (key i) u) =
      (mulTasks gs.length ne.base.threads).map (fun ts => (toW (mulAns (gs.map (JG.r d)) seeds ts (u, key i + d * u)).1,
        toW (mulAns (gs.map (JG.r d)) seeds ts (u, key i + d * u)).2)) := by
    intro u
    rw [hP.g', corOf, mulCheckA_lab, List.length_map]
  cases ht : mulTasks gs.length ne.base.threads with
  | none =>
    refine .cor (Equiv.refl _) (fun u => ?_)
    show VProg.Equi _ _ _ _ ((VProg.ofOpt (mulCheckA s.gates ne.base.threads seeds (corOf d (key i) u))).bind _)
      ((VProg.ofOpt (mulCheckA s'.gates ne.base.threads seeds (corOf d (key i) u))).bind _)
    rw [e1, e2, ht]
    exact .fail
  | some ts =>
    have hs := jsum_eq d gs hP.gc hP.gc' (fun i => seedFp (seeds i)) ts
    refine .cor (Equiv.addRight (taskSum CGate.a1 (gs.map (JG.l d)) (fun i => seedFp (seeds i)) ts 0 -
      taskSum CGate.a1 (gs.map (JG.r d)) (fun i => seedFp (seeds i)) ts 0)) (fun u => ?_)
    show VProg.Equi _ _ _ _ ((VProg.ofOpt (mulCheckA s.gates ne.base.threads seeds (corOf d (key i) u))).bind _)
      ((VProg.ofOpt (mulCheckA s'.gates ne.base.threads seeds (corOf d (key i) _))).bind _)
    rw [e1, e2, ht]
    simp only [Equiv.coe_addRight, Option.map_some, VProg.ofOpt, VProg.bind, mulAns]
    have ea : ∀ (x y x' y' : Fp), x = x' → y = y' → VProg.Equi (fun n => corOf d (key n)) Bad
        (fun _ t t' => Pair d H t t' pl pl' js [] ps ∧ t.gates = []) (i + 1)
        (.send (encAns (toW x, toW y)) (.done { s with used := s.used + 1, gates := [], mulBatches := s.mulBatches + 1 }))
        (.send (encAns (toW x', toW y')) (.done { s' with used := s'.used + 1, gates := [], mulBatches := s'.mulBatches + 1 })) := by
      rintro x y x' y' rfl rfl
      exact .send _ (.done ⟨⟨hP.w, hP.w', rfl, rfl, by simp, by simp, hP.p, hP.p', hP.pc, hP.pz, hP.pz', hP.st, hP.pw, hP.pw', hP.np⟩, rfl⟩)
    refine ea _ _ _ _ ?_ ?_
    · linear_combination hs
    · ring

theorem polyCheck_view (hP : Pair d H s s' pl pl' js gs ps) (hb : H → ∀ b, ¬ Bad 8 b → Canon (decW b)) (hne : ps ≠ []) (i : Nat) :
    VProg.Equi (fun n => corOf d (key n)) Bad (fun _ t t' => Pair d H t t' pl pl' js gs [] ∧ t.polys = []) i
      (aprvPolyCheckV ne s) (aprvPolyCheckV ne s') := by
  unfold aprvPolyCheckV
  refine .recv 8 (fun b hbad => ?_)
  have hcan := hb (hP.np hne) b hbad
  have hcm : ∀ (f : JW → Fp × Fp) (p : APoly JW), p.CanonC → (p.map f).CanonC := by
    intro f p h
    cases p with
    | deg2 c t => exact ⟨h.1, by intro x hx; simp only [List.mem_map] at hx; obtain ⟨y, hy, rfl⟩ := hx; exact h.2 y hy⟩
    | inner c t => exact h
  have hcl : ∀ f : JW → Fp × Fp, ∀ p ∈ ps.map (APoly.map f), p.CanonC := by
    intro f p hp
    simp only [List.mem_map] at hp
    obtain ⟨q, hq, rfl⟩ := hp
    exact hcm _ _ (hP.pc q hq)
  have e1 : ∀ u, apolyCheckA s.polys (decW b) (corOf d (key i) u) =
      some (toW (polyAns (ps.map (APoly.map (JW.l d))) (fp (decW b)) (u, key i + d * u)).1,
        toW (polyAns (ps.map (APoly.map (JW.l d))) (fp (decW b)) (u, key i + d * u)).2) := by
    intro u
    rw [hP.p, corOf, ← apolyCheckA_lab _ (hcl _) (by simpa using hne), toW_fp hcan]
  have e2 : ∀ u, apolyCheckA s'.polys (decW b) (corOf d (key i) u) =
      some (toW (polyAns (ps.map (APoly.map (JW.r d))) (fp (decW b)) (u, key i + d * u)).1,
        toW (polyAns (ps.map (APoly.map (JW.r d))) (fp (decW b)) (u, key i + d * u)).2) := by
    intro u
    rw [hP.p', corOf, ← apolyCheckA_lab _ (hcl _) (by simpa using hne), toW_fp hcan]
  have hs := jpoly_eq d ps hP.pc hP.pz hP.pz' (fp (decW b))
  refine .cor (Equiv.addRight (chiSum (fp (decW b)) ((ps.map (APoly.map (JW.l d))).map APoly.a1) -
    chiSum (fp (decW b)) ((ps.map (APoly.map (JW.r d))).map APoly.a1))) (fun u => ?_)
  show VProg.Equi _ _ _ _ ((VProg.ofOpt (apolyCheckA s.polys (decW b) (corOf d (key i) u))).bind _)
    ((VProg.ofOpt (apolyCheckA s'.polys (decW b) (corOf d (key i) _))).bind _)
  rw [e1, e2]
  simp only [Equiv.coe_addRight, VProg.ofOpt, VProg.bind, polyAns]
  have ea : ∀ (x y x' y' : Fp), x = x' → y = y' → VProg.Equi (fun n => corOf d (key n)) Bad
      (fun _ t t' => Pair d H t t' pl pl' js gs [] ∧ t.polys = []) (i + 1)
      (.send (encAns (toW x, toW y)) (.done { s with used := s.used + 1, polys := [], polyBatches := s.polyBatches + 1 }))
      (.send (encAns (toW x', toW y')) (.done { s' with used := s'.used + 1, polys := [], polyBatches := s'.polyBatches + 1 })) := by
    rintro x y x' y' rfl rfl
    exact .send _ (.done ⟨⟨hP.w, hP.w', hP.g, hP.g', hP.gc, hP.gc', rfl, rfl, by simp, by simp, by simp, hP.st, hP.pw, hP.pw', by simp⟩, rfl⟩)
  refine ea _ _ _ _ ?_ ?_
  · linear_combination hs
  · ring

theorem Pair.glen (hP : Pair d H s s' pl pl' js gs ps) : s.gates.length = s'.gates.length := by rw [hP.g, hP.g']; simp
theorem Pair.plen (hP : Pair d H s s' pl pl' js gs ps) : s.polys.length = s'.polys.length := by rw [hP.p, hP.p']; simp
theorem Pair.gnil (hP : Pair d H s s' pl pl' js gs ps) : s.gates = [] ↔ s'.gates = [] := by
  rw [← List.length_eq_zero_iff, ← List.length_eq_zero_iff, hP.glen]
theorem Pair.pnil (hP : Pair d H s s' pl pl' js gs ps) : s.polys = [] ↔ s'.polys = [] := by
  rw [← List.length_eq_zero_iff, ← List.length_eq_zero_iff, hP.plen]
theorem Pair.pne (hP : Pair d H s s' pl pl' js gs ps) (h : s.polys ≠ []) : ps ≠ [] := by
  rintro rfl; exact h (by rw [hP.p]; rfl)

theorem mulRoom_view (hP : Pair d H s s' pl pl' js gs ps) (hb : ∀ b, ¬ Bad 16 b) (i : Nat) :
    VProg.Equi (fun n => corOf d (key n)) Bad (fun _ t t' => ∃ gs, Pair d H t t' pl pl' js gs ps) i
      (aprvMulRoomV ne s) (aprvMulRoomV ne s') := by
  unfold aprvMulRoomV
  rw [← hP.glen]
  split
  · exact (mulCheck_view hP hb i).mono (fun j a b h => ⟨[], h.1⟩)
  · exact .done ⟨gs, hP⟩

theorem polyRoom_view (hP : Pair d H s s' pl pl' js gs ps) (hb : H → ∀ b, ¬ Bad 8 b → Canon (decW b)) (i : Nat) :
    VProg.Equi (fun n => corOf d (key n)) Bad (fun _ t t' => ∃ ps, Pair d H t t' pl pl' js gs ps) i
      (aprvPolyRoomV ne s) (aprvPolyRoomV ne s') := by
  unfold aprvPolyRoomV
  have e : (s'.polys.length ≥ ne.env.polySz ∧ s'.polys ≠ []) ↔ (s.polys.length ≥ ne.env.polySz ∧ s.polys ≠ []) := by
    rw [hP.plen, ne_eq, ne_eq, hP.pnil]
  by_cases h : s.polys.length ≥ ne.env.polySz ∧ s.polys ≠ []
  · rw [if_pos h, if_pos (e.2 h)]
    exact (polyCheck_view hP hb (hP.pne h.2) i).mono (fun j a b h => ⟨[], h.1⟩)
  · rw [if_neg h, if_neg (fun h' => h (e.1 h'))]
    exact .done ⟨ps, hP⟩

theorem finMul_view (hP : Pair d H s s' pl pl' js gs ps) (hb : ∀ b, ¬ Bad 16 b) (i : Nat) :
    VProg.Equi (fun n => corOf d (key n)) Bad (fun _ t t' => Matched d H pl pl' t t') i (aprvFinMulV ne s) (aprvFinMulV ne s') := by
  unfold aprvFinMulV
  by_cases h : s.gates ≠ []
  · rw [if_pos h, if_pos (fun h' => h (hP.gnil.2 h'))]
    exact (mulCheck_view hP hb i).mono (fun j a b h => ⟨js, [], ps, h.1⟩)
  · rw [if_neg h, if_neg (fun h' => h (fun h'' => h' (hP.gnil.1 h'')))]
    exact .done ⟨js, gs, ps, hP⟩

theorem finPoly_view (hP : Pair d H s s' pl pl' js gs ps) (hb : H → ∀ b, ¬ Bad 8 b → Canon (decW b)) (i : Nat) :
    VProg.Equi (fun n => corOf d (key n)) Bad (fun _ t t' => Matched d H pl pl' t t') i (aprvFinPolyV ne s) (aprvFinPolyV ne s') := by
  unfold aprvFinPolyV
  by_cases h : s.polys ≠ []
  · rw [if_pos h, if_pos (fun h' => h (hP.pnil.2 h'))]
    exact (polyCheck_view hP hb (hP.pne h) i).mono (fun j a b h => ⟨js, gs, [], h.1⟩)
  · rw [if_neg h, if_neg (fun h' => h (fun h'' => h' (hP.pnil.1 h'')))]
    exact .done ⟨js, gs, ps, hP⟩

theorem finalize_view (hP : Matched d H pl pl' s s') (hb : ∀ b, ¬ Bad 16 b) (hb' : H → ∀ b, ¬ Bad 8 b → Canon (decW b)) (i : Nat) :
    VProg.Equi (fun n => corOf d (key n)) Bad (fun _ t t' => Matched d H pl pl' t t') i (aprvFinalizeV ne s) (aprvFinalizeV ne s') := by
  obtain ⟨js, gs, ps, hP⟩ := hP
  unfold aprvFinalizeV
  refine (finPoly_view hP hb' i).bind ?_
  rintro j a a' ⟨js, gs, ps, hA⟩
  refine (finMul_view hA hb j).bind ?_
  rintro j b b' ⟨js, gs, ps, hB⟩
  rw [hB.st]
  exact .send _ (.done ⟨js, gs, ps, hB⟩)

/-- A new wire that needs no correlation. -/
theorem Pair.addWire (hP : Pair d H s s' pl pl' js gs ps) (j : JW) {x x' : Fp} (hx : x = j.x) (hx' : x' = j.x') {m m' : U128}
    (hm : m = lab (j.l d)) (hm' : m' = lab (j.r d)) (n n' : Nat) :
    Pair d H { s with wires := s.wires ++ [m], used := n } { s' with wires := s'.wires ++ [m'], used := n' }
      { pl with wires := pl.wires ++ [x] } { pl' with wires := pl'.wires ++ [x'] } (js ++ [j]) gs ps := by
  subst hx hx' hm hm'
  exact ⟨by simp [hP.w], by simp [hP.w'], hP.g, hP.g', hP.gc, hP.gc', hP.p, hP.p', hP.pc, hP.pz, hP.pz', hP.st, by simp [hP.pw],
    by simp [hP.pw'], hP.np⟩

/-- An opening to the same value. -/
theorem Pair.open (hP : Pair d H s s' pl pl' js gs ps) {x : JW} (hx : x.x = x.x') (o o' : List W) (q q' : APlain) (hq : q.wires = pl.wires)
    (hq' : q'.wires = pl'.wires) :
    Pair d H { s with outs := o, stored := s.stored ++ [low64 (lab (x.l d))] }
      { s' with outs := o', stored := s'.stored ++ [low64 (lab (x.r d))] } q q' js gs ps :=
  ⟨hP.w, hP.w', hP.g, hP.g', hP.gc, hP.gc', hP.p, hP.p', hP.pc, hP.pz, hP.pz', by rw [hP.st]; simp [JW.l, JW.r, hx],
    by rw [hq, hP.pw], by rw [hq', hP.pw'], hP.np⟩

theorem APoly.map_eval {f g : JW → Fp} (h : ∀ j, f j = g j) (p : APoly JW) : (p.map f).eval = (p.map g).eval := by
  rw [show f = g from funext h]

/-- One instruction. -/
theorem step_view (hP : Matched d H pl pl' s s') (hb : ∀ b, ¬ Bad 16 b) (hb' : H → ∀ b, ¬ Bad 8 b → Canon (decW b))
    (hpub : Canon ne.base.pubMac) {o o' : AOp} (ho : o.CanonC) (ho' : o'.CanonC) (he : o.erase = o'.erase) (hH : ∀ st, o = .poly st → H)
    {q q' : APlain} (hq : aplainStep pl o = some q) (hq' : aplainStep pl' o' = some q') (hc : ∀ x ∈ q.claims, x = 0)
    (hc' : ∀ x ∈ q'.claims, x = 0) (hout : pl.outs = pl'.outs) (hout' : q.outs = q'.outs) (i : Nat) :
    VProg.Equi (fun n => corOf d (key n)) Bad (fun _ t t' => Matched d H q q' t t') i (aprvStepV ne s o) (aprvStepV ne s' o') := by
  obtain ⟨js, gs, ps, hP⟩ := hP
  have hw : ∀ n : Nat, s.wires[n]? = (js[n]?).map (fun j => lab (j.l d)) := by
    intro n; rw [hP.w, List.getElem?_map, List.getElem?_map, Option.map_map]; rfl
  have hw' : ∀ n : Nat, s'.wires[n]? = (js[n]?).map (fun j => lab (j.r d)) := by
    intro n; rw [hP.w', List.getElem?_map, List.getElem?_map, Option.map_map]; rfl
  have hpw : ∀ n : Nat, pl.wires[n]? = (js[n]?).map JW.x := by intro n; rw [hP.pw, List.getElem?_map]
  have hpw' : ∀ n : Nat, pl'.wires[n]? = (js[n]?).map JW.x' := by intro n; rw [hP.pw', List.getElem?_map]
  cases o with
  | input w =>
    cases o' <;> simp only [AOp.erase, reduceCtorEq] at he
    next w' =>
    simp only [aplainStep, Option.some.injEq] at hq hq'
    subst hq; subst hq'
    have hcw : Canon w := ho
    have hcw' : Canon w' := ho'
    have ef : ∀ (u : Fp) (v : W) (s : APrv), Canon v → feedA ((ne.env.withCor (corOf d (key i) u)).cor s.used) v =
        (lab (fp v, key i + d * u), toW (u - fp v)) := by
      intro u v s hv
      have e := feedA_lab (u, key i + d * u) (fp v)
      rw [toW_fp hv] at e
      have e' : (ne.env.withCor (corOf d (key i) u)).cor s.used = lab (u, key i + d * u) := by
        simp only [AEnv.withCor, AEnv.cor, corOf, high64_lab, low64_lab]; rfl
      rw [e', e]
    unfold aprvStepV
    refine .cor (Equiv.addRight (fp w' - fp w)) (fun u => ?_)
    simp only [aprvStep, ef _ _ _ hcw, ef _ _ _ hcw', Equiv.coe_addRight, VProg.ofOpt, VProg.bind]
    have e3 : u + (fp w' - fp w) - fp w' = u - fp w := by ring
    rw [e3]
    refine .send _ (.done ⟨js ++ [⟨fp w, fp w', key i + d * u - fp w * d⟩], gs, ps, ?_⟩)
    refine hP.addWire ⟨fp w, fp w', key i + d * u - fp w * d⟩ rfl rfl ?_ ?_ _ _
    · simp only [JW.l]; congr 2; ring
    · simp only [JW.r]; congr 2; ring
  | pub w =>
    cases o' <;> simp only [AOp.erase, reduceCtorEq, AOp.pub.injEq] at he
    subst he
    simp only [aplainStep, Option.some.injEq] at hq hq'
    subst hq; subst hq'
    refine .done ⟨js ++ [⟨fp w, fp w, fp ne.base.pubMac - fp w * d⟩], gs, ps, ?_⟩
    have e : pubA ne.env.pubMac w = lab (fp w, fp ne.base.pubMac) := by
      rw [← pubA_lab, toW_fp hpub, toW_fp (show Canon w from ho)]; rfl
    refine hP.addWire ⟨fp w, fp w, fp ne.base.pubMac - fp w * d⟩ rfl rfl ?_ ?_ _ _
    · rw [e]; simp only [JW.l]; congr 2; ring
    · rw [e]; simp only [JW.r]; congr 2; ring
  | add m n =>
    cases o' <;> simp only [AOp.erase, reduceCtorEq, AOp.add.injEq] at he
    obtain ⟨rfl, rfl⟩ := he
    simp only [aplainStep, hpw, hpw', Option.bind_eq_bind, Option.bind_eq_some_iff, Option.map_eq_some_iff, Option.some.injEq] at hq hq'
    obtain ⟨_, ⟨a, ha, rfl⟩, _, ⟨b, hb, rfl⟩, rfl⟩ := hq
    simp only [ha, hb, Option.some.injEq] at hq'
    obtain ⟨_, ⟨_, rfl, rfl⟩, _, ⟨_, rfl, rfl⟩, rfl⟩ := hq'
    simp only [aprvStepV, aprvStep, hw, hw', ha, hb, Option.map_some, Option.bind_eq_bind, Option.bind_some, VProg.ofOpt]
    refine .done ⟨js ++ [⟨a.x + b.x, a.x' + b.x', a.k + b.k⟩], gs, ps, ?_⟩
    refine hP.addWire ⟨a.x + b.x, a.x' + b.x', a.k + b.k⟩ rfl rfl ?_ ?_ _ _
    · rw [addGateA_lab]; simp only [JW.l]; congr 2; ring
    · rw [addGateA_lab]; simp only [JW.r]; congr 2; ring
  | mulc m c =>
    cases o' <;> simp only [AOp.erase, reduceCtorEq, AOp.mulc.injEq] at he
    obtain ⟨rfl, rfl⟩ := he
    simp only [aplainStep, hpw, hpw', Option.bind_eq_bind, Option.bind_eq_some_iff, Option.map_eq_some_iff, Option.some.injEq] at hq hq'
    obtain ⟨_, ⟨a, ha, rfl⟩, rfl⟩ := hq
    simp only [ha, Option.some.injEq] at hq'
    obtain ⟨_, ⟨_, rfl, rfl⟩, rfl⟩ := hq'
    simp only [aprvStepV, aprvStep, hw, hw', ha, Option.map_some, Option.bind_eq_bind, Option.bind_some, VProg.ofOpt]
    refine .done ⟨js ++ [⟨a.x * fp c, a.x' * fp c, a.k * fp c⟩], gs, ps, ?_⟩
    have e : ∀ y : Fp × Fp, mulConstA (lab y) c = lab (y.1 * fp c, y.2 * fp c) := by
      intro y; rw [← mulConstA_lab, toW_fp (show Canon c from ho)]
    refine hP.addWire ⟨a.x * fp c, a.x' * fp c, a.k * fp c⟩ rfl rfl ?_ ?_ _ _
    · rw [e]; simp only [JW.l]; congr 2; ring
    · rw [e]; simp only [JW.r]; congr 2; ring
  | reveal m =>
    cases o' <;> simp only [AOp.erase, reduceCtorEq, AOp.reveal.injEq] at he
    subst he
    simp only [aplainStep, hpw, hpw', Option.bind_eq_bind, Option.bind_eq_some_iff, Option.map_eq_some_iff, Option.some.injEq] at hq hq'
    obtain ⟨_, ⟨a, ha, rfl⟩, rfl⟩ := hq
    simp only [ha, Option.some.injEq] at hq'
    obtain ⟨_, ⟨_, rfl, rfl⟩, rfl⟩ := hq'
    simp only [hout, List.append_cancel_left_eq, List.cons.injEq, and_true] at hout'
    simp only [aprvStepV, aprvStep, hw, hw', ha, Option.map_some, Option.bind_eq_bind, Option.bind_some, VProg.ofOpt]
    have e : high64 (lab (a.l d)) = high64 (lab (a.r d)) := by simp [JW.l, JW.r, hout']
    simp only [Bind.bind, VProg.bind]
    rw [e]
    exact .send _ (.done ⟨js, gs, ps, hP.open hout' _ _ _ _ rfl rfl⟩)
  | revealCheck m x =>
    cases o' <;> simp only [AOp.erase, reduceCtorEq, AOp.revealCheck.injEq] at he
    obtain ⟨rfl, rfl⟩ := he
    simp only [aplainStep, hpw, hpw', Option.bind_eq_bind, Option.bind_eq_some_iff, Option.map_eq_some_iff, Option.some.injEq] at hq hq'
    obtain ⟨_, ⟨a, ha, rfl⟩, rfl⟩ := hq
    simp only [ha, Option.some.injEq] at hq'
    obtain ⟨_, ⟨_, rfl, rfl⟩, rfl⟩ := hq'
    have hx : a.x = a.x' := (sub_eq_zero.1 (hc (a.x - fp x) (by simp))).trans (sub_eq_zero.1 (hc' (a.x' - fp x) (by simp))).symm
    simp only [aprvStepV, aprvStep, hw, hw', ha, Option.map_some, Option.bind_eq_bind, Option.bind_some, VProg.ofOpt]
    have e : high64 (lab (a.l d)) = high64 (lab (a.r d)) := by simp [JW.l, JW.r, hx]
    simp only [Bind.bind, VProg.bind]
    rw [e]
    exact .send _ (.done ⟨js, gs, ps, hP.open hx _ _ _ _ rfl rfl⟩)
  | revealZero m =>
    cases o' <;> simp only [AOp.erase, reduceCtorEq, AOp.revealZero.injEq] at he
    subst he
    simp only [aplainStep, hpw, hpw', Option.bind_eq_bind, Option.bind_eq_some_iff, Option.map_eq_some_iff, Option.some.injEq] at hq hq'
    obtain ⟨_, ⟨a, ha, rfl⟩, rfl⟩ := hq
    simp only [ha, Option.some.injEq] at hq'
    obtain ⟨_, ⟨_, rfl, rfl⟩, rfl⟩ := hq'
    have hx : a.x = a.x' := (hc a.x (by simp)).trans (hc' a.x' (by simp)).symm
    simp only [aprvStepV, aprvStep, hw, hw', ha, Option.map_some, Option.bind_eq_bind, Option.bind_some, VProg.ofOpt]
    exact .done ⟨js, gs, ps, hP.open hx _ _ _ _ rfl rfl⟩
  | mul m n =>
    cases o' <;> simp only [AOp.erase, reduceCtorEq, AOp.mul.injEq] at he
    obtain ⟨rfl, rfl⟩ := he
    simp only [aplainStep, hpw, hpw', Option.bind_eq_bind, Option.bind_eq_some_iff, Option.map_eq_some_iff, Option.some.injEq] at hq hq'
    obtain ⟨_, ⟨a, ha, rfl⟩, _, ⟨b, hb1, rfl⟩, rfl⟩ := hq
    simp only [ha, hb1, Option.some.injEq] at hq'
    obtain ⟨_, ⟨_, rfl, rfl⟩, _, ⟨_, rfl, rfl⟩, rfl⟩ := hq'
    simp only [aprvStepV, hw, hw', ha, hb1, Option.map_some, VProg.ofOpt]
    refine (mulRoom_view hP hb i).bind ?_
    rintro j t t' ⟨gs, hT⟩
    have ef : ∀ (u : Fp) (x y : Fp × Fp) (s : APrv), mulSend ((ne.env.withCor (corOf d (key j) u)).cor s.used) (lab x) (lab y) =
        (lab (x.1 * y.1, key j + d * u), toW (u - x.1 * y.1)) := by
      intro u x y s
      have e' : (ne.env.withCor (corOf d (key j) u)).cor s.used = lab (u, key j + d * u) := by
        simp only [AEnv.withCor, AEnv.cor, corOf, high64_lab, low64_lab]; rfl
      rw [e', mulSend_lab]
    refine .cor (Equiv.addRight (a.x' * b.x' - a.x * b.x)) (fun u => ?_)
    show VProg.Equi _ _ _ _ ((VProg.ofOpt (aprvMulPush (ne.env.withCor (corOf d (key j) u)) t (lab (a.l d)) (lab (b.l d)))).bind _)
      ((VProg.ofOpt (aprvMulPush (ne.env.withCor (corOf d (key j) _)) t' (lab (a.r d)) (lab (b.r d)))).bind _)
    simp only [aprvMulPush, ef, Equiv.coe_addRight]
    have e4 : ∀ x, (ne.env.withCor x).checkSz = ne.env.checkSz := fun _ => rfl
    rw [e4, e4, ← hT.glen]
    by_cases hlen : t.gates.length < ne.env.checkSz
    · rw [if_pos hlen, if_pos hlen]
      simp only [VProg.ofOpt, VProg.bind, JW.l, JW.r]
      have e3 : u + (a.x' * b.x' - a.x * b.x) - a.x' * b.x' = u - a.x * b.x := by ring
      rw [e3]
      refine .send _ (.done ?_)
      set jc : JW := ⟨a.x * b.x, a.x' * b.x', key j + d * u - a.x * b.x * d⟩ with hjc
      have h1 : (a.x * b.x, key j + d * u) = jc.l d := by simp only [hjc, JW.l]; congr 1; ring
      have h2 : (a.x' * b.x', key j + d * (u + (a.x' * b.x' - a.x * b.x))) = jc.r d := by simp only [hjc, JW.r]; congr 1; ring
      rw [h1, h2]
      refine ⟨js ++ [jc], gs ++ [⟨a, b, jc⟩], ps, ?_⟩
      refine ⟨by simp [hT.w], by simp [hT.w'], ?_, ?_, ?_, ?_, hT.p, hT.p', hT.pc, hT.pz, hT.pz', hT.st, by simp [hT.pw, hjc],
        by simp [hT.pw', hjc], hT.np⟩
      · simp [hT.g, JG.l, CGate.lab, JW.l]
      · simp [hT.g', JG.r, CGate.lab, JW.r]
      · simp only [List.forall_mem_append, List.forall_mem_singleton]
        exact ⟨hT.gc, rfl⟩
      · simp only [List.forall_mem_append, List.forall_mem_singleton]
        exact ⟨hT.gc', rfl⟩
    · rw [if_neg hlen, if_neg hlen]
      exact .fail
  | poly st =>
    cases o' <;> simp only [AOp.erase, reduceCtorEq, AOp.poly.injEq] at he
    subst he
    simp only [aplainStep, hP.pw, hP.pw', alookup_map, Option.bind_eq_bind, Option.bind_eq_some_iff, Option.map_eq_some_iff,
      Option.some.injEq] at hq hq'
    obtain ⟨_, ⟨p, hp, rfl⟩, rfl⟩ := hq
    simp only [hp, Option.some.injEq] at hq'
    obtain ⟨_, ⟨_, rfl, rfl⟩, rfl⟩ := hq'
    have z : (p.map (JW.l d)).value = 0 := by
      rw [APoly.value, APoly.map_map]; exact hc (p.map JW.x).eval (by simp)
    have z' : (p.map (JW.r d)).value = 0 := by
      rw [APoly.value, APoly.map_map]; exact hc' (p.map JW.x').eval (by simp)
    simp only [aprvStepV, hP.w, hP.w', alookup_map, hp, Option.map_some, VProg.ofOpt]
    refine (polyRoom_view hP hb' i).bind ?_
    rintro j t t' ⟨ps, hT⟩
    simp only [aprvPolyPush]
    rw [← hT.plen]
    by_cases hlen : t.polys.length < ne.env.polySz
    · rw [if_pos hlen, if_pos hlen]
      refine .done ⟨js, gs, ps ++ [p], ?_⟩
      refine ⟨hT.w, hT.w', hT.g, hT.g', hT.gc, hT.gc', by simp [hT.p], by simp [hT.p'], ?_, ?_, ?_, hT.st, rfl, rfl,
        fun _ => hH st rfl⟩
      · simp only [List.forall_mem_append, List.forall_mem_singleton]
        exact ⟨hT.pc, alookup_canon hp ho⟩
      · simp only [List.forall_mem_append, List.forall_mem_singleton]
        exact ⟨hT.pz, z⟩
      · simp only [List.forall_mem_append, List.forall_mem_singleton]
        exact ⟨hT.pz', z'⟩
    · rw [if_neg hlen, if_neg hlen]
      exact .fail

theorem aplainStep_grows {p q : APlain} {o : AOp} (h : aplainStep p o = some q) : p.outs <+: q.outs ∧ p.claims <+: q.claims := by
  cases o <;> simp only [aplainStep, Option.bind_eq_bind, Option.bind_eq_some_iff, Option.some.injEq] at h
  case input w => subst h; exact ⟨List.prefix_refl _, List.prefix_refl _⟩
  case pub w => subst h; exact ⟨List.prefix_refl _, List.prefix_refl _⟩
  case add i j => obtain ⟨a, _, b, _, rfl⟩ := h; exact ⟨List.prefix_refl _, List.prefix_refl _⟩
  case mul i j => obtain ⟨a, _, b, _, rfl⟩ := h; exact ⟨List.prefix_refl _, List.prefix_refl _⟩
  case mulc i c => obtain ⟨a, _, rfl⟩ := h; exact ⟨List.prefix_refl _, List.prefix_refl _⟩
  case reveal i => obtain ⟨a, _, rfl⟩ := h; exact ⟨List.prefix_append _ _, List.prefix_refl _⟩
  case revealCheck i x => obtain ⟨a, _, rfl⟩ := h; exact ⟨List.prefix_refl _, List.prefix_append _ _⟩
  case revealZero i => obtain ⟨a, _, rfl⟩ := h; exact ⟨List.prefix_refl _, List.prefix_append _ _⟩
  case poly st => obtain ⟨a, _, rfl⟩ := h; exact ⟨List.prefix_refl _, List.prefix_append _ _⟩

theorem aplainRun_grows (ops : List AOp) : ∀ {p q : APlain}, ops.foldlM aplainStep p = some q → p.outs <+: q.outs ∧ p.claims <+: q.claims := by
  induction ops with
  | nil =>
    intro p q h
    simp only [List.foldlM_nil, Option.pure_def, Option.some.injEq] at h
    subst h
    exact ⟨List.prefix_refl _, List.prefix_refl _⟩
  | cons o os ih =>
    intro p q h
    simp only [List.foldlM_cons, Option.bind_eq_bind, Option.bind_eq_some_iff] at h
    obtain ⟨r, hr, hq⟩ := h
    have h1 := aplainStep_grows hr
    have h2 := ih hq
    exact ⟨h1.1.trans h2.1, h1.2.trans h2.2⟩

theorem aplainStep_outlen {p p' q q' : APlain} {o o' : AOp} (he : o.erase = o'.erase) (h : aplainStep p o = some q)
    (h' : aplainStep p' o' = some q') (hl : p.outs.length = p'.outs.length) : q.outs.length = q'.outs.length := by
  cases o <;> cases o' <;> simp only [AOp.erase, reduceCtorEq] at he <;>
    simp only [aplainStep, Option.bind_eq_bind, Option.bind_eq_some_iff, Option.some.injEq] at h h'
  case input.input => subst h; subst h'; exact hl
  case pub.pub => subst h; subst h'; exact hl
  case add.add => obtain ⟨a, _, b, _, rfl⟩ := h; obtain ⟨a', _, b', _, rfl⟩ := h'; exact hl
  case mul.mul => obtain ⟨a, _, b, _, rfl⟩ := h; obtain ⟨a', _, b', _, rfl⟩ := h'; exact hl
  case mulc.mulc => obtain ⟨a, _, rfl⟩ := h; obtain ⟨a', _, rfl⟩ := h'; exact hl
  case reveal.reveal => obtain ⟨a, _, rfl⟩ := h; obtain ⟨a', _, rfl⟩ := h'; simp [hl]
  case revealCheck.revealCheck => obtain ⟨a, _, rfl⟩ := h; obtain ⟨a', _, rfl⟩ := h'; exact hl
  case revealZero.revealZero => obtain ⟨a, _, rfl⟩ := h; obtain ⟨a', _, rfl⟩ := h'; exact hl
  case poly.poly => obtain ⟨a, _, rfl⟩ := h; obtain ⟨a', _, rfl⟩ := h'; exact hl

/-- A whole program. -/
theorem run_view (hb : ∀ b, ¬ Bad 16 b) (hb' : H → ∀ b, ¬ Bad 8 b → Canon (decW b)) (hpub : Canon ne.base.pubMac) (ops : List AOp) :
    ∀ {ops' : List AOp} {s s' : APrv} {pl pl' q q' : APlain}, Matched d H pl pl' s s' → (∀ o ∈ ops, o.CanonC) → (∀ o ∈ ops', o.CanonC) →
      ops.map AOp.erase = ops'.map AOp.erase → (∀ st, AOp.poly st ∈ ops → H) → ops.foldlM aplainStep pl = some q →
      ops'.foldlM aplainStep pl' = some q' → (∀ x ∈ q.claims, x = 0) → (∀ x ∈ q'.claims, x = 0) → pl.outs = pl'.outs → q.outs = q'.outs →
      ∀ i, VProg.Equi (fun n => corOf d (key n)) Bad (fun _ t t' => Matched d H q q' t t') i (aprvRunV ne s ops) (aprvRunV ne s' ops') := by
  induction ops with
  | nil =>
    intro ops' s s' pl pl' q q' hM _ _ he _ hq hq' _ _ _ _ i
    have : ops' = [] := by simpa using he.symm
    subst this
    simp only [List.foldlM_nil, Option.pure_def, Option.some.injEq] at hq hq'
    subst hq; subst hq'
    exact .done hM
  | cons o os ih =>
    intro ops' s s' pl pl' q q' hM ho ho' he hH hq hq' hc hc' hout hout' i
    cases ops' with
    | nil => simp at he
    | cons o' os' =>
      simp only [List.map_cons, List.cons.injEq] at he
      simp only [List.foldlM_cons, Option.bind_eq_bind, Option.bind_eq_some_iff] at hq hq'
      obtain ⟨r, hr, hq⟩ := hq
      obtain ⟨r', hr', hq'⟩ := hq'
      have g := aplainRun_grows os hq
      have g' := aplainRun_grows os' hq'
      have hl := aplainStep_outlen he.1 hr hr' (by rw [hout])
      have hor : r.outs = r'.outs := by
        have h1 := List.prefix_of_prefix_length_le g.1 (hout' ▸ g'.1) (le_of_eq hl)
        exact h1.eq_of_length hl
      have hcr : ∀ x ∈ r.claims, x = 0 := fun x hx => hc x (g.2.subset hx)
      have hcr' : ∀ x ∈ r'.claims, x = 0 := fun x hx => hc' x (g'.2.subset hx)
      refine (step_view hM hb hb' hpub (ho o (by simp)) (ho' o' (by simp)) he.1 (fun st h => hH st (by simp [h])) hr hr' hcr hcr' hout hor
        i).bind ?_
      intro j t t' hT
      exact ih hT (fun x hx => ho x (by simp [hx])) (fun x hx => ho' x (by simp [hx])) he.2 (fun st h => hH st (by simp [h])) hq hq' hc hc'
        hor hout' j

/-- A whole session. -/
theorem session_view (hb : ∀ b, ¬ Bad 16 b) (hb' : H → ∀ b, ¬ Bad 8 b → Canon (decW b)) (hpub : Canon ne.base.pubMac) {ops ops' : List AOp}
    {q q' : APlain} (ho : ∀ o ∈ ops, o.CanonC) (ho' : ∀ o ∈ ops', o.CanonC) (he : ops.map AOp.erase = ops'.map AOp.erase)
    (hH : ∀ st, AOp.poly st ∈ ops → H) (hq : aplainRun ops = some q) (hq' : aplainRun ops' = some q') (hc : ∀ x ∈ q.claims, x = 0)
    (hc' : ∀ x ∈ q'.claims, x = 0) (hout : q.outs = q'.outs) :
    VProg.Equi (fun n => corOf d (key n)) Bad (fun _ t t' => Matched d H q q' t t') 0 (aprvProg ne ops) (aprvProg ne ops') := by
  unfold aprvProg
  refine .cor (Equiv.refl _) (fun u => ?_)
  refine (run_view (d := d) (key := key) hb hb' hpub ops (s := APrv.init) (s' := APrv.init) (pl := ⟨[], [], []⟩) (pl' := ⟨[], [], []⟩) ?_ ho ho' he hH hq hq'
    hc hc' rfl hout 1).bind ?_
  · exact ⟨[], [], [], rfl, rfl, rfl, rfl, by simp, by simp, rfl, rfl, by simp, by simp, by simp, rfl, rfl, rfl, by simp⟩
  · intro j t t' hT
    exact finalize_view hT hb hb' j

end

/-! ### how many correlations are used -/

theorem asks_ofOpt {α : Type} (a : Option α) : (VProg.ofOpt a).Asks 0 := by
  cases a with
  | none => exact .fail _
  | some a => exact .done _ _

theorem asks_mulCheck (ne : ANetEnv) (s : APrv) : (aprvMulCheckV ne s).Asks 1 := by
  unfold aprvMulCheckV
  refine .recv 16 (fun b => .cor (fun x => ?_))
  exact (asks_ofOpt _).bind (l := 0) (fun a => .send _ (.done _ _))

theorem asks_polyCheck (ne : ANetEnv) (s : APrv) : (aprvPolyCheckV ne s).Asks 1 := by
  unfold aprvPolyCheckV
  refine .recv 8 (fun b => .cor (fun x => ?_))
  exact (asks_ofOpt _).bind (l := 0) (fun a => .send _ (.done _ _))

theorem asks_step (ne : ANetEnv) (s : APrv) (o : AOp) : (aprvStepV ne s o).Asks 2 := by
  cases o with
  | input w =>
    unfold aprvStepV
    exact .cor (fun x => ((asks_ofOpt _).bind (l := 0) (fun a => .send _ (.done _ _))).mono (by omega))
  | mul i j =>
    unfold aprvStepV
    refine (asks_ofOpt _).bind (fun a => (asks_ofOpt _).bind (fun b => ?_))
    have h1 : (aprvMulRoomV ne s).Asks 1 := by
      unfold aprvMulRoomV; split
      · exact asks_mulCheck ne s
      · exact .done _ _
    exact h1.bind (l := 1) (fun t => .cor (fun x => (asks_ofOpt _).bind (l := 0) (fun a => .send _ (.done _ _))))
  | poly st =>
    unfold aprvStepV
    refine (asks_ofOpt _).bind (fun a => ?_)
    have h1 : (aprvPolyRoomV ne s).Asks 1 := by
      unfold aprvPolyRoomV; split
      · exact asks_polyCheck ne s
      · exact .done _ _
    exact (h1.bind (l := 0) (fun t => asks_ofOpt _)).mono (by omega)
  | reveal i => exact ((asks_ofOpt _).bind (l := 0) (fun a => .send _ (.done _ _))).mono (by omega)
  | revealCheck i x => exact ((asks_ofOpt _).bind (l := 0) (fun a => .send _ (.done _ _))).mono (by omega)
  | pub w => exact ((asks_ofOpt _).bind (l := 0) (fun a => .done _ _)).mono (by omega)
  | add i j => exact ((asks_ofOpt _).bind (l := 0) (fun a => .done _ _)).mono (by omega)
  | mulc i c => exact ((asks_ofOpt _).bind (l := 0) (fun a => .done _ _)).mono (by omega)
  | revealZero i => exact ((asks_ofOpt _).bind (l := 0) (fun a => .done _ _)).mono (by omega)

theorem asks_run (ne : ANetEnv) (ops : List AOp) : ∀ s, (aprvRunV ne s ops).Asks (2 * ops.length) := by
  induction ops with
  | nil => intro s; exact .done _ _
  | cons o os ih =>
    intro s
    have := (asks_step ne s o).bind (fun t => ih t)
    exact this

theorem asks_finalize (ne : ANetEnv) (s : APrv) : (aprvFinalizeV ne s).Asks 2 := by
  unfold aprvFinalizeV
  have h1 : ∀ s, (aprvFinPolyV ne s).Asks 1 := by
    intro s; unfold aprvFinPolyV; split
    · exact asks_polyCheck ne s
    · exact .done _ _
  have h2 : ∀ s, (aprvFinMulV ne s).Asks 1 := by
    intro s; unfold aprvFinMulV; split
    · exact asks_mulCheck ne s
    · exact .done _ _
  exact (h1 s).bind (l := 1) (fun t => (h2 t).bind (l := 0) (fun t => .send _ (.done _ _)))

theorem asks_prog (ne : ANetEnv) (ops : List AOp) : (aprvProg ne ops).Asks (3 + 2 * ops.length) := by
  unfold aprvProg
  have h := (asks_run ne ops APrv.init).bind (fun t => asks_finalize ne t)
  have h' := VProg.Asks.cor (k := fun _ => (aprvRunV ne APrv.init ops).bind (fun t => aprvFinalizeV ne t)) (fun _ => h)
  have e : 3 + 2 * ops.length = 2 + 2 * ops.length + 1 := by omega
  rw [e]
  exact h'

end EmpZk
