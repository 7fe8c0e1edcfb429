/-
Lemmas on the checks over F_{2^128}: the batch check of the two-operand products and the one of the longer products.
-/
import Verif.Lemmas.F2kGate

open Polynomial

namespace EmpZk

section
variable {F : Type} [Field F] [BlockField F]

/-! ### two operands -/

/-- The sums of the workers when every task has something to do. -/
def taskSumF {α : Type} (f : α → F) (buf : List α) (seeds : Nat → F) : List (Nat × Nat) → Nat → F
  | [], _ => 0
  | t :: ts, i => chiSum (seeds i) ((taskSlice buf t).map f) + taskSumF f buf seeds ts (i + 1)

theorem taskSumsO_eq {α : Type} (f : α → F) (buf : List α) (seeds : Nat → F) (tasks : List (Nat × Nat)) (i : Nat)
    (h : ∀ t ∈ tasks, t.2 ≠ 0) : taskSumsO f buf seeds tasks i = some (taskSumF f buf seeds tasks i) := by
  induction tasks generalizing i with
  | nil => rfl
  | cons t ts ih =>
    rw [taskSumsO, taskSumO, if_neg (h t (by simp)), ih (i + 1) (fun u hu => h u (by simp [hu]))]
    rfl

theorem taskSumsO_none {α : Type} (f : α → F) (buf : List α) (seeds : Nat → F) (tasks : List (Nat × Nat)) (i : Nat)
    (h : ∃ t ∈ tasks, t.2 = 0) : taskSumsO f buf seeds tasks i = none := by
  induction tasks generalizing i with
  | nil => simp at h
  | cons t ts ih =>
    obtain ⟨u, hu, hu0⟩ := h
    rcases List.mem_cons.1 hu with rfl | hu'
    · rw [taskSumsO, taskSumO, if_pos hu0]
      rfl
    · rw [taskSumsO, ih (i + 1) ⟨u, hu', hu0⟩]
      cases taskSumO f buf (seeds i) t <;> rfl

theorem splitTasksF2k_eq {cnt threads : Nat} (h : 0 < threads) (h2 : threads ≤ cnt) :
    splitTasksF2k cnt threads = splitTasks cnt threads := by
  rw [splitTasks_eq h h2, splitTasksF2k, if_neg (by omega), if_neg (by omega)]

theorem splitTasks_pos {cnt threads : Nat} {tasks : List (Nat × Nat)} (h : splitTasks cnt threads = some tasks) :
    ∀ t ∈ tasks, t.2 ≠ 0 := by
  have hs := (splitTasks_isSome cnt threads).1 (by rw [h]; rfl)
  rw [splitTasks_eq hs.1 hs.2] at h
  simp only [Option.some.injEq] at h
  subst h
  have hq : 0 < cnt / threads := Nat.div_pos hs.2 hs.1
  intro t ht
  rw [List.mem_append, List.mem_map, List.mem_singleton] at ht
  rcases ht with ⟨i, _, rfl⟩ | rfl
  · exact Nat.pos_iff_ne_zero.1 hq
  · simp only; omega

/-- Difference between the committed output and the product of the operands. -/
def mulErrF (g : (F × F) × (F × F) × (F × F)) : F := g.1.1 * g.2.1.1 + g.2.2.1

theorem mulErrF_eq_zero {g : (F × F) × (F × F) × (F × F)} : mulErrF g = 0 ↔ MulOk g := by
  unfold mulErrF MulOk
  rw [add_eq_zero', eq_comm]

theorem fgateVer_key (delta : F) (g : (F × F) × (F × F) × (F × F)) :
    fgateVer delta (keyF3 delta g) = ((fgatePrv g).1 + (fgatePrv g).2 * delta) + mulErrF g * (delta * delta) := by
  simp only [fgateVer, keyF3, keyF, fgatePrv, mulErrF]
  ring

theorem taskSumF_key (delta : F) (buf : List ((F × F) × (F × F) × (F × F))) (seeds : Nat → F) (tasks : List (Nat × Nat))
    (i : Nat) :
    taskSumF (fgateVer delta) (buf.map (keyF3 delta)) seeds tasks i =
      taskSumF (fun g => (fgatePrv g).1) buf seeds tasks i + taskSumF (fun g => (fgatePrv g).2) buf seeds tasks i * delta +
        taskSumF mulErrF buf seeds tasks i * (delta * delta) := by
  induction tasks generalizing i with
  | nil => simp [taskSumF]
  | cons t ts ih =>
    simp only [taskSumF, ih]
    have : (taskSlice (buf.map (keyF3 delta)) t).map (fgateVer delta) =
        (taskSlice buf t).map (fun g => ((fgatePrv g).1 + (fgatePrv g).2 * delta) + mulErrF g * (delta * delta)) := by
      simp only [taskSlice, ← List.map_drop, ← List.map_take, List.map_map]
      apply List.map_congr_left
      intro g _
      exact fgateVer_key delta g
    rw [this, chiSum_add, chiSum_add, chiSum_mul, chiSum_mul]
    ring

/-- The messages and the comparison when every task has something to do. -/
theorem f2kCheckPrv_eq (buf : List ((F × F) × (F × F) × (F × F))) {threads : Nat} (seeds ope : Nat → F)
    {tasks : List (Nat × Nat)} (hs : splitTasks buf.length threads = some tasks) :
    f2kCheckPrv buf threads seeds ope =
      some (packBlocks ope + taskSumF (fun g => (fgatePrv g).1) buf seeds tasks 0,
            packLsbs ope + taskSumF (fun g => (fgatePrv g).2) buf seeds tasks 0) := by
  have hh := (splitTasks_isSome buf.length threads).1 (by rw [hs]; rfl)
  rw [f2kCheckPrv, splitTasksF2k_eq hh.1 hh.2, hs]
  simp only [Option.bind_eq_bind, Option.bind_some, taskSumsO_eq _ _ _ _ _ (splitTasks_pos hs)]

theorem f2kCheckVer_key [DecidableEq F] (delta : F) (buf : List ((F × F) × (F × F) × (F × F))) {threads : Nat}
    (seeds ope : Nat → F) (ans : F × F) {tasks : List (Nat × Nat)} (hs : splitTasks buf.length threads = some tasks) :
    f2kCheckVer delta (buf.map (keyF3 delta)) threads seeds (fun i => keyOf delta (ope i)) ans =
      some (decide (ans.2 * delta + ans.1 =
          (packBlocks ope + taskSumF (fun g => (fgatePrv g).1) buf seeds tasks 0) +
          (packLsbs ope + taskSumF (fun g => (fgatePrv g).2) buf seeds tasks 0) * delta +
          taskSumF mulErrF buf seeds tasks 0 * (delta * delta))) := by
  have hh := (splitTasks_isSome buf.length threads).1 (by rw [hs]; rfl)
  rw [f2kCheckVer, List.length_map, splitTasksF2k_eq hh.1 hh.2, hs]
  simp only [Option.bind_eq_bind, Option.bind_some, taskSumsO_eq _ _ _ _ _ (splitTasks_pos hs), taskSumF_key,
    packBlocks_keyOf]
  congr 2
  rw [eq_iff_iff]
  constructor <;> intro h <;> rw [h] <;> ring

theorem taskSumF_zero {α : Type} (f : α → F) (buf : List α) (seeds : Nat → F) (tasks : List (Nat × Nat)) (i : Nat)
    (h : ∀ t ∈ tasks, ∀ g ∈ taskSlice buf t, f g = 0) : taskSumF f buf seeds tasks i = 0 := by
  induction tasks generalizing i with
  | nil => rfl
  | cons t ts ih =>
    rw [taskSumF, ih (i + 1) (fun u hu => h u (by simp [hu])), add_zero]
    exact chiSum_zero _ _ _ (h t (by simp))

theorem taskSumF_agree {α : Type} (f : α → F) (buf : List α) (tasks : List (Nat × Nat)) :
    ∀ (i t : Nat) (ht : t < tasks.length) (s s' : Nat → F), (∀ j, j ≠ i + t → s j = s' j) →
    taskSumF f buf s tasks i + chiSum (s' (i + t)) ((taskSlice buf tasks[t]).map f) =
      taskSumF f buf s' tasks i + chiSum (s (i + t)) ((taskSlice buf tasks[t]).map f) := by
  induction tasks with
  | nil => intro i t ht; simp at ht
  | cons a ts ih =>
    intro i t ht s s' hag
    have hrest : ∀ (k : Nat), i + t < k → taskSumF f buf s ts k = taskSumF f buf s' ts k := by
      clear ih ht
      induction ts with
      | nil => intro k _; rfl
      | cons b ts ih2 =>
        intro k hk
        rw [taskSumF, taskSumF, ih2 (k + 1) (by omega), hag k (by omega)]
    cases t with
    | zero =>
      simp only [List.getElem_cons_zero, taskSumF, Nat.add_zero] at *
      rw [hrest (i + 1) (by omega)]
      ring
    | succ t =>
      have := ih (i + 1) t (by simpa using ht) s s' (by intro j hj; exact hag j (by omega))
      rw [show i + 1 + t = i + (t + 1) by omega] at this
      simp only [List.getElem_cons_succ, taskSumF, hag i (by omega)]
      linear_combination this

theorem card_bad_seedsF [Fintype F] [DecidableEq F] {α : Type} (f : α → F) (buf : List α) (T : Nat)
    (tasks : List (Nat × Nat)) (t : Fin T) (ht : t.1 < tasks.length) (hbad : ∃ g ∈ taskSlice buf tasks[t.1], f g ≠ 0) :
    (Finset.univ.filter (fun s : Fin T → F => taskSumF f buf (extendSeeds s) tasks 0 = 0)).card ≤
      (tasks[t.1]).2 * Fintype.card F ^ (T - 1) := by
  have := card_coord_le (ι := Fin T) (F := F) (fun s => taskSumF f buf (extendSeeds s) tasks 0 = 0) t
    ((tasks[t.1]).2) (by
      intro s0 xs hxs
      obtain ⟨g, hg, hne⟩ := hbad
      have hle : ∀ c, (Finset.univ.filter (fun x : F => chiSum x ((taskSlice buf tasks[t.1]).map f) = c)).card ≤
          (tasks[t.1]).2 := by
        intro c
        refine (card_seeds_le _ ⟨f g, List.mem_map_of_mem hg, hne⟩ c).trans ?_
        rw [List.length_map]
        exact taskSlice_length _ _
      refine (Finset.card_le_card ?_).trans (hle (chiSum (extendSeeds s0 t.1) ((taskSlice buf tasks[t.1]).map f) -
        taskSumF f buf (extendSeeds s0) tasks 0))
      intro x hx
      rw [Finset.mem_filter]
      refine ⟨Finset.mem_univ _, ?_⟩
      have h1 := hxs x hx
      have h2 := taskSumF_agree f buf tasks 0 t.1 ht (extendSeeds (Function.update s0 t x)) (extendSeeds s0) (by
        intro j hj
        rw [extendSeeds_update, if_neg (by omega)])
      rw [h1, zero_add, Nat.zero_add, extendSeeds_update, if_pos rfl] at h2
      rw [h2]; ring)
  rw [Fintype.card_fin] at this
  exact this

/-! ### three, four and five operands -/

/-- Value of the five sums at `delta`, as the verifier combines them. -/
def entAt (delta : F) (e : PolyEnt F) : F :=
  e.b0 + (e.b1 * delta + e.b2 * (delta * delta) + e.b3 * (delta * delta * delta) + e.b4 * (delta * delta * delta * delta))

/-- Difference between the committed output and the product of the operands. -/
def polyErr (g : PGate F) : F := (g.ins.map Prod.fst).prod + g.out.1

/-- A product gate is right. -/
def PGate.Ok (g : PGate F) : Prop := g.out.1 = (g.ins.map Prod.fst).prod

theorem polyErr_eq_zero {g : PGate F} : polyErr g = 0 ↔ g.Ok := by
  unfold polyErr PGate.Ok
  rw [add_eq_zero', eq_comm]

/-- The keys of a gate. -/
def PGate.keys (delta : F) (g : PGate F) : List F × F := (g.ins.map (keyF delta), keyF delta g.out)

theorem poly3_key (delta : F) (a b c o : F × F) :
    poly3Ver delta (keyF delta a) (keyF delta b) (keyF delta c) (keyF delta o) =
      entAt delta (poly3Prv a.1 a.2 b.1 b.2 c.1 c.2 o.2) + (a.1 * b.1 * c.1 + o.1) * delta ^ 3 := by
  simp only [poly3Ver, keyF, entAt, poly3Prv]
  ring

theorem poly4_key (delta : F) (a b c d o : F × F) :
    poly4Ver delta (keyF delta a) (keyF delta b) (keyF delta c) (keyF delta d) (keyF delta o) =
      entAt delta (poly4Prv a.1 a.2 b.1 b.2 c.1 c.2 d.1 d.2 o.2) + (a.1 * b.1 * c.1 * d.1 + o.1) * delta ^ 4 := by
  simp only [poly4Ver, keyF, entAt, poly4Prv]
  ring

theorem poly5_key (delta : F) (a b c d e o : F × F) :
    poly5Ver delta (keyF delta a) (keyF delta b) (keyF delta c) (keyF delta d) (keyF delta e) (keyF delta o) =
      entAt delta (poly5Prv a.1 a.2 b.1 b.2 c.1 c.2 d.1 d.2 e.1 e.2 o.2) +
        (a.1 * b.1 * c.1 * d.1 * e.1 + o.1) * delta ^ 5 := by
  simp only [poly5Ver, keyF, entAt, poly5Prv]
  ring

/-- Gates the polynomial check handles. -/
def PGate.Poly (g : PGate F) : Prop := g.ins.length = 3 ∨ g.ins.length = 4 ∨ g.ins.length = 5

theorem poly_key (delta : F) (g : PGate F) (h : g.Poly) :
    ∃ e, polyPrv g.ins g.out.2 = some e ∧
      polyVer delta (g.keys delta).1 (g.keys delta).2 = some (entAt delta e + polyErr g * delta ^ g.ins.length) := by
  obtain ⟨ins, out⟩ := g
  rcases h with h | h | h
  · obtain ⟨a, b, c, rfl⟩ := List.length_eq_three.1 h
    refine ⟨_, rfl, ?_⟩
    simp only [PGate.keys, List.map_cons, List.map_nil, polyVer, poly3_key, polyErr, List.prod_cons, List.prod_nil,
      List.length_cons, List.length_nil]
    congr 1
    ring
  · match ins, h with
    | [a, b, c, d], _ =>
      refine ⟨_, rfl, ?_⟩
      simp only [PGate.keys, List.map_cons, List.map_nil, polyVer, poly4_key, polyErr, List.prod_cons, List.prod_nil,
        List.length_cons, List.length_nil]
      congr 1
      ring
  · match ins, h with
    | [a, b, c, d, e], _ =>
      refine ⟨_, rfl, ?_⟩
      simp only [PGate.keys, List.map_cons, List.map_nil, polyVer, poly5_key, polyErr, List.prod_cons, List.prod_nil,
        List.length_cons, List.length_nil]
      congr 1
      ring

/-- The entries of a batch, both sides. -/
theorem polys_key (delta : F) (gs : List (PGate F)) (h : ∀ g ∈ gs, g.Poly) :
    ∃ es, gs.mapM (fun g => polyPrv g.ins g.out.2) = some es ∧ es.length = gs.length ∧
      (gs.map (PGate.keys delta)).mapM (fun k => polyVer delta k.1 k.2) =
        some (List.zipWith (fun g e => entAt delta e + polyErr g * delta ^ g.ins.length) gs es) := by
  induction gs with
  | nil => exact ⟨[], rfl, rfl, rfl⟩
  | cons g gs ih =>
    obtain ⟨e, he, hk⟩ := poly_key delta g (h g (by simp))
    obtain ⟨es, hes, hl, hks⟩ := ih (fun x hx => h x (by simp [hx]))
    refine ⟨e :: es, ?_, by simp [hl], ?_⟩
    · simp [List.mapM_cons, he, hes]
    · simp only [List.map_cons, List.mapM_cons, hk, hks]
      rfl

theorem chiSumFrom_zipWith (seed c delta : F) (gs : List (PGate F)) :
    ∀ (es : List (PolyEnt F)) (c : F), es.length = gs.length →
    chiSumFrom seed c (List.zipWith (fun g e => entAt delta e + polyErr g * delta ^ g.ins.length) gs es) =
      entAt delta ⟨chiSumFrom seed c (es.map PolyEnt.b0), chiSumFrom seed c (es.map PolyEnt.b1),
        chiSumFrom seed c (es.map PolyEnt.b2), chiSumFrom seed c (es.map PolyEnt.b3),
        chiSumFrom seed c (es.map PolyEnt.b4)⟩ +
      chiSumFrom seed c (gs.map (fun g => polyErr g * delta ^ g.ins.length)) := by
  induction gs with
  | nil =>
    intro es c hl
    have : es = [] := List.length_eq_zero_iff.1 (by simpa using hl)
    subst this
    simp [chiSumFrom, entAt]
  | cons g gs ih =>
    intro es c hl
    cases es with
    | nil => simp at hl
    | cons e es =>
      simp only [List.zipWith_cons_cons, chiSumFrom, List.map_cons]
      rw [ih es (c * seed) (by simpa using hl)]
      simp only [entAt]
      ring

/-- The verifier's left-hand side of the batch comparison. -/
theorem chiSum_zipWith (seed delta : F) (gs : List (PGate F)) (es : List (PolyEnt F)) (hl : es.length = gs.length) :
    chiSum seed (List.zipWith (fun g e => entAt delta e + polyErr g * delta ^ g.ins.length) gs es) =
      entAt delta (polyBatchPrv seed es) + chiSum seed (gs.map (fun g => polyErr g * delta ^ g.ins.length)) :=
  chiSumFrom_zipWith seed seed delta gs es seed hl

end
end EmpZk
