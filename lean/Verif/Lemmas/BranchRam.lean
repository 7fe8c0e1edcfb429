/-
Helper lemmas for C105: branching programs with a memory against any prover.
-/
import Verif.Lemmas.BranchSound
import Verif.Lemmas.RamSound

namespace EmpZk

section
variable {α : Type}

theorem every_like {P : BOp → Prop} {Q : α → Prop} {t : Branch BOp α} {p q : Plain} {l : List BOp} {a : α} (h : t.PathLike p l q a) :
    t.Every P Q → Q a := by
  induction h with
  | fin p a => exact fun h => h
  | ops _ _ _ ih => exact fun h => ih (h.2 _)

theorem pathLike_wires {t : Branch BOp α} {p q : Plain} {l : List BOp} {a : α} (h : t.PathLike p l q a) : p.wires <+: q.wires := by
  induction h with
  | fin p a => exact List.prefix_refl _
  | ops _ h1 _ ih => exact (plainRun_wires_grow _ h1).trans ih

theorem pathLike_outs {t : Branch BOp α} {p q : Plain} {l : List BOp} {a : α} (h : t.PathLike p l q a) : p.outs <+: q.outs := by
  induction h with
  | fin p a => exact List.prefix_refl _
  | ops _ h1 _ ih => exact (plainRun_grows _ h1).1.trans ih

/-- The products of five blocks of a branching program with a memory. -/
theorem uTree_five {lib : CmpLib} {c : RamCfg} {m : Nat} (hm : m < 2 ^ 64) (t : Branch UOp (Branch BOp Unit)) : ∀ {g : RNet}, t.Counts m g.ram.step →
    g.macs.length = g.ram.step →
    (uTreeGen lib c g t).Every (fun o => ∀ is, o = .mulN is → is.length = 5) (fun _ => True) := by
  induction t with
  | fin post =>
    intro g h hl
    obtain ⟨h3, hle⟩ := h
    rw [uTreeGen]
    split
    · trivial
    · rename_i l hg
      exact ⟨fun x hx is e => checkGen_kinds h3 (by omega) hl hg is (e ▸ hx), fun _ => trivial⟩
  | undef => intro g _ _; trivial
  | ops us k ih =>
    intro g h hl
    rw [uTreeGen]
    split
    · trivial
    · rename_i l g1 hg
      obtain ⟨c1, c2⟩ := uGens_count hg
      refine ⟨fun x hx is e => absurd e (uGens_kinds hg x hx is), fun o => ih o ?_ (by omega)⟩
      rw [c1]
      exact h o

theorem ramTree_five {lib : CmpLib} {c : RamCfg} {m : Nat} (hm : m < 2 ^ 64) (t : RamTree) : ∀ {p : Plain}, t.Every (fun _ => True) (fun t1 => t1.Counts m 0) →
    (ramTreeGen lib c p t).Every (fun _ => True) (fun t1 => t1.Every (fun o => ∀ is, o = .mulN is → is.length = 5) (fun _ => True)) := by
  induction t with
  | fin t => intro p h; exact uTree_five hm t h rfl
  | undef => intro p _; trivial
  | ops l k ih =>
    intro p h
    rw [ramTreeGen]
    split
    · trivial
    · exact ⟨fun _ _ => trivial, fun o => ih o (h.2 o)⟩

/-- The part before the memory. -/
theorem ramTree_like {lib : CmpLib} {c : RamCfg} (t : RamTree) : ∀ {p q r : Plain} {l : List BOp} {a : Branch MOp (Branch BOp Unit)},
    (ramTreeGen lib c p t).PathLike q l r a → p.wires.length = q.wires.length →
    ∃ t1 p', t.PathLike q l r t1 ∧ a = uTreeGen lib c ⟨p'.wires, 0, ramInit c, []⟩ t1 ∧ (p' : Plain).wires.length = r.wires.length := by
  induction t with
  | fin t => intro p q r l a h hl; cases h; exact ⟨t, p, .fin _ t, rfl, hl⟩
  | undef => intro p q r l a h _; cases h
  | ops l k ih =>
    intro p q r l' a h hl
    rw [ramTreeGen] at h
    split at h
    · cases h
    · rename_i p1 hp1
      cases h with
      | ops hs h1 h2 =>
        obtain ⟨t1, p', k1, k2, k3⟩ := ih _ h2 (plainRun_len hs hl hp1 h1)
        exact ⟨t1, p', .ops hs h1 k1, k2, k3⟩

/-! ### the calls of the memory -/

theorem counts_le {c : RamCfg} {m : Nat} {F : Type} [Field F] [BlockField F] [DecidableEq F] {lib : CmpLib} {ch : Nat → F}
    (t : Branch UOp (Branch BOp Unit)) : ∀ {n : Nat} {g : RNet} {s s' : MPlain F} {ops : List MOp} {a : Branch BOp Unit}, t.Counts m n →
    (uTreeGen lib c g t).MPathLike ch s ops s' a → n ≤ m := by
  induction t with
  | fin post => intro n g s s' ops a h _; exact h.2.trans (Nat.le_refl _)
  | undef => intro n g s s' ops a _ h; cases h
  | ops us k ih =>
    intro n g s s' ops a h hp
    rw [uTreeGen] at hp
    split at hp
    · cases hp
    · cases hp with
      | ops _ _ h2 => exact (Nat.le_add_right _ _).trans (ih _ (h _) h2)

/-- The part with the memory: a run in which the memory returns anything, and then the check. -/
theorem uTree_like {F : Type} [Field F] [PackField F] [DecidableEq F] {lib : CmpLib} {c : RamCfg} (hc : c.Ok) (hss : 1 ≤ c.ssz) {ch : Nat → F} (t : Branch UOp (Branch BOp Unit)) :
    ∀ {g : RNet} {u : UPlain} {s s' : MPlain F} {ops : List MOp} {t2 : Branch BOp Unit}, CSim c g u s → t.Every (UOp.Widths c) (fun _ => True) →
    t.Counts (2 ^ (c.ssz - 1)) g.ram.step → (uTreeGen lib c g t).MPathLike ch s ops s' t2 →
    ∃ us' u' g' sm bb bb', t.TraceLike c u us' u' t2 ∧ CSim c g' u' sm ∧ checkGen lib c g' = some bb ∧ List.Forall₂ MOp.same bb bb' ∧
      mplainOps ch sm bb' = some s' ∧ 3 ≤ u'.log.length ∧ u'.log.length ≤ 2 ^ (c.ssz - 1) := by
  induction t with
  | fin post =>
    intro g u s s' ops t2 hsim _ hcn hp
    rw [uTreeGen] at hp
    split at hp
    · cases hp
    · rename_i l hg
      cases hp with
      | @ops _ q _ _ l1 _ _ _ hs hl hk =>
        cases hk
        obtain ⟨h3, hle⟩ := hcn
        rw [hsim.step] at h3 hle
        exact ⟨[], u, g, s, l, l1, .fin _ _, hsim, hg, hs, hl, h3, hle⟩
  | undef => intro g u s s' ops t2 _ _ _ hp; cases hp
  | ops us k ih =>
    intro g u s s' ops t2 hsim hw hcn hp
    rw [uTreeGen] at hp
    split at hp
    · cases hp
    · rename_i l g1 hg
      cases hp with
      | @ops _ q _ _ l1 _ _ _ hs hl hk =>
        obtain ⟨c1, _⟩ := uGens_count hg
        have hcn1 := hcn q.bp.outs
        rw [← c1] at hcn1
        have hle := counts_le _ hcn1 hk
        obtain ⟨us1, u1, g1', g2', g3'⟩ := csim_steps hc hss hsim hle hw.1 hg hs hl
        obtain ⟨us2, u2, g', sm, bb, bb', k1, k2, k3, k4, k5, k6, k7⟩ := ih _ g3' (hw.2 _) hcn1 hk
        rw [g3'.bp] at k1
        exact ⟨us1 ++ us2, u2, g', sm, bb, bb', .ops g1' g2' k1, k2, k3, k4, k5, k6, k7⟩

/-! ### runs -/

theorem UTrace.append {c : RamCfg} {u u1 u2 : UPlain} {l l' : List UOp} (h : UTrace c u l u1) (h' : UTrace c u1 l' u2) : UTrace c u (l ++ l') u2 := by
  induction h with
  | nil => exact h'
  | cons h1 _ ih => exact .cons h1 (ih h')

/-- The path is one run of its instructions. -/
theorem Branch.TraceLike.trace {c : RamCfg} {t : Branch UOp α} {u u' : UPlain} {us : List UOp} {a : α} (h : t.TraceLike c u us u' a) : UTrace c u us u' := by
  induction h with
  | fin u a => exact .nil _
  | ops _ h1 _ ih => exact h1.append ih

theorem ReadsLastWrite.pre {l l' : List (Acc Nat)} (h : ReadsLastWrite l') (hp : l <+: l') : ReadsLastWrite l := by
  obtain ⟨t, rfl⟩ := hp
  intro i e he hop v hv
  have hi := (List.getElem?_eq_some_iff.1 he).1
  refine h i e (by rw [List.getElem?_append_left hi]; exact he) hop v ?_
  rwa [List.take_append_of_le_length (by omega)]

theorem WrittenFirst.pre {l l' : List (Acc Nat)} (h : WrittenFirst l') (hp : l <+: l') : WrittenFirst l := by
  obtain ⟨t, rfl⟩ := hp
  intro i e he hop
  have hi := (List.getElem?_eq_some_iff.1 he).1
  have := h i e (by rw [List.getElem?_append_left hi]; exact he) hop
  rwa [List.take_append_of_le_length (by omega)] at this

/-- A path whose reads return the latest write, of addresses written before, is the path of the plain program. -/
theorem Branch.TraceLike.plain {c : RamCfg} {Q : α → Prop} {t : Branch UOp α} {u u' : UPlain} {us : List UOp} {a : α} (h : t.TraceLike c u us u' a) :
    t.Every (UOp.Widths c) Q → t.Every UOp.Plain Q → ReadsLastWrite u'.log → WrittenFirst u'.log → t.RunLike c u us u' a := by
  induction h with
  | fin u a => exact fun _ _ _ _ => .fin u a
  | @ops u u1 u2 l l1 l2 k a hs h1 h2 ih =>
    intro hw hp hr hf
    have hpre := h2.trace.log
    exact .ops hs (h1.plain (forall₂_all (P := UOp.Widths c) (fun _ _ => UOp.same_widths) hs hw.1)
      (forall₂_all (P := UOp.Plain) (fun _ _ => UOp.same_plain) hs hp.1) (hr.pre hpre) (hf.pre hpre)) (ih (hw.2 _) (hp.2 _) hr hf)

end
end EmpZk
