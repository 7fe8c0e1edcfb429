/-
Helper lemmas for C105: the verifier's program does not depend on private values, also for branching programs with a memory.
-/
import Verif.Lemmas.BranchRam
import Verif.Lemmas.SameVerifier
import Verif.Lemmas.Calls
import Verif.Lemmas.ZkRamHonest

namespace EmpZk

section
variable {F α β γ : Type} [Field F] [BlockField F] [DecidableEq F]

theorem btreeR_alike (ne : NetEnv F) {Q : α → β → Prop} {f : VerSt F × α → RProg γ} {f' : VerSt F × β → RProg γ}
    (hf : ∀ s a b, Q a b → f (s, a) = f' (s, b)) (t : Branch BOp α) : ∀ {t' : Branch BOp β} (s : VerSt F), t.Alike BOp.same Q t' →
    (btreeR ne s t).bind f = (btreeR ne s t').bind f' := by
  induction t with
  | fin a =>
    intro t' s h
    cases t' with
    | fin b => exact hf s a b h
    | _ => exact absurd h id
  | undef =>
    intro t' s h
    cases t' with
    | undef => rfl
    | _ => exact absurd h id
  | ops l k ih =>
    intro t' s h
    cases t' with
    | ops l' k' =>
      rw [btreeR, btreeR, RProg.bind_assoc, RProg.bind_assoc, bopsR_same ne h.1]
      congr 1
      funext s1
      exact ih _ s1 (h.2 _)
    | _ => exact absurd h id

theorem mtreeR_alike (me : MixEnv F) {Q : α → β → Prop} {f : MVer F × α → RProg γ} {f' : MVer F × β → RProg γ}
    (hf : ∀ s a b, Q a b → f (s, a) = f' (s, b)) (t : Branch MOp α) : ∀ {t' : Branch MOp β} (s : MVer F), t.Alike MOp.same Q t' →
    (mtreeR me s t).bind f = (mtreeR me s t').bind f' := by
  induction t with
  | fin a =>
    intro t' s h
    cases t' with
    | fin b => exact hf s a b h
    | _ => exact absurd h id
  | undef =>
    intro t' s h
    cases t' with
    | undef => rfl
    | _ => exact absurd h id
  | ops l k ih =>
    intro t' s h
    cases t' with
    | ops l' k' =>
      rw [mtreeR, mtreeR, RProg.bind_assoc, RProg.bind_assoc, mopsR_same me h.1]
      congr 1
      funext s1
      exact ih _ s1 (h.2 _)
    | _ => exact absurd h id

theorem branchVerifier_alike (me : MixEnv F) {t t' : SessTree}
    (h : t.Alike BOp.same (fun a b => a.Alike MOp.same (fun a b => a.Alike BOp.same (· = ·) b) b) t') : branchVerifier me t = branchVerifier me t' := by
  unfold branchVerifier branchR
  congr 2
  funext _
  refine btreeR_alike me.ne (fun s a b hab => ?_) t _ h
  congr 1
  funext s1
  refine mtreeR_alike me (fun s a b hab => ?_) a s1 hab
  congr 1
  funext s2
  refine btreeR_alike me.ne (fun s a b _ => rfl) a s2.b hab

end

/-! ### the generator -/

theorem lookup_len {st : PolyStmt Nat} {l k : List Bool} (hl : l.length = k.length) (h : (st.lookup l).isSome) : (st.lookup k).isSome := by
  have e1 : l = (l.zip k).map Prod.fst := by rw [List.map_fst_zip (by omega)]
  have e2 : k = (l.zip k).map Prod.snd := by rw [List.map_snd_zip (by omega)]
  rw [e1, lookup_map] at h
  rw [e2, lookup_map]
  simpa using h

theorem plainStep_some {p q p' : Plain} {o o' : BOp} (hoo : BOp.same o o') (hl : p.wires.length = q.wires.length) (hp : plainStep p o = some p') :
    ∃ q', plainStep q o' = some q' := by
  have get : ∀ {i : Nat} {a : Bool}, p.wires[i]? = some a → ∃ b, q.wires[i]? = some b := by
    intro i a h
    have := (List.getElem?_eq_some_iff.1 h).1
    exact ⟨q.wires[i]'(by omega), List.getElem?_eq_getElem _⟩
  cases o <;> cases o' <;> simp only [BOp.same, reduceCtorEq] at hoo <;>
    simp only [plainStep, Option.bind_eq_bind, Option.bind_eq_some_iff, Option.some.injEq] at hp ⊢
  case input => exact ⟨_, rfl⟩
  case pub => exact ⟨_, rfl⟩
  case xor =>
    obtain ⟨a, ha, b, hb, _⟩ := hp
    obtain ⟨a', ha'⟩ := get ha
    obtain ⟨b', hb'⟩ := get hb
    simp only [BOp.xor.injEq] at hoo
    rw [← hoo.1, ← hoo.2]
    exact ⟨_, a', ha', b', hb', rfl⟩
  case not =>
    obtain ⟨a, ha, _⟩ := hp
    obtain ⟨a', ha'⟩ := get ha
    simp only [BOp.not.injEq] at hoo
    rw [← hoo]
    exact ⟨_, a', ha', rfl⟩
  case and =>
    obtain ⟨a, ha, b, hb, _⟩ := hp
    obtain ⟨a', ha'⟩ := get ha
    obtain ⟨b', hb'⟩ := get hb
    simp only [BOp.and.injEq] at hoo
    rw [← hoo.1, ← hoo.2]
    exact ⟨_, a', ha', b', hb', rfl⟩
  case reveal =>
    obtain ⟨a, ha, _⟩ := hp
    obtain ⟨a', ha'⟩ := get ha
    simp only [BOp.reveal.injEq] at hoo
    rw [← hoo]
    exact ⟨_, a', ha', rfl⟩
  case poly =>
    obtain ⟨a, ha, _⟩ := hp
    simp only [BOp.poly.injEq] at hoo
    rw [← hoo]
    obtain ⟨a', ha'⟩ := Option.isSome_iff_exists.1 (lookup_len hl (by rw [ha]; rfl))
    exact ⟨_, a', ha', rfl⟩

theorem plainRun_some {l l' : List BOp} (h : List.Forall₂ BOp.same l l') : ∀ {p q p' : Plain}, p.wires.length = q.wires.length →
    l.foldlM plainStep p = some p' → ∃ q', l'.foldlM plainStep q = some q' := by
  induction h with
  | nil => intro p q p' _ _; exact ⟨q, rfl⟩
  | cons h1 _ ih =>
    intro p q p' hl hp
    rw [List.foldlM_cons] at hp ⊢
    simp only [Option.bind_eq_bind, Option.bind_eq_some_iff] at hp ⊢
    obtain ⟨p1, a1, a2⟩ := hp
    obtain ⟨q1, b1⟩ := plainStep_some h1 hl a1
    obtain ⟨q', b2⟩ := ih (plainStep_len h1 hl a1 b1) a2
    exact ⟨q', q1, b1, b2⟩

/-- The two states of the members of `ZKRAM` differ only in the values. -/
structure GLike (c : RamCfg) (g g' : RNet) : Prop where
  bits : g.bits.length = g'.bits.length
  nf : g.nf = g'.nf
  macs : g.macs = g'.macs
  step : g.ram.step = g'.ram.step
  mem : g.ram.mem.length = 2 ^ c.isz
  mem' : g'.ram.mem.length = 2 ^ c.isz
  list : g.ram.list.length = g.ram.step
  list' : g'.ram.list.length = g'.ram.step

theorem GLike.symm {c : RamCfg} {g g' : RNet} (h : GLike c g g') : GLike c g' g :=
  ⟨h.bits.symm, h.nf.symm, h.macs.symm, h.step.symm, h.mem', h.mem, h.list', h.list⟩

theorem BOp.same_symm {o o' : BOp} (h : BOp.same o o') : BOp.same o' o := by
  cases o <;> cases o' <;> simp_all [BOp.same]

theorem UOp.same_symm {o o' : UOp} (h : UOp.same o o') : UOp.same o' o := by
  cases o <;> cases o' <;> simp only [UOp.same, reduceCtorEq] at h ⊢
  case bool => exact BOp.same_symm h
  all_goals exact h.symm

theorem packU_some {c : RamCfg} {i v s : Nat} {op : Bool} {w : Nat} (h : packU c i v s op = some w) (i' v' s' : Nat) (op' : Bool) :
    ∃ w', packU c i' v' s' op' = some w' := by
  unfold packU at h ⊢
  split at h
  · rename_i hc; rw [if_pos hc]; exact ⟨_, rfl⟩
  · cases h

theorem mem_some {c : RamCfg} {g : RNet} (h : g.ram.mem.length = 2 ^ c.isz) {ix : List Nat} (hw : ix.length = c.isz) {ib : List Bool}
    (hib : pick g.bits ix = some ib) : ∃ v, g.ram.mem[bitsNum ib]? = some v := by
  have := bitsNum_lt ib
  rw [pick_length hib, hw, ← h] at this
  exact ⟨_, List.getElem?_eq_getElem this⟩

theorem uGen_like {c : RamCfg} {g g' g1 : RNet} {o o' : UOp} {a : List MOp} (hoo : UOp.same o o') (hw : o.Widths c) (hg : GLike c g g')
    (h : uGen c g o = some (a, g1)) : ∃ a' g1', uGen c g' o' = some (a', g1') ∧ List.Forall₂ MOp.same a a' ∧ GLike c g1 g1' := by
  cases o with
  | bool o =>
    cases o' with
    | bool o' =>
      simp only [uGen, Option.bind_eq_bind, Option.bind_eq_some_iff, Option.some.injEq, Prod.mk.injEq] at h ⊢
      obtain ⟨p, hp, rfl, rfl⟩ := h
      obtain ⟨q, hq⟩ := plainStep_some (q := ⟨g'.bits, [], []⟩) hoo hg.bits hp
      have hlen := plainStep_len hoo hg.bits hp hq
      exact ⟨_, _, ⟨q, hq, rfl, rfl⟩, .cons hoo .nil, hlen, hg.nf, hg.macs, hg.step, hg.mem, hg.mem', hg.list, hg.list'⟩
    | _ => simp [UOp.same] at hoo
  | read ix =>
    have e : o' = .read ix := by cases o' <;> simp [UOp.same] at hoo ⊢; exact hoo.symm
    subst e
    simp only [uGen, ramRead, ramPush, Option.bind_eq_bind, Option.bind_eq_some_iff, Option.some.injEq, Prod.mk.injEq, Prod.exists] at h ⊢
    obtain ⟨ib, hib, r, x, ⟨v, hv, _, ⟨w, hpk, rfl⟩, rfl, rfl⟩, ws, hws, rfl, rfl⟩ := h
    obtain ⟨ib', hib'⟩ := pick_of_length hg.bits hib
    obtain ⟨v', hv'⟩ := mem_some hg.mem' hw hib'
    obtain ⟨w', hpk'⟩ := packU_some hpk (bitsNum ib') v' g'.ram.step false
    rw [hg.bits] at hws
    refine ⟨_, _, ⟨ib', hib', _, _, ⟨v', hv', _, ⟨w', hpk', rfl⟩, rfl, rfl⟩, ws, hws, rfl, rfl⟩, ?_, ?_, ?_, ?_, ?_, ?_, ?_, ?_, ?_⟩
    · refine List.rel_append (R := MOp.same) (inInt_same _ _ _) ?_
      rw [hg.step]
      exact same_refls _
    · simp [hg.bits, bitsOf_length]
    · simp [hg.nf]
    · simp [hg.macs, hg.nf]
    · simp [hg.step]
    · exact hg.mem
    · exact hg.mem'
    · simp [hg.list]
    · simp [hg.list']
  | write ix vs =>
    have e : o' = .write ix vs := by cases o' <;> simp [UOp.same] at hoo ⊢; exact ⟨hoo.1.symm, hoo.2.symm⟩
    subst e
    simp only [uGen, ramWrite, ramPush, Option.bind_eq_bind, Option.bind_eq_some_iff, Option.some.injEq, Prod.mk.injEq] at h ⊢
    obtain ⟨ib, hib, vb, hvb, _, ⟨v, hv, w, hpk, rfl⟩, ws, hws, rfl, rfl⟩ := h
    obtain ⟨ib', hib'⟩ := pick_of_length hg.bits hib
    obtain ⟨vb', hvb'⟩ := pick_of_length hg.bits hvb
    obtain ⟨v', hv'⟩ := mem_some hg.mem' hw.1 hib'
    obtain ⟨w', hpk'⟩ := packU_some hpk (bitsNum ib') (bitsNum vb') g'.ram.step true
    rw [hg.bits] at hws
    refine ⟨_, _, ⟨ib', hib', vb', hvb', _, ⟨v', hv', w', hpk', rfl⟩, ws, hws, rfl, rfl⟩, ?_, ?_, ?_, ?_, ?_, ?_, ?_, ?_, ?_⟩
    · rw [hg.step]
      exact same_refls _
    · simp [hg.bits, bitsOf_length]
    · simp [hg.nf]
    · simp [hg.macs, hg.nf]
    · simp [hg.step]
    · simp [hg.mem]
    · simp [hg.mem']
    · simp [hg.list]
    · simp [hg.list']
  | access op ix vs =>
    have e : o' = .access op ix vs := by cases o' <;> simp [UOp.same] at hoo ⊢; exact ⟨hoo.1.symm, hoo.2.1.symm, hoo.2.2.symm⟩
    subst e
    simp only [uGen, ramAccess, ramPush, Option.bind_eq_bind, Option.bind_eq_some_iff, Option.some.injEq, Prod.mk.injEq, Prod.exists] at h ⊢
    obtain ⟨ib, hib, ob, hob, vb, hvb, r, x, ⟨v, hv, _, ⟨w, hpk, rfl⟩, rfl, rfl⟩, ws, hws, rfl, rfl⟩ := h
    obtain ⟨ib', hib'⟩ := pick_of_length hg.bits hib
    obtain ⟨vb', hvb'⟩ := pick_of_length hg.bits hvb
    have hop := (List.getElem?_eq_some_iff.1 hob).1
    rw [hg.bits] at hop
    have hob' : g'.bits[op]? = some (g'.bits[op]'hop) := List.getElem?_eq_getElem hop
    generalize g'.bits[op]'hop = ob' at hob'
    obtain ⟨v', hv'⟩ := mem_some hg.mem' hw.1 hib'
    obtain ⟨w', hpk'⟩ := packU_some hpk (bitsNum ib') (if ob' = true then bitsNum vb' else v') g'.ram.step ob'
    rw [hg.bits] at hws
    refine ⟨_, _, ⟨ib', hib', ob', hob', vb', hvb', _, _, ⟨v', hv', _, ⟨w', hpk', rfl⟩, rfl, rfl⟩, ws, hws, rfl, rfl⟩, ?_, ?_, ?_, ?_, ?_, ?_, ?_, ?_, ?_⟩
    · refine List.rel_append (R := MOp.same) (inInt_same _ _ _) ?_
      rw [hg.step]
      exact same_refls _
    · simp [hg.bits, bitsOf_length]
    · simp [hg.nf]
    · simp [hg.macs, hg.nf]
    · simp [hg.step]
    · cases ob <;> simp [hg.mem]
    · cases ob' <;> simp [hg.mem']
    · simp [hg.list]
    · simp [hg.list']

theorem uGens_like {c : RamCfg} {l l' : List UOp} (hl : List.Forall₂ UOp.same l l') : ∀ {g g' g1 : RNet} {a : List MOp}, (∀ o ∈ l, o.Widths c) → GLike c g g' →
    uGens c g l = some (a, g1) → ∃ a' g1', uGens c g' l' = some (a', g1') ∧ List.Forall₂ MOp.same a a' ∧ GLike c g1 g1' := by
  induction hl with
  | nil =>
    intro g g' g1 a _ hg h
    simp only [uGens, Option.some.injEq, Prod.mk.injEq] at h ⊢
    obtain ⟨rfl, rfl⟩ := h
    exact ⟨[], g', ⟨rfl, rfl⟩, .nil, hg⟩
  | cons h1 _ ih =>
    intro g g' g1 a hw hg h
    simp only [uGens, Option.bind_eq_bind, Option.bind_eq_some_iff, Option.some.injEq, Prod.mk.injEq, Prod.exists] at h ⊢
    obtain ⟨b, g2, e1, b2, g3, e2, rfl, rfl⟩ := h
    obtain ⟨b', g2', k1, k2, k3⟩ := uGen_like h1 (hw _ (by simp)) hg e1
    obtain ⟨b2', g3', j1, j2, j3⟩ := ih (fun o ho => hw o (by simp [ho])) k3 e2
    exact ⟨_, _, ⟨b', g2', k1, b2', g3', j1, rfl, rfl⟩, List.rel_append (R := MOp.same) k2 j2, j3⟩

theorem checkGen_like {lib : CmpLib} {c : RamCfg} {g g' : RNet} {a : List MOp} (hg : GLike c g g') (h3 : 3 ≤ g.ram.step) (h64 : g.ram.step < 2 ^ 64)
    (h : checkGen lib c g = some a) : ∃ a', checkGen lib c g' = some a' ∧ List.Forall₂ MOp.same a a' := by
  have hl' := hg.list'
  have hl := hg.list
  have e := hg.step
  rw [checkGen, ramCheck_eq hl.symm h3 h64] at h
  rw [checkGen, ramCheck_eq hl'.symm (by omega) (by omega)]
  simp only [Option.bind_eq_bind, Option.bind_some, Option.bind_eq_some_iff, Option.some.injEq] at h ⊢
  obtain ⟨ps, hps, se, hse, rfl⟩ := h
  rw [hg.bits, hg.step] at hps
  rw [hg.nf, hg.step, hg.macs] at hse
  refine ⟨_, ⟨ps, hps, se, hse, rfl⟩, ?_⟩
  refine List.rel_append (R := MOp.same) ?_ ?_
  · have := inputs_same (a := ((g.ram.list.mergeSort (fun a b => decide (a ≤ b))).map (unpackU c)).flatMap (rowBits c))
      (b := ((g'.ram.list.mergeSort (fun a b => decide (a ≤ b))).map (unpackU c)).flatMap (rowBits c))
      (by rw [flatMap_rowBits_length, flatMap_rowBits_length, List.length_map, List.length_map, List.length_mergeSort, List.length_mergeSort, hl, hl', e])
    rw [List.map_map, List.map_map] at this
    exact this
  · rw [hg.bits, hg.step]
    exact same_refls _

theorem uTree_alike {lib : CmpLib} {c : RamCfg} {m : Nat} (hm : m < 2 ^ 64) {Q : Branch BOp Unit → Branch BOp Unit → Prop} (t : Branch UOp (Branch BOp Unit)) :
    ∀ {t' : Branch UOp (Branch BOp Unit)} {g g' : RNet}, t.Alike UOp.same Q t' → t.Every (UOp.Widths c) (fun _ => True) → t.Counts m g.ram.step →
    GLike c g g' → (uTreeGen lib c g t).Alike MOp.same Q (uTreeGen lib c g' t') := by
  induction t with
  | fin a =>
    intro t' g g' h _ hcn hg
    cases t' with
    | fin b =>
      obtain ⟨h3, hle⟩ := hcn
      rw [uTreeGen, uTreeGen]
      cases e : checkGen lib c g with
      | none =>
        cases e' : checkGen lib c g' with
        | none => trivial
        | some l' =>
          obtain ⟨_, k, _⟩ := checkGen_like hg.symm (by rw [← hg.step]; exact h3) (by rw [← hg.step]; omega) e'
          rw [e] at k; cases k
      | some l =>
        obtain ⟨l', k1, k2⟩ := checkGen_like hg h3 (by omega) e
        rw [k1]
        exact ⟨k2, fun _ => h⟩
    | _ => exact absurd h id
  | undef =>
    intro t' g g' h _ _ _
    cases t' with
    | undef => trivial
    | _ => exact absurd h id
  | ops l k ih =>
    intro t' g g' h hw hcn hg
    cases t' with
    | ops l' k' =>
      rw [uTreeGen, uTreeGen]
      cases e : uGens c g l with
      | none =>
        cases e' : uGens c g' l' with
        | none => trivial
        | some r =>
          obtain ⟨a', g1'⟩ := r
          obtain ⟨_, _, k, _⟩ := uGens_like (h.1.flip.imp (fun _ _ h => UOp.same_symm h)) (forall₂_all (P := UOp.Widths c) (fun _ _ => UOp.same_widths) h.1 hw.1) hg.symm e'
          rw [e] at k; cases k
      | some r =>
        obtain ⟨a, g1⟩ := r
        obtain ⟨a', g1', k1, k2, k3⟩ := uGens_like h.1 hw.1 hg e
        rw [k1]
        refine ⟨k2, fun o => ih o (h.2 o) (hw.2 o) ?_ k3⟩
        rw [(uGens_count e).1]
        exact hcn o
    | _ => exact absurd h id

theorem ramTree_alike {lib : CmpLib} {c : RamCfg} {m : Nat} (hm : m < 2 ^ 64) {Q : Branch BOp Unit → Branch BOp Unit → Prop} (t : RamTree) :
    ∀ {t' : RamTree} {p p' : Plain}, t.Alike BOp.same (fun a b => a.Alike UOp.same Q b) t' →
    t.Every (fun _ => True) (fun t1 => t1.Every (UOp.Widths c) (fun _ => True) ∧ t1.Counts m 0) → p.wires.length = p'.wires.length →
    (ramTreeGen lib c p t).Alike BOp.same (fun a b => a.Alike MOp.same Q b) (ramTreeGen lib c p' t') := by
  induction t with
  | fin a =>
    intro t' p p' h hw hl
    cases t' with
    | fin b => exact uTree_alike hm a h hw.1 hw.2 ⟨hl, rfl, rfl, rfl, by simp [ramInit], by simp [ramInit], rfl, rfl⟩
    | _ => exact absurd h id
  | undef =>
    intro t' p p' h _ _
    cases t' with
    | undef => trivial
    | _ => exact absurd h id
  | ops l k ih =>
    intro t' p p' h hw hl
    cases t' with
    | ops l' k' =>
      rw [ramTreeGen, ramTreeGen]
      cases e : l.foldlM plainStep p with
      | none =>
        cases e' : l'.foldlM plainStep p' with
        | none => trivial
        | some r =>
          obtain ⟨_, k⟩ := plainRun_some (h.1.flip.imp (fun _ _ h => BOp.same_symm h)) hl.symm e'
          rw [e] at k; cases k
      | some q =>
        obtain ⟨q', k1⟩ := plainRun_some h.1 hl e
        rw [k1]
        exact ⟨h.1, fun o => ih o (h.2 o) (hw.2 o) (plainRun_len h.1 hl e k1)⟩
    | _ => exact absurd h id

end EmpZk
