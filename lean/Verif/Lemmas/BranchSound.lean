/-
The verifier of a branching session works on the keys of the committed values; what the committed values satisfy when everything among them is right.
-/
import Verif.Lemmas.MixSize
import Verif.Spec.BranchCommit

namespace EmpZk

section
variable {F α : Type} [Field F] [BlockField F] [DecidableEq F]
variable {ne : NetEnv F} {me : MixEnv F} {v : BView F} {d : F}

theorem bfol_outs {V : VerSt F} {c : ComSt F} (h : BFol v d V c) : V.outs = c.opened.map Prod.snd := by
  obtain ⟨ch, rfl, _⟩ := h
  rfl

theorem btree_follows (hd : lsb d = true) (t : Branch BOp α) : ∀ {V : VerSt F} {c : ComSt F}, BFol v d V c →
    Follows (fun x y => BFol v d x.1 y.1 ∧ x.2 = y.2) (btreeR { ne with e := v.env d } V t) (btreeC ne v c t) := by
  induction t with
  | fin a => intro V c h; exact .done ⟨h, rfl⟩
  | undef => intro V c _; exact .fail
  | ops l k ih =>
    intro V c h
    refine (bops_follows hd l h).bind (fun V1 c1 h1 => ?_)
    rw [bfol_outs h1]
    exact ih _ h1

theorem mtree_follows (hd : lsb d = true) (hroom : ∀ k, me.sz ≤ (me.auth k).length) (hsz : 0 < me.sz) (t : Branch MOp α) :
    ∀ {V : MVer F} {C : MCom F}, MFol me v d V C →
    Follows (fun x y => MFol me v d x.1 y.1 ∧ x.2 = y.2) (mtreeR (me.at v d) V t) (mtreeC me v C t) := by
  induction t with
  | fin a => intro V c h; exact .done ⟨h, rfl⟩
  | undef => intro V c _; exact .fail
  | ops l k ih =>
    intro V c h
    refine (mops_follows hd hroom hsz l h).bind (fun V1 c1 h1 => ?_)
    rw [bfol_outs h1.b]
    exact ih _ h1

/-- At the end of a branching session. -/
theorem branch_follows (hd : lsb d = true) (hroom : ∀ k, me.sz ≤ (me.auth k).length) (hsz : 0 < me.sz) (t : SessTree) :
    Follows (fun V r => BEnd v d V.b (r.1.b, r.2) ∧ MEnd v d V r.1) (branchVerifier (me.at v d) t) (branchCommit me v t) := by
  unfold branchVerifier branchCommit branchR branchC
  refine Follows.bind (R := fun V r => BEnd v d V.b (r.1.b, r.2) ∧ MEnd v d V r.1) ?_ (fun _ _ hr => .call (fun _ _ => .done hr))
  refine (rcotR_follows _ _ _).bind (fun _ _ _ => ?_)
  have h0 : BFol v d VerSt.init ComSt.init := ⟨[], rfl, CheatInv.init _⟩
  refine (btree_follows hd t h0).bind ?_
  rintro ⟨b, t1⟩ ⟨c, _⟩ ⟨hb, rfl⟩
  simp only at hb ⊢
  have hu : b.used = c.used := by obtain ⟨ch, rfl, hi⟩ := hb; rfl
  refine Follows.bind (R := MFol me v d) ?_ (fun V C h => (mtree_follows hd hroom hsz t1 h).bind ?_)
  · refine (Follows.calls _).bind (fun _ _ _ => .done ⟨?_, rfl, rfl, ⟨rfl, rfl, by simp, hroom 0⟩, rfl, rfl, rfl, by simp, by simp, by simp⟩)
    have := bfol_used hb (c.used + me.svN 0)
    rw [← hu] at this ⊢
    exact this
  · rintro ⟨V1, t2⟩ ⟨C1, _⟩ ⟨h1, rfl⟩
    exact (f2kDel_follows h1).bind (fun V2 C2 h2 => (btree_follows hd t2 h2.1).bind (fun b3 c3 h3 => (bfin_follows h3.1).bind (fun b4 r h4 =>
      .done ⟨h4, h2.2.fw, h2.2.rs, h2.2.muls, h2.2.prds, h2.2.eqs⟩)))

/-- If the state at the end is faithful, so is the first, and the path is one of the plain program on some inputs. -/
def BTPost (c : ComSt F) (t : Branch BOp α) (r : ComSt F × α) : Prop :=
  Faithful r.1 → Faithful c ∧ ∃ l', t.PathLike c.plain l' r.1.plain r.2

theorem btree_all (t : Branch BOp α) : ∀ c : ComSt F, (btreeC ne v c t).All (BTPost c t) := by
  induction t with
  | fin a => intro c hf; exact ⟨hf, [], .fin _ a⟩
  | undef => intro c; trivial
  | ops l k ih =>
    intro c
    refine (bops_all l c).bind (fun c1 h1 => (ih _ c1).mono (fun r h2 hf => ?_))
    obtain ⟨f1, l2, k2⟩ := h2 hf
    obtain ⟨f0, l1, s1, r1⟩ := h1 f1
    exact ⟨f0, l1 ++ l2, .ops s1 r1 k2⟩

/-- What a branching program does to a committed state. -/
structure MTPost (sz : Nat) (C : MCom F) (t : Branch MOp α) (r : MCom F × α) : Prop where
  pre : C.rs <+: r.1.rs
  inv : r.1.buf.Inv sz
  five : (∀ g ∈ C.prdGates, g.ins.length = 5) → ∀ g ∈ r.1.prdGates, g.ins.length = 5
  back : MFaith r.1 → MFaith C ∧ ∃ l', ∀ ch, Begins ch r.1.rs → t.MPathLike ch C.plain l' r.1.plain r.2

theorem mtree_all (hroom : ∀ k, me.sz ≤ (me.auth k).length) (hsz : 0 < me.sz) {Q : α → Prop} (t : Branch MOp α) : ∀ {C : MCom F}, C.buf.Inv me.sz →
    t.Every (fun o => ∀ is, o = .mulN is → is.length = 5) Q → (mtreeC me v C t).All (fun r => MTPost me.sz C t r ∧ Q r.2) := by
  induction t with
  | fin a => intro C hi h; exact ⟨⟨List.prefix_refl _, hi, fun h => h, fun hf => ⟨hf, [], fun _ _ => .fin _ a⟩⟩, h⟩
  | undef => intro C _ _; trivial
  | ops l k ih =>
    intro C hi h5
    refine (mops_all hroom hsz l hi (fun is h => h5.1 _ h is rfl)).bind (fun C1 h1 => (ih _ h1.inv (h5.2 _)).mono (fun r h2 => ⟨⟨h1.pre.trans h2.1.pre,
      h2.1.inv, fun h => h2.1.five (h1.five h), fun hf => ?_⟩, h2.2⟩))
    obtain ⟨f1, l2, k2⟩ := h2.1.back hf
    obtain ⟨f0, l1, s1, r1⟩ := h1.back f1
    exact ⟨f0, l1 ++ l2, fun ch hb => .ops s1 (r1 ch (hb.prefix h2.1.pre)) (k2 ch hb)⟩

theorem btree_every {P : BOp → Prop} {Q : α → Prop} (t : Branch BOp α) : ∀ (c : ComSt F), t.Every P Q →
    (btreeC ne v c t).All (fun r => Q r.2) := by
  induction t with
  | fin a => intro c h; exact h
  | undef => intro c _; trivial
  | ops l k ih => intro c h; exact (bops_all l c).bind (fun c1 _ => ih _ c1 (h.2 _))

/-- Both. -/
theorem RProg.All.and {β : Type} {Q Q' : β → Prop} {q : RProg β} (h : q.All Q) (h' : q.All Q') : q.All (fun x => Q x ∧ Q' x) := by
  induction q with
  | done a => exact ⟨h, h'⟩
  | fail => trivial
  | stop => trivial
  | call o k ih => exact fun x y => ih x y (h x y) (h' x y)

/-- A whole branching session on committed values. -/
theorem branchC_all (hroom : ∀ k, me.sz ≤ (me.auth k).length) (hsz : 0 < me.sz) (t : SessTree)
    (h5 : t.Every (fun _ => True) (fun t1 => t1.Every (fun o => ∀ is, o = .mulN is → is.length = 5) (fun _ => True))) :
    (branchCommit me v t).All (fun r =>
      r.1.b.gates = [] ∧ r.1.b.polys = [] ∧ (∀ p ∈ r.1.prds, ∀ g ∈ p.gates, g.ins.length = 5) ∧
      (Faithful r.1.b → (∀ p ∈ r.1.muls, ∀ g ∈ p.gates, MulOk g) → (∀ p ∈ r.1.prds, ∀ g ∈ p.gates, g.Ok) → (∀ e ∈ r.1.eqs, e.1.1 = e.2.1.1) →
        ∃ pre' ops' post', ∀ ch, Begins ch r.1.rs → WalkLike ch t pre' ops' post' r.1.plain)) := by
  unfold branchCommit branchC
  refine RProg.All.bind ?_ (fun r hr => fun _ _ => hr)
  refine (RProg.All.calls _).bind (fun _ _ => ((btree_all t ComSt.init).and (btree_every t ComSt.init h5)).bind (fun b hb => ?_))
  refine RProg.All.bind (Q := fun C => C.buf.Inv me.sz ∧ C.b = { b.1 with used := b.1.used + me.svN 0 } ∧ C.fw = [] ∧ C.rs = [] ∧ C.prds = [] ∧
    C.polys = []) ?_ (fun C hC => (mtree_all hroom hsz b.2 hC.1 hb.2).bind (fun C1 h1 => (f2kDel_all h1.1.inv).bind (fun C2 h2 =>
      (btree_all C1.2 C2.b).bind (fun b3 h3 => (bfin_all b3.1).bind (fun r h4 => ?_)))))
  · exact (RProg.All.calls _).bind (fun _ _ => ⟨⟨rfl, rfl, Nat.zero_le _, hroom 0⟩, rfl, rfl, rfl, rfl, rfl⟩)
  · obtain ⟨c0, c1, c2, c3, c4, c5⟩ := hC
    replace h1 := h1.1
    refine ⟨h4.2.1, h4.2.2, ?_, ?_⟩
    · intro p hp g hg
      refine h1.five (by simp [MCom.prdGates, c4, c5]) g ?_
      rw [← h2.1.prds]
      exact List.mem_append_left _ (List.mem_flatMap.2 ⟨p, hp, hg⟩)
    · intro f1 f2 f3 f4
      obtain ⟨g1, post', p2⟩ := h3 (h4.1.faithful f1)
      have hf2 : MFaith C2 := by
        refine ⟨g1, ?_, ?_, f4⟩
        · intro g hg
          rcases List.mem_append.1 hg with hg | hg
          · obtain ⟨p, hp, hg⟩ := List.mem_flatMap.1 hg
            exact f2 p hp g hg
          · simp [F2kBuf.pending, h2.2.2] at hg
        · intro g hg
          rcases List.mem_append.1 hg with hg | hg
          · obtain ⟨p, hp, hg⟩ := List.mem_flatMap.1 hg
            exact f3 p hp g hg
          · rw [h2.2.1] at hg; simp at hg
      have hf1 : MFaith C1.1 := ⟨h2.1.b.faithful hf2.b, by rw [← h2.1.muls]; exact hf2.muls, by rw [← h2.1.prds]; exact hf2.prds,
        by rw [← h2.1.eqs]; exact hf2.eqs⟩
      obtain ⟨g0, ops', o2⟩ := h1.back hf1
      have hfb : Faithful b.1 := by
        have := g0.b
        rw [c1] at this
        exact ⟨this.gates, this.opened⟩
      obtain ⟨_, pre', q2⟩ := hb.1 hfb
      refine ⟨pre', ops', post', fun ch hch => ⟨b.1.plain, b.2, C1.1.plain, C1.2, b3.1.plain, q2, ?_, ?_, ?_⟩⟩
      · have := o2 ch (by rw [← h2.1.rs]; exact hch)
        have hp : C.plain = ⟨b.1.plain, [], []⟩ := by
          simp only [MCom.plain, c1, c2, c3]
          rfl
        rwa [hp] at this
      · have : C1.1.plain.bp = C2.b.plain := h2.1.b.2.2.1.symm
        rw [this]; exact p2
      · simp only [MCom.plain, h4.1.2.2.1, ← h2.1.fw, ← h2.1.rs]

/-! ### sizes of the batches -/

theorem btree_cap (hc : 0 < v.checkSz) (t : Branch BOp α) : ∀ {c : ComSt F}, BCap ne v c → (btreeC ne v c t).All (fun r => BCap ne v r.1) := by
  induction t with
  | fin a => intro c h; exact h
  | undef => intro c _; trivial
  | ops l k ih => intro c h; exact (bops_cap hc l h).bind (fun _ h1 => ih _ h1)

theorem mtree_cap (hc : 0 < v.checkSz) (hsz : 0 < me.sz) (hcap : 0 < me.cap) (t : Branch MOp α) : ∀ {C : MCom F}, MCap me v C →
    (mtreeC me v C t).All (fun r => MCap me v r.1) := by
  induction t with
  | fin a => intro c h; exact h
  | undef => intro c _; trivial
  | ops l k ih => intro c h; exact (mops_cap hc hsz hcap l h).bind (fun _ h1 => ih _ h1)

theorem branchC_cap (hc : 0 < v.checkSz) (hsz : 0 < me.sz) (hcap : 0 < me.cap) (t : SessTree) :
    (branchCommit me v t).All (fun r => MCap me v r.1) := by
  unfold branchCommit branchC
  refine RProg.All.bind (Q := fun r => MCap me v r.1) ?_ (by intro r hr _ _; exact hr)
  have h0 : BCap me.ne v ComSt.init := ⟨Nat.zero_le _, Nat.zero_le _, fun r hr => by simp [ComSt.init] at hr, fun r hr => by simp [ComSt.init] at hr⟩
  refine (RProg.All.calls _).bind (fun _ _ => (btree_cap hc t h0).bind (fun b hb => ?_))
  refine RProg.All.bind (Q := MCap me v) ?_ (fun C hC => (mtree_cap hc hsz hcap b.2 hC).bind (fun C1 h1 => RProg.All.bind (Q := MCap me v) ?_ (fun C2 h2 =>
    (btree_cap hc C1.2 h2.b).bind (fun b3 h3 => (bfin_cap h3).bind (fun r h4 => ⟨h4, h2.buf, h2.polys, h2.muls, h2.prds⟩)))))
  · exact (RProg.All.calls _).bind (fun _ _ => ⟨⟨hb.gates, hb.polys, hb.ands, hb.stmts⟩, Nat.zero_le _, Nat.zero_le _,
      fun r hr => by simp at hr, fun r hr => by simp at hr⟩)
  · unfold f2kDelC
    refine RProg.All.bind (Q := MCap me v) ?_ (fun R hR => ?_)
    · split
      · rename_i hl; exact (prdtCheck_cap h1 hl).mono (fun _ h => h.1)
      · exact h1
    · split
      · rename_i hl; exact f2kCheck_cap hR hl
      · exact hR

/-! ### the honest prover -/

/-- The honest prover's program does not depend on the verifier's secret. -/
theorem branchProver_at (me : MixEnv F) (v : BView F) (d d' : F) (t : SessTree) :
    branchProver (me.at v d) t = branchProver (me.at v d') t := by
  have h3 : ∀ s, f2kDelS (me.at v d) s = f2kDelS (me.at v d') s := by
    intro s
    simp only [f2kDelS, f2kCheckS, prdtCheckS, MixEnv.at, BEnv.mac, BView.env, keyOf_sel, rcotS, NetEnv.enc2]
  have h4 : ∀ s, bfinS (me.at v d).ne s = bfinS (me.at v d').ne s := by
    intro s
    simp only [bfinS, andCheckS_at me v d d', polyCheckS_at me v d d']
    rfl
  have hB : ∀ {β : Type} (t : Branch BOp β) (s : PrvSt F), btreeS (me.at v d).ne s t = btreeS (me.at v d').ne s t := by
    intro β t
    induction t with
    | fin a => intro s; rfl
    | undef => intro s; rfl
    | ops l k ih => intro s; simp only [btreeS, bopsS_at me v d d', ih]
  have hM : ∀ {β : Type} (t : Branch MOp β) (s : MPrv F), mtreeS (me.at v d) s t = mtreeS (me.at v d') s t := by
    intro β t
    induction t with
    | fin a => intro s; rfl
    | undef => intro s; rfl
    | ops l k ih => intro s; simp only [mtreeS, mopsS_at me v d d', ih]
  simp only [branchProver, branchS, hB, hM, h3, h4]
  rfl

end
end EmpZk
