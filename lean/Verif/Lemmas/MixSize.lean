/-
How large the batches of a mixed session get and where their challenges come from; the honest prover does not depend on `Delta`.
-/
import Verif.Lemmas.MixAll

namespace EmpZk

section
variable {F : Type} [Field F] [BlockField F]
variable {ne : NetEnv F} {me : MixEnv F} {v : BView F}

/-! ### sizes of batches -/

/-- The batches of the boolean part are not empty and not larger than the buffers; their challenges are those of the session. -/
structure BCap (ne : NetEnv F) (v : BView F) (b : ComSt F) : Prop where
  gates : b.gates.length ≤ v.checkSz
  polys : b.polys.length ≤ v.polySz
  ands : ∀ r ∈ b.andLog, 0 < r.gates.length ∧ r.gates.length ≤ v.checkSz ∧ ∃ d, r.seeds = ne.seeds d
  stmts : ∀ r ∈ b.polyLog, 0 < r.polys.length ∧ r.polys.length ≤ v.polySz ∧ ∃ k, r.seed = v.polySeed k

theorem andCheck_cap {c : ComSt F} (h : BCap ne v c) (hg : c.gates ≠ []) : (andCheckC ne v c).All (fun r => BCap ne v r ∧ r.gates = []) := by
  intro _ dg
  refine (RProg.All.calls _).bind (fun _ _ => ?_)
  intro _ bs _ _
  refine ⟨⟨Nat.zero_le _, h.polys, ?_, h.stmts⟩, rfl⟩
  intro r hr
  rcases List.mem_append.1 hr with hr | hr
  · exact h.ands r hr
  · rw [List.mem_singleton] at hr
    subst hr
    exact ⟨List.length_pos_iff.2 hg, h.gates, dg, rfl⟩

theorem polyCheck_cap {c : ComSt F} (h : BCap ne v c) (hg : c.polys ≠ []) : (polyCheckC ne v c).All (fun r => BCap ne v r ∧ r.polys = []) := by
  intro _ _
  refine (RProg.All.calls _).bind (fun _ _ => ?_)
  intro _ bs
  refine ⟨⟨h.gates, Nat.zero_le _, h.ands, ?_⟩, rfl⟩
  intro r hr
  rcases List.mem_append.1 hr with hr | hr
  · exact h.stmts r hr
  · rw [List.mem_singleton] at hr
    subst hr
    exact ⟨List.length_pos_iff.2 hg, h.polys, _, rfl⟩

theorem comStep_cap {c c' : ComSt F} (h : BCap ne v c) {m : BMsg F} {o : BOp} (ho : (∀ i j, o ≠ .and i j) ∧ ∀ p, o ≠ .poly p)
    (hs : comStep v c m o = some c') : BCap ne v c' := by
  obtain ⟨h1, h2, h3, h4⟩ := h
  cases o with
  | input b => simp only [comStep, Option.some.injEq] at hs; subst hs; exact ⟨h1, h2, h3, h4⟩
  | pub b => simp only [comStep, Option.some.injEq] at hs; subst hs; exact ⟨h1, h2, h3, h4⟩
  | xor i j =>
    simp only [comStep, Option.bind_eq_bind, Option.bind_eq_some_iff, Option.some.injEq] at hs
    obtain ⟨_, _, _, _, rfl⟩ := hs; exact ⟨h1, h2, h3, h4⟩
  | not i =>
    simp only [comStep, Option.bind_eq_bind, Option.bind_eq_some_iff, Option.some.injEq] at hs
    obtain ⟨_, _, rfl⟩ := hs; exact ⟨h1, h2, h3, h4⟩
  | reveal i =>
    simp only [comStep, Option.bind_eq_bind, Option.bind_eq_some_iff, Option.some.injEq] at hs
    obtain ⟨_, _, rfl⟩ := hs; exact ⟨h1, h2, h3, h4⟩
  | and i j => exact absurd rfl (ho.1 i j)
  | poly p => exact absurd rfl (ho.2 p)

theorem bop_cap (hc : 0 < v.checkSz) {c : ComSt F} (h : BCap ne v c) (o : BOp) : (bopC ne v c o).All (BCap ne v) := by
  cases o with
  | input b => exact (RProg.All.calls _).bind (fun _ _ _ _ => RProg.All.ofOpt (fun c' h' => comStep_cap h (by simp) h'))
  | pub b => exact RProg.All.ofOpt (fun c' h' => comStep_cap h (m := ⟨false, 0, 0⟩) (o := .pub b) (by simp) h')
  | xor i j => exact RProg.All.ofOpt (fun c' h' => comStep_cap h (m := ⟨false, 0, 0⟩) (o := .xor i j) (by simp) h')
  | not i => exact RProg.All.ofOpt (fun c' h' => comStep_cap h (m := ⟨false, 0, 0⟩) (o := .not i) (by simp) h')
  | reveal i => exact fun _ _ => RProg.All.ofOpt (fun c' h' => comStep_cap h (by simp) h')
  | and i j =>
    refine RProg.All.optBind (fun a ha => RProg.All.optBind (fun b hb => RProg.All.bind (Q := BCap ne v) ?_ (fun s hs =>
      (RProg.All.calls _).bind (fun _ _ d _ => RProg.All.ofOpt (fun c' h => ?_)))))
    · unfold andRoomC
      split
      · rename_i hl
        exact (andCheck_cap h (fun e => by rw [e] at hl; simp at hl; omega)).mono (fun _ h => h.1)
      · exact h
    · unfold comAndPush at h
      split at h
      · rename_i hl
        simp only [Option.some.injEq] at h
        subst h
        exact ⟨by simp; omega, hs.polys, hs.ands, hs.stmts⟩
      · simp at h
  | poly p =>
    refine RProg.All.optBind (fun q hq => RProg.All.bind (Q := BCap ne v) ?_ (fun s hs => RProg.All.ofOpt (fun c' h => ?_)))
    · unfold polyRoomC
      split
      · rename_i hl
        exact (polyCheck_cap h hl.2).mono (fun _ h => h.1)
      · exact h
    · unfold comPolyPush at h
      split at h
      · rename_i hl
        simp only [Option.some.injEq] at h
        subst h
        exact ⟨hs.gates, by simp; omega, hs.ands, hs.stmts⟩
      · simp at h

theorem bops_cap (hc : 0 < v.checkSz) (os : List BOp) : ∀ {c : ComSt F}, BCap ne v c → (bopsC ne v c os).All (BCap ne v) := by
  induction os with
  | nil => intro c h; exact h
  | cons o os ih => intro c h; exact (bop_cap hc h o).bind (fun _ h1 => ih h1)

theorem bfin_cap {c : ComSt F} (h : BCap ne v c) : (bfinC ne v c).All (fun r => BCap ne v r.1) := by
  unfold bfinC
  refine RProg.All.bind (Q := BCap ne v) ?_ (fun s1 h1 => RProg.All.bind (Q := BCap ne v) ?_ (fun s2 h2 _ bs => h2))
  · split
    · rename_i hl; exact (polyCheck_cap h hl).mono (fun _ h => h.1)
    · exact h
  · split
    · rename_i hl; exact (andCheck_cap h1 hl).mono (fun _ h => h.1)
    · exact h1

/-- The batches of a mixed session are not empty and not larger than the buffers; their challenges are made from the transcript. -/
structure MCap (me : MixEnv F) (v : BView F) (C : MCom F) : Prop where
  b : BCap me.ne v C.b
  buf : C.buf.left.length ≤ me.sz
  polys : C.polys.length ≤ me.cap
  muls : ∀ r ∈ C.muls, 0 < r.gates.length ∧ r.gates.length ≤ me.sz ∧ ∃ d, r.seeds = me.ne.seeds d
  prds : ∀ r ∈ C.prds, 0 < r.gates.length ∧ r.gates.length ≤ me.cap ∧ ∃ d, r.seed = me.blk d

theorem mapM_sizes {α β : Type} {f : α → Option β} : ∀ {l : List α} {r : List β}, l.mapM f = some r → r.length = l.length := by
  intro l
  induction l with
  | nil => intro r h; simp at h; subst h; rfl
  | cons a l ih =>
    intro r h
    simp only [List.mapM_cons, Option.bind_eq_bind, Option.bind_eq_some_iff, Option.pure_def, Option.some.injEq] at h
    obtain ⟨_, _, r', h2, rfl⟩ := h
    simp [ih h2]

theorem f2kCheck_cap {C : MCom F} (h : MCap me v C) (hl : C.buf.left ≠ []) : (f2kCheckC me C).All (MCap me v) := by
  intro _ _ _ dg
  refine RProg.All.optBind (fun bt hbt => (RProg.All.calls _).bind (fun _ _ => ?_))
  intro _ bs _ _
  refine ⟨⟨h.b.gates, h.b.polys, h.b.ands, h.b.stmts⟩, Nat.zero_le _, h.polys, ?_, h.prds⟩
  intro r hr
  rcases List.mem_append.1 hr with hr | hr
  · exact h.muls r hr
  · rw [List.mem_singleton] at hr
    subst hr
    have : bt.length = C.buf.left.length := by
      unfold F2kBuf.batch at hbt
      split at hbt
      · simp at hbt
      · rw [mapM_sizes hbt, List.length_range]
    refine ⟨?_, ?_, dg, rfl⟩
    · show 0 < bt.length
      rw [this]; exact List.length_pos_iff.2 hl
    · show bt.length ≤ me.sz
      rw [this]; exact h.buf

theorem prdtCheck_cap {C : MCom F} (h : MCap me v C) (hl : C.polys ≠ []) : (prdtCheckC me C).All (fun R => MCap me v R ∧ R.polys = []) := by
  intro _ _ _ dg _ bs
  refine ⟨⟨h.b, h.buf, Nat.zero_le _, h.muls, ?_⟩, rfl⟩
  intro r hr
  rcases List.mem_append.1 hr with hr | hr
  · exact h.prds r hr
  · rw [List.mem_singleton] at hr
    subst hr
    exact ⟨List.length_pos_iff.2 hl, h.polys, dg, rfl⟩

theorem MCap.push {C : MCom F} (h : MCap me v C) (x : F × F) : MCap me v { C with fw := C.fw ++ [x] } := ⟨h.b, h.buf, h.polys, h.muls, h.prds⟩

theorem mop_cap (hc : 0 < v.checkSz) (hsz : 0 < me.sz) (hcap : 0 < me.cap) {C : MCom F} (h : MCap me v C) (o : MOp) :
    (mopC me v C o).All (MCap me v) := by
  cases o with
  | bool o => exact (bop_cap hc h.b o).bind (fun b hb => ⟨hb, h.buf, h.polys, h.muls, h.prds⟩)
  | pack ws => exact RProg.All.optBind (fun ls hls => RProg.All.optBind (fun m hm => h.push _))
  | chal => exact fun _ _ => ⟨h.b, h.buf, h.polys, h.muls, h.prds⟩
  | addc i k => exact RProg.All.optBind (fun x hx => RProg.All.optBind (fun r hr => h.push _))
  | mul i j =>
    refine RProg.All.optBind (fun a ha => RProg.All.optBind (fun b hb => RProg.All.bind (Q := MCap me v) ?_ (fun s1 h1 =>
      RProg.All.bind (Q := MCap me v) ?_ (fun s2 h2 _ bs => RProg.All.optBind (fun au hau => ?_)))))
    · unfold f2kRoomC
      split
      · rename_i hl
        exact f2kCheck_cap h (fun e => by rw [e] at hl; simp at hl; omega)
      · exact h
    · unfold f2kFillC
      split
      · exact (RProg.All.calls _).bind (fun _ _ => ⟨⟨h1.b.gates, h1.b.polys, h1.b.ands, h1.b.stmts⟩, h1.buf, h1.polys, h1.muls, h1.prds⟩)
      · exact h1
    · split at hau
      · rename_i hl
        refine ⟨h2.b, ?_, h2.polys, h2.muls, h2.prds⟩
        show (s2.buf.left ++ [a]).length ≤ me.sz
        simp; omega
      · simp at hau
  | mulN is =>
    refine RProg.All.optBind (fun xs hx => (bops_cap hc _ h.b).bind (fun b1 hb1 => RProg.All.optBind (fun m hm => ?_)))
    refine RProg.All.bind (Q := fun R => MCap me v R ∧ R.polys.length < me.cap) ?_ (fun R hR => ?_)
    · have h' : MCap me v { C with b := { b1 with wires := C.b.wires } } :=
        ⟨⟨hb1.gates, hb1.polys, hb1.ands, hb1.stmts⟩, h.buf, h.polys, h.muls, h.prds⟩
      unfold prdtRoomC
      split
      · rename_i hl
        exact (prdtCheck_cap h' hl.2).mono (fun R hR => ⟨hR.1, by rw [hR.2]; exact hcap⟩)
      · rename_i hl
        refine ⟨h', ?_⟩
        by_contra hge
        refine hl ⟨by omega, fun e => ?_⟩
        have e' : C.polys = [] := e
        rw [show ({ C with b := { b1 with wires := C.b.wires } } : MCom F).polys = [] from e'] at hge
        exact hge hcap
    · obtain ⟨h3, h4⟩ := hR
      refine ⟨h3.b, h3.buf, ?_, h3.muls, h3.prds⟩
      show (R.polys ++ [_]).length ≤ me.cap
      rw [List.length_append, List.length_singleton]
      exact h4
  | eq i j => exact RProg.All.optBind (fun a ha => RProg.All.optBind (fun b hb _ bs => ⟨h.b, h.buf, h.polys, h.muls, h.prds⟩))
  | sync => exact fun _ _ => h
  | packAt ps => exact RProg.All.optBind (fun m hm => RProg.All.optBind (fun x hx => h.push _))
  | chals n => exact fun _ _ => ⟨h.b, h.buf, h.polys, h.muls, h.prds⟩
  | lin l => exact RProg.All.optBind (fun x hx => RProg.All.optBind (fun m hm => h.push _))

theorem mops_cap (hc : 0 < v.checkSz) (hsz : 0 < me.sz) (hcap : 0 < me.cap) (os : List MOp) : ∀ {C : MCom F}, MCap me v C →
    (mopsC me v C os).All (MCap me v) := by
  induction os with
  | nil => intro C h; exact h
  | cons o os ih => intro C h; exact (mop_cap hc hsz hcap h o).bind (fun _ h1 => ih h1)

theorem mixC_cap (hc : 0 < v.checkSz) (hsz : 0 < me.sz) (hcap : 0 < me.cap) (pre : List BOp) (ops : List MOp) (post : List BOp) :
    (mixCommit me v pre ops post).All (fun r => MCap me v r.1) := by
  unfold mixCommit mixC
  refine RProg.All.bind (Q := fun r => MCap me v r.1) ?_ (by intro r hr _ _; exact hr)
  have h0 : BCap me.ne v ComSt.init := ⟨Nat.zero_le _, Nat.zero_le _, fun r hr => by simp [ComSt.init] at hr, fun r hr => by simp [ComSt.init] at hr⟩
  refine (RProg.All.calls _).bind (fun _ _ => (bops_cap hc pre h0).bind (fun b hb => ?_))
  refine RProg.All.bind (Q := MCap me v) ?_ (fun C hC => (mops_cap hc hsz hcap ops hC).bind (fun C1 h1 => RProg.All.bind (Q := MCap me v) ?_ (fun C2 h2 =>
    (bops_cap hc post h2.b).bind (fun b3 h3 => (bfin_cap h3).bind (fun r h4 => ⟨h4, h2.buf, h2.polys, h2.muls, h2.prds⟩)))))
  · exact (RProg.All.calls _).bind (fun _ _ => ⟨⟨hb.gates, hb.polys, hb.ands, hb.stmts⟩, Nat.zero_le _, Nat.zero_le _,
      fun r hr => by simp at hr, fun r hr => by simp at hr⟩)
  · unfold f2kDelC
    refine RProg.All.bind (Q := MCap me v) ?_ (fun R hR => ?_)
    · split
      · rename_i hl; exact (prdtCheck_cap h1 hl).mono (fun _ h => h.1)
      · exact h1
    · split
      · rename_i hl; exact f2kCheck_cap hR hl
      · exact hR

/-! ### the honest prover -/

theorem keyOf_sel (d m : F) : keyOf d m + sel (lsb m) d = m :=
  BView.env_mac ⟨fun _ => m, 0, 0, 0, 0, 0, fun _ _ _ => 0, fun _ => 0, fun _ => 0⟩ d 0

variable (me v) (d d' : F)

theorem andCheckS_at (s : PrvSt F) : andCheckS (me.at v d).ne s = andCheckS (me.at v d').ne s := by
  simp only [andCheckS, MixEnv.at, prvAndCheck, NetEnv.env, BEnv.mac, BView.env, keyOf_sel, rcotS, NetEnv.enc2]

theorem polyCheckS_at (s : PrvSt F) : polyCheckS (me.at v d).ne s = polyCheckS (me.at v d').ne s := by
  simp only [polyCheckS, MixEnv.at, prvPolyCheck, NetEnv.env, BEnv.mac, BView.env, keyOf_sel, rcotS, NetEnv.enc2]

theorem bopS_at (s : PrvSt F) (o : BOp) : bopS (me.at v d).ne s o = bopS (me.at v d').ne s o := by
  have h1 := andCheckS_at me v d d'
  have h2 := polyCheckS_at me v d d'
  cases o <;> simp only [bopS, andRoomS, polyRoomS, h1, h2] <;>
    simp only [MixEnv.at, prvStep, prvAndPush, prvPolyPush, BEnv.mac, BView.env, keyOf_sel, rcotS] <;> rfl

theorem bopsS_at (os : List BOp) : ∀ s : PrvSt F, bopsS (me.at v d).ne s os = bopsS (me.at v d').ne s os := by
  induction os with
  | nil => intro s; rfl
  | cons o os ih => intro s; simp only [bopsS, bopS_at me v d d', ih]

theorem mopS_at (s : MPrv F) (o : MOp) : mopS (me.at v d) s o = mopS (me.at v d') s o := by
  have h := bopsS_at me v d d'
  cases o with
  | bool o => simp only [mopS, bopS_at me v d d']
  | mulN is =>
    simp only [mopS, f2kMulNS, h]
    rfl
  | mul i j =>
    simp only [mopS, f2kMulS, f2kRoomS, f2kCheckS, f2kFillS, MixEnv.at, BEnv.mac, BView.env, keyOf_sel, rcotS, NetEnv.enc2]
    rfl
  | _ => rfl

theorem mopsS_at (os : List MOp) : ∀ s : MPrv F, mopsS (me.at v d) s os = mopsS (me.at v d') s os := by
  induction os with
  | nil => intro s; rfl
  | cons o os ih => intro s; simp only [mopsS, mopS_at me v d d', ih]

/-- The honest prover's program does not depend on the verifier's secret. -/
theorem mixProver_at (pre : List BOp) (ops : List MOp) (post : List BOp) :
    mixProver (me.at v d) pre ops post = mixProver (me.at v d') pre ops post := by
  have h3 : ∀ s, f2kDelS (me.at v d) s = f2kDelS (me.at v d') s := by
    intro s
    simp only [f2kDelS, f2kCheckS, prdtCheckS, MixEnv.at, BEnv.mac, BView.env, keyOf_sel, rcotS, NetEnv.enc2]
  have h4 : ∀ s, bfinS (me.at v d).ne s = bfinS (me.at v d').ne s := by
    intro s
    simp only [bfinS, andCheckS_at me v d d', polyCheckS_at me v d d']
    rfl
  simp only [mixProver, mixS, bopsS_at me v d d', mopsS_at me v d d', h3, h4]
  rfl

end
end EmpZk
