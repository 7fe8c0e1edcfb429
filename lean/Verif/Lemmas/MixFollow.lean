/-
The verifier of a mixed session works on the keys of the committed blocks.
-/
import Verif.Lemmas.Follow
import Verif.Lemmas.MixNet
import Verif.Spec.MixCommit

namespace EmpZk

section
variable {F : Type} [Field F] [BlockField F] [DecidableEq F]

/-- The verifier's boolean state is the image of a committed state, and its record is right. -/
def BFol (v : BView F) (d : F) (V : VerSt F) (c : ComSt F) : Prop := ∃ ch, V = verImg d c ch ∧ CheatInv (v.env d) V

variable {me : MixEnv F} {ne : NetEnv F} {v : BView F} {d : F}

omit [DecidableEq F] in
theorem rcotR_follows (e : BEnv F) (used k : Nat) :
    Follows (fun (_ _ : Unit) => True) (rcotR { ne with e := e } used k) (rcotR ne used k) := Follows.calls _

theorem andCheck_follows {V : VerSt F} {c : ComSt F} (h : BFol v d V c) :
    Follows (BFol v d) (andCheckR { ne with e := v.env d } V) (andCheckC ne v c) := by
  obtain ⟨ch, rfl, hi⟩ := h
  refine .call (fun _ dg => (rcotR_follows _ _ _).bind (fun _ _ _ => .call (fun _ bs => ?_)))
  obtain ⟨ch', hv⟩ := verAndCheck_img { v with chal := fun _ _ => ne.seeds dg, polySeed := fun _ => 0 } d c ch (ne.dec2 bs)
  have e1 : verAndCheck (({ ne with e := v.env d } : NetEnv F).env dg 0) (verImg d c ch) (({ ne with e := v.env d } : NetEnv F).dec2 bs) = _ := hv
  rw [e1]
  split
  · rename_i hs
    refine .call (fun _ _ => .done ⟨ch', rfl, ?_⟩)
    have hi' : CheatInv (({ v with chal := fun _ _ => ne.seeds dg, polySeed := fun _ => 0 } : BView F).env d) (verImg d c ch) := hi
    rw [if_pos hs] at hv
    exact hi'.andCheck hv
  · exact .fail

theorem polyCheck_follows {V : VerSt F} {c : ComSt F} (h : BFol v d V c) :
    Follows (BFol v d) (polyCheckR { ne with e := v.env d } V) (polyCheckC ne v c) := by
  obtain ⟨ch, rfl, hi⟩ := h
  refine .call (fun _ _ => (rcotR_follows _ _ _).bind (fun _ _ _ => .call (fun _ bs => ?_)))
  obtain ⟨ch', hv⟩ := verPolyCheck_img { v with chal := fun _ _ => ne.seeds [], polySeed := fun _ => v.polySeed c.polyBatches } d c ch (ne.dec2 bs)
  refine .done ⟨ch', hv, ?_⟩
  have hi' : CheatInv (({ v with chal := fun _ _ => ne.seeds [], polySeed := fun _ => v.polySeed c.polyBatches } : BView F).env d) (verImg d c ch) := hi
  exact hi'.polyCheck (ne.dec2 bs)

theorem andRoom_follows {V : VerSt F} {c : ComSt F} (h : BFol v d V c) :
    Follows (BFol v d) (andRoomR { ne with e := v.env d } V) (andRoomC ne v c) := by
  have hl : V.gates.length = c.gates.length := by obtain ⟨ch, rfl, hi⟩ := h; simp [verImg]
  unfold andRoomR andRoomC
  rw [hl]
  show Follows _ (if c.gates.length = v.checkSz then _ else _) _
  split
  · exact andCheck_follows h
  · exact .done h

theorem polyRoom_follows {V : VerSt F} {c : ComSt F} (h : BFol v d V c) :
    Follows (BFol v d) (polyRoomR { ne with e := v.env d } V) (polyRoomC ne v c) := by
  have hl : (V.polys.length ≥ v.polySz ∧ V.polys ≠ []) ↔ (c.polys.length ≥ v.polySz ∧ c.polys ≠ []) := by
    obtain ⟨ch, rfl, hi⟩ := h; simp [verImg]
  unfold polyRoomR polyRoomC
  show Follows _ (if V.polys.length ≥ v.polySz ∧ V.polys ≠ [] then _ else _) _
  by_cases hc : c.polys.length ≥ v.polySz ∧ c.polys ≠ []
  · rw [if_pos hc, if_pos (hl.2 hc)]; exact polyCheck_follows h
  · rw [if_neg hc, if_neg (fun h' => hc (hl.1 h'))]; exact .done h

theorem step_follows (hd : lsb d = true) {V : VerSt F} {c : ComSt F} (h : BFol v d V c) (m : BMsg F) (o : BOp) :
    Follows (BFol v d) (RProg.ofOpt (verStep (v.env d) V m o)) (RProg.ofOpt (comStep v c m o)) := by
  obtain ⟨ch, rfl, hi⟩ := h
  refine .ofOpt (fun a ha => ?_)
  obtain ⟨ch', hv⟩ := verStep_img v hd c ch m o
  have := ha
  rw [hv, Option.map_eq_some_iff] at this
  obtain ⟨c', h1, rfl⟩ := this
  exact ⟨c', h1, ch', rfl, hi.step ha⟩

theorem bop_follows (hd : lsb d = true) {V : VerSt F} {c : ComSt F} (h : BFol v d V c) (o : BOp) :
    Follows (BFol v d) (bopR { ne with e := v.env d } V o) (bopC ne v c o) := by
  have hu : V.used = c.used := by obtain ⟨ch, rfl, hi⟩ := h; rfl
  have hw : V.wires = c.wires.map (keyOf d) := by obtain ⟨ch, rfl, hi⟩ := h; rfl
  cases o with
  | input b =>
    unfold bopR bopC
    rw [hu]
    exact (rcotR_follows _ _ _).bind (fun _ _ _ => .call (fun x _ => step_follows hd h ⟨x, 0, 0⟩ (.input b)))
  | pub b => exact step_follows hd h ⟨false, 0, 0⟩ (.pub b)
  | xor i j => exact step_follows hd h ⟨false, 0, 0⟩ (.xor i j)
  | not i => exact step_follows hd h ⟨false, 0, 0⟩ (.not i)
  | reveal i => exact .call (fun x _ => step_follows hd h ⟨x, 0, 0⟩ (.reveal i))
  | and i j =>
    unfold bopR bopC
    rw [hw]
    simp only [List.getElem?_map]
    refine Follows.bind (R := fun a b => a = keyOf d b) (.ofOpt ?_) (fun a a' ha => Follows.bind (R := fun a b => a = keyOf d b) (.ofOpt ?_)
      (fun b b' hb => (andRoom_follows h).bind (fun V1 c1 h1 => ?_)))
    · intro x hx; rw [Option.map_eq_some_iff] at hx; obtain ⟨y, hy, rfl⟩ := hx; exact ⟨y, hy, rfl⟩
    · intro x hx; rw [Option.map_eq_some_iff] at hx; obtain ⟨y, hy, rfl⟩ := hx; exact ⟨y, hy, rfl⟩
    obtain ⟨ch, rfl, hi⟩ := h1
    refine (rcotR_follows _ _ _).bind (fun _ _ _ => .call (fun x _ => .ofOpt (fun V2 hV2 => ?_)))
    subst ha; subst hb
    have hV2' : verAndPush (v.env d) (verImg d c1 ch) (keyOf d a') (keyOf d b') x = some V2 := hV2
    rw [verAndPush_img v hd c1 ch a' b' x, Option.map_eq_some_iff] at hV2'
    obtain ⟨c2, k1, rfl⟩ := hV2'
    refine ⟨c2, k1, ch, rfl, ?_⟩
    unfold comAndPush at k1
    split at k1
    · simp only [Option.some.injEq] at k1
      subst k1
      exact hi.congr rfl rfl rfl
    · simp at k1
  | poly p =>
    unfold bopR bopC
    simp only []
    rw [hw, lookup_map]
    refine Follows.bind (R := fun a b => a = PolyStmt.map (keyOf d) b) (.ofOpt ?_) (fun a a' ha => (polyRoom_follows h).bind (fun V1 c1 h1 => ?_))
    · intro x hx; rw [Option.map_eq_some_iff] at hx; obtain ⟨y, hy, rfl⟩ := hx; exact ⟨y, hy, rfl⟩
    obtain ⟨ch, rfl, hi⟩ := h1
    subst ha
    refine .ofOpt (fun V2 hV2 => ?_)
    have hV2' : verPolyPush (v.env d) (verImg d c1 ch) (a'.map (keyOf d)) = some V2 := hV2
    rw [verPolyPush_img v d c1 ch a', Option.map_eq_some_iff] at hV2'
    obtain ⟨c2, k1, rfl⟩ := hV2'
    refine ⟨c2, k1, ch, rfl, ?_⟩
    unfold comPolyPush at k1
    split at k1
    · simp only [Option.some.injEq] at k1
      subst k1
      exact hi.congr rfl rfl rfl
    · simp at k1

theorem bops_follows (hd : lsb d = true) (ops : List BOp) : ∀ {V : VerSt F} {c : ComSt F}, BFol v d V c →
    Follows (BFol v d) (bopsR { ne with e := v.env d } V ops) (bopsC ne v c ops) := by
  induction ops with
  | nil => intro V c h; exact .done h
  | cons o os ih => intro V c h; exact (bop_follows hd h o).bind (fun _ _ h' => ih h')

/-- At the end: the record is empty exactly if all checks passed and the digest is the hash of the opened blocks. -/
def BEnd (v : BView F) (d : F) (V : VerSt F) (r : ComSt F × F) : Prop :=
  ∃ ch, V = verImg d r.1 ch ∧ (V.cheats = [] → (∀ x ∈ V.andLog, AndOK (v.env d) x) ∧ (∀ x ∈ V.polyLog, PolyOK (v.env d) x) ∧ r.2 = v.hash V.digest)

theorem bfin_follows {V : VerSt F} {c : ComSt F} (h : BFol v d V c) :
    Follows (BEnd v d) (bfinR { ne with e := v.env d } V) (bfinC ne v c) := by
  have h1 : Follows (BFol v d) (if V.polys ≠ [] then polyCheckR { ne with e := v.env d } V else RProg.done V)
      (if c.polys ≠ [] then polyCheckC ne v c else RProg.done c) := by
    have hp : V.polys ≠ [] ↔ c.polys ≠ [] := by obtain ⟨ch, rfl, hi⟩ := h; simp [verImg]
    by_cases hc : c.polys ≠ []
    · rw [if_pos hc, if_pos (hp.2 hc)]; exact polyCheck_follows h
    · rw [if_neg hc, if_neg (fun h' => hc (hp.1 h'))]; exact .done h
  refine h1.bind (fun V1 c1 h1 => ?_)
  have h2 : Follows (BFol v d) (if V1.gates ≠ [] then andCheckR { ne with e := v.env d } V1 else RProg.done V1)
      (if c1.gates ≠ [] then andCheckC ne v c1 else RProg.done c1) := by
    have hp : V1.gates ≠ [] ↔ c1.gates ≠ [] := by obtain ⟨ch, rfl, hi⟩ := h1; simp [verImg]
    by_cases hc : c1.gates ≠ []
    · rw [if_pos hc, if_pos (hp.2 hc)]; exact andCheck_follows h1
    · rw [if_neg hc, if_neg (fun h' => hc (hp.1 h'))]; exact .done h1
  refine h2.bind (fun V2 c2 h2 => .call (fun _ bs => .done ?_))
  obtain ⟨ch, rfl, hi⟩ := h2
  show BEnd v d (verFinHash (v.env d) (verImg d c2 ch) (ne.decD bs)) (c2, ne.decD bs)
  unfold verFinHash
  split
  · rename_i he
    exact ⟨ch, rfl, fun hc => ⟨(hi.1 hc).1, (hi.1 hc).2, he⟩⟩
  · exact ⟨_, rfl, fun hc => by simp at hc⟩

/-! ### products over F_{2^128} -/

omit [BlockField F] [Field F] [DecidableEq F] in
theorem pick_map_eq {α β : Type} (f : α → β) (l : List α) (g : List Nat) : pick (l.map f) g = (pick l g).map (List.map f) := by
  induction g with
  | nil => rfl
  | cons i g ih =>
    rw [pick_cons, pick_cons, ih, List.getElem?_map]
    cases l[i]? with
    | none => rfl
    | some a => cases pick l g <;> rfl

omit [DecidableEq F] in
theorem pieces_isSome (f : F → F) (W : List F) (ps : List (Nat × List Nat)) : ∀ {k : F}, packPieces (W.map f) ps = some k →
    ∃ x : F, piecesVal (W.map lsb) ps = some x := by
  induction ps with
  | nil => intro k _; exact ⟨0, rfl⟩
  | cons p ps ih =>
    intro k h
    obtain ⟨off, ws⟩ := p
    simp only [packPieces, Option.bind_eq_bind, Option.bind_eq_some_iff, pick_map_eq, Option.map_eq_some_iff] at h
    obtain ⟨_, ⟨ls, hls, rfl⟩, m, hm, r, hr, _⟩ := h
    obtain ⟨x, hx⟩ := ih hr
    simp only [innBase] at hm
    split at hm
    · rename_i hc
      refine ⟨gX ^ off * packList (ls.map lsb) + x, ?_⟩
      have hl := pick_length hls
      simp only [List.length_map] at hc
      simp only [piecesVal, pick_map_eq, hls, hx, Option.map_some, Option.bind_eq_bind, Option.bind_some]
      rw [if_pos (by omega)]
    · cases hm

omit [DecidableEq F] in
theorem pieces_key (delta : F) (W : List F) (ps : List (Nat × List Nat)) {k : F} (h : packPieces (W.map (keyOf delta)) ps = some k) :
    ∃ m x, packPieces W ps = some m ∧ piecesVal (W.map lsb) ps = some x ∧ k = keyF delta (x, m) := by
  obtain ⟨x, hx⟩ := pieces_isSome _ _ _ h
  obtain ⟨m, h1, _, h3⟩ := pieces_spec delta W ps hx
  rw [h, Option.some.injEq] at h3
  exact ⟨m, x, h1, hx, h3⟩

omit [BlockField F] [DecidableEq F] in
theorem linComb_isSome {α : Type} (f g : α → F) (rs : List F) (fw : List α) (l : List (Nat × Nat)) : ∀ {k : F},
    linComb rs (fw.map f) l = some k → ∃ x, linComb rs (fw.map g) l = some x := by
  induction l with
  | nil => intro k _; exact ⟨0, rfl⟩
  | cons p l ih =>
    intro k h
    obtain ⟨a, i⟩ := p
    simp only [linComb, Option.bind_eq_bind, Option.bind_eq_some_iff, List.getElem?_map, Option.map_eq_some_iff] at h
    obtain ⟨r, hr, _, ⟨y, hy, rfl⟩, q, hq, _⟩ := h
    obtain ⟨x, hx⟩ := ih hq
    exact ⟨r * g y + x, by simp [linComb, hr, hy, hx]⟩

omit [BlockField F] [DecidableEq F] in
theorem linComb_key (delta : F) (rs : List F) (fw : List (F × F)) (l : List (Nat × Nat)) {k : F}
    (h : linComb rs (fw.map (keyF delta)) l = some k) :
    ∃ x m, linComb rs (fw.map Prod.fst) l = some x ∧ linComb rs (fw.map Prod.snd) l = some m ∧ k = keyF delta (x, m) := by
  obtain ⟨x, hx⟩ := linComb_isSome (keyF delta) Prod.fst rs fw l h
  obtain ⟨m, h1, h2⟩ := linComb_spec delta rs fw l hx
  rw [h, Option.some.injEq] at h2
  exact ⟨x, m, hx, h1, h2⟩

omit [DecidableEq F] in
theorem mulLabel_eq (xs : List F) : mulLabel xs = if 129 ≤ xs.length then some (innFrom 0 (xs.take 64 ++ (xs.drop 65).take 64)) else none := by
  rw [innFrom_append]
  simp only [mulLabel, innBase]
  by_cases h : 129 ≤ xs.length
  · rw [if_pos ⟨by omega, by omega⟩, if_pos ⟨by simp; omega, by omega⟩, if_pos h]
    simp [show min 64 xs.length = 64 by omega]
  · rw [if_neg h]
    by_cases h1 : 64 ≤ xs.length
    · rw [if_pos ⟨h1, by omega⟩, if_neg (by simp; omega)]; rfl
    · rw [if_neg (by omega)]; rfl

omit [DecidableEq F] in
theorem mulLabel_key (delta : F) {ls : List F} {k : F} (h : mulLabel (ls.map (keyOf delta)) = some k) :
    ∃ m, mulLabel ls = some m ∧ k = keyF delta (mulCom ls m) := by
  rw [mulLabel_eq] at h ⊢
  rw [List.length_map] at h
  split at h
  · rename_i hl
    rw [if_pos hl]
    refine ⟨_, rfl, ?_⟩
    rw [Option.some.injEq] at h
    subst h
    have e2 : (ls.map (keyOf delta)).take 64 ++ ((ls.map (keyOf delta)).drop 65).take 64 =
        (ls.take 64 ++ (ls.drop 65).take 64).map (keyOf delta) := by
      simp only [List.map_append, List.map_take, List.map_drop]
    have e3 : ((ls.take 64 ++ (ls.drop 65).take 64).map (fun x => (bit (lsb x) : F))) =
        ((ls.map lsb).take 64 ++ ((ls.map lsb).drop 65).take 64).map bit := by
      have : (fun x => (bit (lsb x) : F)) = bit ∘ (lsb : F → Bool) := rfl
      rw [this, ← List.map_map]
      congr 1
      simp only [List.map_append, List.map_take, List.map_drop]
    rw [e2, innFrom_key, mulCom, keyF, packList_eq, e3]
  · cases h

omit [DecidableEq F] in
theorem mulComV (delta : F) (au : F × F) (x : F) : f2kMulVer delta (keyF delta au) x = keyF delta (au.1 + x, au.2) := by
  simp only [f2kMulVer, keyF]; ring

/-- The keys of the entries of a batch of products of three to five blocks. -/
def prdKeys (d : F) (gs : List (PGate F)) : Option (List F) := gs.mapM (fun g => polyVer d (g.keys d).1 (g.keys d).2)

/-- A batch of products of two blocks passes the check of the verifier with secret `d`. -/
def MulHolds (v : BView F) (d : F) (r : MulRec F) : Prop :=
  f2kCheckVer d (r.gates.map (keyF3 d)) v.threads r.seeds (fun i => keyOf d (v.mac (r.ope + i))) r.ans = some true

/-- The same for products of three to five blocks. -/
def PrdHolds (d : F) (r : PrdRec F) : Prop := ∃ Bs, prdKeys d r.gates = some Bs ∧ polyBatchVer d r.seed Bs r.ans = true

/-- The verifier's state is the image of a committed state, and all comparisons so far held. -/
structure MFol (me : MixEnv F) (v : BView F) (d : F) (V : MVer F) (C : MCom F) : Prop where
  b : BFol v d V.b C.b
  fw : V.fw = C.fw.map (keyF d)
  buf : V.buf = C.buf.key d
  inv : C.buf.Inv me.sz
  fills : V.fills = C.fills
  polys : prdKeys d C.polys = some V.polys
  rs : V.rs = C.rs
  muls : V.warns = 0 → ∀ r ∈ C.muls, MulHolds v d r
  prds : ∀ r ∈ C.prds, PrdHolds d r
  eqs : ∀ e ∈ C.eqs, setEqVer (keyF d e.1) (keyF d e.2.1) e.2.2.1 e.2.2.2 = true

omit [DecidableEq F] in
theorem prdKeys_length {gs : List (PGate F)} : ∀ {Bs : List F}, prdKeys d gs = some Bs → Bs.length = gs.length := by
  induction gs with
  | nil => intro Bs h; simp [prdKeys] at h; subst h; rfl
  | cons g gs ih =>
    intro Bs h
    unfold prdKeys at h
    rw [List.mapM_cons] at h
    simp only [Option.bind_eq_bind, Option.bind_eq_some_iff, Option.pure_def, Option.some.injEq] at h
    obtain ⟨a, _, r, hr, rfl⟩ := h
    simp [ih hr]

theorem bfol_used {V : VerSt F} {c : ComSt F} (h : BFol v d V c) (n : Nat) : BFol v d { V with used := n } { c with used := n } := by
  obtain ⟨ch, rfl, hi⟩ := h
  exact ⟨ch, rfl, hi.congr rfl rfl rfl⟩

theorem bfol_wires {V : VerSt F} {c : ComSt F} (h : BFol v d V c) (W : List F) : BFol v d { V with wires := W.map (keyOf d) } { c with wires := W } := by
  obtain ⟨ch, rfl, hi⟩ := h
  exact ⟨ch, rfl, hi.congr rfl rfl rfl⟩

theorem f2kCheck_follows {V : MVer F} {C : MCom F} (h : MFol me v d V C) :
    Follows (fun V' C' => V'.buf = ⟨[], [], V.buf.auth, V.buf.cnt⟩ ∧ C'.buf = ⟨[], [], C.buf.auth, C.buf.cnt⟩ ∧
      (∀ buf : F2kBuf (F × F), buf.Inv me.sz → MFol me v d { V' with buf := buf.key d } { C' with buf := buf }) ∧ V'.fills = V.fills ∧
      C'.fills = C.fills ∧ V'.polys = V.polys ∧ C'.polys = C.polys)
      (f2kCheckR (me.at v d) V) (f2kCheckC me C) := by
  have hu : V.b.used = C.b.used := by obtain ⟨ch, h1, hi⟩ := h.b; rw [h1]; rfl
  unfold f2kCheckR f2kCheckC
  refine .call (fun _ _ => .call (fun _ dg => ?_))
  rw [h.inv.batch_eq, h.buf, (h.inv.key d).batch_eq, pending_key, hu]
  simp only [RProg.ofOpt, RProg.bind]
  refine (rcotR_follows _ _ _).bind (fun _ _ _ => .call (fun _ bs => ?_))
  show Follows _ ((RProg.ofOpt (f2kCheckVer d (C.buf.pending.map (keyF3 d)) v.threads (me.ne.seeds dg)
    (fun i => keyOf d (v.mac (C.b.used + i))) (me.ne.dec2 bs))).bind _) _
  cases hc : f2kCheckVer d (C.buf.pending.map (keyF3 d)) v.threads (me.ne.seeds dg) (fun i => keyOf d (v.mac (C.b.used + i))) (me.ne.dec2 bs) with
  | none => exact .fail
  | some ok =>
    refine .call (fun _ _ => .done ⟨rfl, rfl, fun buf hb => ⟨?_, h.fw, rfl, hb, h.fills, h.polys, h.rs, ?_, h.prds, h.eqs⟩, rfl, rfl, rfl, rfl⟩)
    · rw [← hu]; exact bfol_used h.b _
    · intro hw r hr
      have hok : ok = true := by
        cases ok with
        | true => rfl
        | false => simp at hw
      subst hok
      simp only [if_true] at hw
      rcases List.mem_append.1 hr with hr | hr
      · exact h.muls hw r hr
      · rw [List.mem_singleton] at hr; subst hr; exact hc

theorem f2kMul_follows (hroom : ∀ k, me.sz ≤ (me.auth k).length) (hsz : 0 < me.sz) {V : MVer F} {C : MCom F} (h : MFol me v d V C) (a b : F × F) :
    Follows (MFol me v d) (f2kMulR (me.at v d) V (keyF d a) (keyF d b)) (f2kMulC me C a b) := by
  unfold f2kMulR f2kMulC
  have hbind : ∀ (x : RProg (MVer F)) (y : RProg (MCom F)) (f : MVer F → RProg (MVer F)) (f' : MCom F → RProg (MCom F))
      (g : MVer F → RProg (MVer F)) (g' : MCom F → RProg (MCom F)) (R : MVer F → MCom F → Prop),
      Follows R (x.bind f) (y.bind f') → (∀ a b, R a b → Follows (MFol me v d) (g a) (g' b)) →
      Follows (MFol me v d) (x.bind (fun s => (f s).bind g)) (y.bind (fun s => (f' s).bind g')) := by
    intro x y f f' g g' R h1 h2
    have := h1.bind h2
    rwa [RProg.bind_assoc, RProg.bind_assoc] at this
  refine hbind _ _ _ _ _ _ (fun V' C' => MFol me v d V' C' ∧ C'.buf.cnt < me.sz) ?_ ?_
  · unfold f2kRoomR f2kRoomC
    have hl : V.buf.left.length = C.buf.left.length := by rw [h.buf]; simp [F2kBuf.key]
    have hcn : V.buf.cnt = C.buf.cnt := by rw [h.buf]; rfl
    rw [hl]
    show Follows _ ((if C.buf.left.length = me.sz then f2kCheckR (me.at v d) V else RProg.done V).bind _) _
    obtain ⟨i1, i2, i3, i4⟩ := h.inv
    by_cases hc : C.buf.left.length = me.sz
    · rw [if_pos hc, if_pos hc]
      refine (f2kCheck_follows h).bind (fun V1 C1 h1 => ?_)
      obtain ⟨k1, k2, k3, k4, k5, _, _⟩ := h1
      unfold f2kFillR f2kFillC
      rw [if_pos (show V1.buf.cnt = (me.at v d).sz by rw [k1, hcn]; exact i1.symm.trans hc), if_pos (show C1.buf.cnt = me.sz by rw [k2]; exact i1.symm.trans hc)]
      refine Follows.bind (R := fun _ _ => True) ?_ (fun _ _ _ => .done ⟨?_, hsz⟩)
      · have e : V1.fills = C1.fills := by rw [k4, k5]; exact h.fills
        rw [e]; exact Follows.calls _
      · have e : V1.fills = C1.fills := by rw [k4, k5]; exact h.fills
        have hm := k3 ⟨[], [], me.auth C1.fills, 0⟩ ⟨rfl, rfl, Nat.zero_le _, hroom _⟩
        obtain ⟨hb, hfw, hbuf, hinv, hfi, hpo, hrs, hmu, hpr, heq⟩ := hm
        have hb' : BFol v d V1.b C1.b := hb
        refine ⟨?_, hfw, ?_, ?_, ?_, hpo, hrs, hmu, hpr, heq⟩
        · have hu : V1.b.used = C1.b.used := by obtain ⟨ch, h1, hi⟩ := hb'; rw [h1]; rfl
          have := bfol_used hb' (C1.b.used + me.svN C1.fills)
          show BFol v d { V1.b with used := V1.b.used + me.svN V1.fills } _
          rw [hu, e]; exact this
        · show F2kBuf.mk V1.buf.left V1.buf.rght _ 0 = _
          rw [k1, k2, e]
          rfl
        · show F2kBuf.Inv me.sz ⟨C1.buf.left, C1.buf.rght, _, 0⟩
          rw [k2]
          exact ⟨rfl, rfl, Nat.zero_le _, hroom _⟩
        · show V1.fills + 1 = C1.fills + 1
          rw [e]
    · rw [if_neg hc, if_neg hc]
      simp only [RProg.bind]
      unfold f2kFillR f2kFillC
      rw [if_neg (show ¬ V.buf.cnt = (me.at v d).sz by rw [hcn, ← i1]; exact hc), if_neg (by rw [← i1]; exact hc)]
      exact .done ⟨h, by omega⟩
  · rintro V1 C1 ⟨h1, hc⟩
    refine .call (fun _ bs => ?_)
    have hl : V1.buf.left.length = C1.buf.left.length := by rw [h1.buf]; simp [F2kBuf.key]
    obtain ⟨i1, i2, i3, i4⟩ := h1.inv
    rw [hl]
    show Follows _ ((RProg.ofOpt (if C1.buf.left.length < me.sz then V1.buf.auth[V1.buf.cnt]? else none)).bind _) _
    rw [if_pos (by omega), if_pos (by omega)]
    refine Follows.bind (R := fun a b => a = keyF d b) (.ofOpt ?_) ?_
    · intro x hx
      rw [h1.buf] at hx
      simp only [F2kBuf.key, List.getElem?_map, Option.map_eq_some_iff] at hx
      obtain ⟨y, hy, rfl⟩ := hx
      exact ⟨y, hy, rfl⟩
    · rintro _ au rfl
      refine .done ⟨h1.b, ?_, ?_, ?_, h1.fills, h1.polys, h1.rs, h1.muls, h1.prds, h1.eqs⟩
      · show V1.fw ++ [f2kMulVer d (keyF d au) (me.ne.dec bs)] = _
        rw [h1.fw, mulComV]; simp
      · show F2kBuf.mk (V1.buf.left ++ [keyF d a]) (V1.buf.rght ++ [keyF d b]) (V1.buf.auth.set V1.buf.cnt (f2kMulVer d (keyF d au) (me.ne.dec bs))) (V1.buf.cnt + 1) = _
        rw [h1.buf, mulComV]
        simp [F2kBuf.key, List.map_set]
      · refine ⟨by simp; omega, by simp; omega, by simpa using hc, by simpa using i4⟩

theorem prdtCheck_follows {V : MVer F} {C : MCom F} (h : MFol me v d V C) :
    Follows (fun V' C' => MFol me v d V' C' ∧ C'.polys = [] ∧ C'.b = C.b ∧ V'.b = V.b) (prdtCheckR (me.at v d) V) (prdtCheckC me C) := by
  refine .call (fun _ _ => .call (fun _ dg => .call (fun _ bs => ?_)))
  show Follows _ (if polyBatchVer d (me.blk dg) V.polys (dec5 me.ne bs) then _ else _) _
  split
  · rename_i hc
    refine .done ⟨⟨h.b, h.fw, h.buf, h.inv, h.fills, rfl, h.rs, h.muls, ?_, h.eqs⟩, rfl, rfl, rfl⟩
    intro r hr
    rcases List.mem_append.1 hr with hr | hr
    · exact h.prds r hr
    · rw [List.mem_singleton] at hr; subst hr; exact ⟨_, h.polys, hc⟩
  · exact .stop

theorem prdtRoom_follows {V : MVer F} {C : MCom F} (h : MFol me v d V C) :
    Follows (MFol me v d) (prdtRoomR (me.at v d) V) (prdtRoomC me C) := by
  have hl := prdKeys_length h.polys
  have hn : (V.polys.length ≥ me.cap ∧ V.polys ≠ []) ↔ (C.polys.length ≥ me.cap ∧ C.polys ≠ []) := by
    rw [hl, ← List.length_pos_iff, hl, List.length_pos_iff]
  unfold prdtRoomR prdtRoomC
  show Follows _ (if V.polys.length ≥ me.cap ∧ V.polys ≠ [] then _ else _) _
  by_cases hc : C.polys.length ≥ me.cap ∧ C.polys ≠ []
  · rw [if_pos hc, if_pos (hn.2 hc)]; exact (prdtCheck_follows h).mono (fun _ _ h => h.1)
  · rw [if_neg hc, if_neg (fun h' => hc (hn.1 h'))]; exact .done h

theorem f2kMulN_follows (hd : lsb d = true) {V : MVer F} {C : MCom F} (h : MFol me v d V C) (xs : List (F × F)) :
    Follows (MFol me v d) (f2kMulNR (me.at v d) V (xs.map (keyF d))) (f2kMulNC me v C xs) := by
  have hw : V.b.wires = C.b.wires.map (keyOf d) := by obtain ⟨ch, h1, hi⟩ := h.b; rw [h1]; rfl
  unfold f2kMulNR f2kMulNC
  refine (bops_follows hd _ h.b).bind (fun B1 c1 hb => ?_)
  have hw1 : B1.wires = c1.wires.map (keyOf d) := by obtain ⟨ch, h1, hi⟩ := hb; rw [h1]; rfl
  rw [hw1, hw, List.length_map, ← List.map_drop]
  cases hm : mulLabel ((c1.wires.drop C.b.wires.length).map (keyOf d)) with
  | none => exact .fail
  | some k =>
    obtain ⟨m, hm', rfl⟩ := mulLabel_key d hm
    rw [hm']
    simp only [RProg.ofOpt, RProg.bind]
    show Follows _ ((RProg.ofOpt (polyVer d (xs.map (keyF d)) (keyF d (mulCom (c1.wires.drop C.b.wires.length) m)))).bind _) _
    cases hp : polyVer d (xs.map (keyF d)) (keyF d (mulCom (c1.wires.drop C.b.wires.length) m)) with
    | none => exact .fail
    | some e =>
      simp only [RProg.ofOpt, RProg.bind]
      have h1 : MFol me v d { V with b := { B1 with wires := C.b.wires.map (keyOf d) } } { C with b := { c1 with wires := C.b.wires } } :=
        ⟨bfol_wires hb _, h.fw, h.buf, h.inv, h.fills, h.polys, h.rs, h.muls, h.prds, h.eqs⟩
      refine (prdtRoom_follows h1).bind (fun V2 C2 h2 => ?_)
      split
      · refine .done ⟨h2.b, ?_, h2.buf, h2.inv, h2.fills, ?_, h2.rs, h2.muls, h2.prds, h2.eqs⟩
        · show V2.fw ++ _ = _
          rw [h2.fw]; simp
        · show prdKeys d (C2.polys ++ [_]) = some (V2.polys ++ [e])
          have := h2.polys
          unfold prdKeys at this ⊢
          rw [List.mapM_append, this]
          simp [PGate.keys, hp]
      · exact .fail

theorem mop_follows (hd : lsb d = true) (hroom : ∀ k, me.sz ≤ (me.auth k).length) (hsz : 0 < me.sz) {V : MVer F} {C : MCom F}
    (h : MFol me v d V C) (o : MOp) : Follows (MFol me v d) (mopR (me.at v d) V o) (mopC me v C o) := by
  have hw : V.b.wires = C.b.wires.map (keyOf d) := by obtain ⟨ch, h1, hi⟩ := h.b; rw [h1]; rfl
  have hget : ∀ i : Nat, Follows (fun a b => a = keyF d b) (RProg.ofOpt V.fw[i]?) (RProg.ofOpt C.fw[i]?) := by
    intro i
    refine .ofOpt (fun x hx => ?_)
    rw [h.fw, List.getElem?_map, Option.map_eq_some_iff] at hx
    obtain ⟨y, hy, rfl⟩ := hx
    exact ⟨y, hy, rfl⟩
  have hpush : ∀ (k : F) (c : F × F), k = keyF d c → MFol me v d { V with fw := V.fw ++ [k] } { C with fw := C.fw ++ [c] } := by
    intro k c hk
    refine ⟨h.b, ?_, h.buf, h.inv, h.fills, h.polys, h.rs, h.muls, h.prds, h.eqs⟩
    rw [hk, h.fw]; simp
  cases o with
  | bool o =>
    exact (bop_follows hd h.b o).bind (fun b c hb => .done ⟨hb, h.fw, h.buf, h.inv, h.fills, h.polys, h.rs, h.muls, h.prds, h.eqs⟩)
  | pack ws =>
    unfold mopR mopC
    simp only []
    rw [hw, pick_map_eq]
    cases pick C.b.wires ws with
    | none => exact .fail
    | some ls =>
      simp only [Option.map_some, RProg.ofOpt, RProg.bind]
      by_cases hl : ls.length ≤ 128
      · obtain ⟨m, k1, k2, k3⟩ := pack_spec d hl
        rw [k1, k3]
        exact .done (hpush _ _ rfl)
      · have : innBase 0 (ls.map (keyOf d)) (ls.map (keyOf d)).length = none := by
          rw [innBase, if_neg (by simp; omega)]
        rw [this]
        exact .fail
  | chal =>
    refine .call (fun _ dg => .done ⟨h.b, h.fw, h.buf, h.inv, h.fills, h.polys, ?_, h.muls, h.prds, h.eqs⟩)
    show V.rs ++ _ = C.rs ++ _
    rw [h.rs]; rfl
  | addc i k =>
    refine (hget i).bind (fun a x hx => ?_)
    rw [h.rs]
    refine Follows.bind (R := fun a b => a = b) (.ofOpt (fun r hr => ⟨r, hr, rfl⟩)) (fun r r' hr => ?_)
    subst hr; subst hx
    have := hpush _ _ (addConst_key d x r)
    rw [h.rs] at this
    exact .done this
  | mul i j =>
    refine (hget i).bind (fun a x hx => (hget j).bind (fun b y hy => ?_))
    subst hx; subst hy
    exact f2kMul_follows hroom hsz h x y
  | mulN is =>
    unfold mopR mopC
    simp only []
    rw [h.fw, pick_map_eq]
    cases pick C.fw is with
    | none => exact .fail
    | some xs =>
      simp only [Option.map_some, RProg.ofOpt, RProg.bind]
      exact f2kMulN_follows hd h xs
  | eq i j =>
    refine (hget i).bind (fun a x hx => (hget j).bind (fun b y hy => .call (fun _ bs => ?_)))
    subst hx; subst hy
    split
    · rename_i hc
      refine .done ⟨h.b, h.fw, h.buf, h.inv, h.fills, h.polys, h.rs, h.muls, h.prds, ?_⟩
      intro e he
      rcases List.mem_append.1 he with he | he
      · exact h.eqs e he
      · rw [List.mem_singleton] at he; subst he; exact hc
    · exact .stop
  | sync => exact .call (fun _ _ => .done h)
  | packAt ps =>
    unfold mopR mopC
    simp only []
    rw [hw]
    cases hp : packPieces (C.b.wires.map (keyOf d)) ps with
    | none => exact .fail
    | some k =>
      obtain ⟨m, x, h1, h2, h3⟩ := pieces_key d _ _ hp
      rw [h1, h2]
      exact .done (hpush _ _ h3)
  | chals n =>
    refine .call (fun _ dg => .done ⟨h.b, h.fw, h.buf, h.inv, h.fills, h.polys, ?_, h.muls, h.prds, h.eqs⟩)
    show V.rs ++ _ = C.rs ++ _
    rw [h.rs]; rfl
  | lin l =>
    unfold mopR mopC
    simp only []
    rw [h.rs, h.fw]
    cases hp : linComb C.rs (C.fw.map (keyF d)) l with
    | none => exact .fail
    | some k =>
      obtain ⟨x, m, h1, h2, h3⟩ := linComb_key d _ _ _ hp
      rw [h1, h2]
      refine .done ?_
      have := hpush _ _ h3
      rw [h.fw, h.rs] at this
      exact this

theorem mops_follows (hd : lsb d = true) (hroom : ∀ k, me.sz ≤ (me.auth k).length) (hsz : 0 < me.sz) (ops : List MOp) :
    ∀ {V : MVer F} {C : MCom F}, MFol me v d V C → Follows (MFol me v d) (mopsR (me.at v d) V ops) (mopsC me v C ops) := by
  induction ops with
  | nil => intro V C h; exact .done h
  | cons o os ih => intro V C h; exact (mop_follows hd hroom hsz h o).bind (fun _ _ h' => ih h')

/-- What is left after the destructor. -/
structure MEnd (v : BView F) (d : F) (V : MVer F) (C : MCom F) : Prop where
  fw : V.fw = C.fw.map (keyF d)
  rs : V.rs = C.rs
  muls : V.warns = 0 → ∀ r ∈ C.muls, MulHolds v d r
  prds : ∀ r ∈ C.prds, PrdHolds d r
  eqs : ∀ e ∈ C.eqs, setEqVer (keyF d e.1) (keyF d e.2.1) e.2.2.1 e.2.2.2 = true

theorem f2kDel_follows {V : MVer F} {C : MCom F} (h : MFol me v d V C) :
    Follows (fun V' C' => BFol v d V'.b C'.b ∧ MEnd v d V' C') (f2kDelR (me.at v d) V) (f2kDelC me C) := by
  unfold f2kDelR f2kDelC
  have hl := prdKeys_length h.polys
  have hn : V.polys ≠ [] ↔ C.polys ≠ [] := by rw [← List.length_pos_iff, hl, List.length_pos_iff]
  have h1 : Follows (MFol me v d) (if V.polys ≠ [] then prdtCheckR (me.at v d) V else RProg.done V)
      (if C.polys ≠ [] then prdtCheckC me C else RProg.done C) := by
    by_cases hc : C.polys ≠ []
    · rw [if_pos hc, if_pos (hn.2 hc)]; exact (prdtCheck_follows h).mono (fun _ _ h => h.1)
    · rw [if_neg hc, if_neg (fun h' => hc (hn.1 h'))]; exact .done h
  refine h1.bind (fun V1 C1 h1 => ?_)
  have hl : V1.buf.left ≠ [] ↔ C1.buf.left ≠ [] := by rw [h1.buf]; simp [F2kBuf.key]
  by_cases hc : C1.buf.left ≠ []
  · rw [if_pos hc, if_pos (hl.2 hc)]
    refine (f2kCheck_follows h1).mono (fun V' C' hh => ?_)
    have := hh.2.2.1 _ h1.inv
    exact ⟨this.b, this.fw, this.rs, this.muls, this.prds, this.eqs⟩
  · rw [if_neg hc, if_neg (fun h' => hc (hl.1 h'))]; exact .done ⟨h1.b, h1.fw, h1.rs, h1.muls, h1.prds, h1.eqs⟩

/-- At the end of the session. -/
theorem mix_follows (hd : lsb d = true) (hroom : ∀ k, me.sz ≤ (me.auth k).length) (hsz : 0 < me.sz) (pre : List BOp) (ops : List MOp)
    (post : List BOp) : Follows (fun V r => BEnd v d V.b (r.1.b, r.2) ∧ MEnd v d V r.1) (mixVerifier (me.at v d) pre ops post)
      (mixCommit me v pre ops post) := by
  unfold mixVerifier mixCommit mixR mixC
  refine Follows.bind (R := fun V r => BEnd v d V.b (r.1.b, r.2) ∧ MEnd v d V r.1) ?_ (fun _ _ hr => .call (fun _ _ => .done hr))
  refine (rcotR_follows _ _ _).bind (fun _ _ _ => ?_)
  have h0 : BFol v d VerSt.init ComSt.init := ⟨[], rfl, CheatInv.init _⟩
  refine (bops_follows hd pre h0).bind (fun b c hb => ?_)
  have hu : b.used = c.used := by obtain ⟨ch, rfl, hi⟩ := hb; rfl
  refine Follows.bind (R := MFol me v d) ?_ (fun V C h => (mops_follows hd hroom hsz ops h).bind (fun V1 C1 h1 =>
    (f2kDel_follows h1).bind (fun V2 C2 h2 => (bops_follows hd post h2.1).bind (fun b3 c3 h3 => (bfin_follows h3).bind (fun b4 r h4 =>
      .done ⟨h4, h2.2.fw, h2.2.rs, h2.2.muls, h2.2.prds, h2.2.eqs⟩)))))
  refine (Follows.calls _).bind (fun _ _ _ => .done ⟨?_, rfl, rfl, ⟨rfl, rfl, by simp, hroom 0⟩, rfl, rfl, rfl, by simp, by simp, by simp⟩)
  have := bfol_used hb (c.used + me.svN 0)
  rw [← hu] at this ⊢
  exact this

end
end EmpZk
