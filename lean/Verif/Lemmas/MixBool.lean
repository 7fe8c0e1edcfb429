/-
The boolean part of a mixed session: honest parties in lock step.
-/
import Verif.Lemmas.Calls
import Verif.Lemmas.BoolExtract
import Verif.Lemmas.BoolProgress
import Verif.Spec.MixNet

namespace EmpZk

section
variable {S : Nat} {α β : Type} {Post : α → β → Prop}

theorem Lock.hashC {k : List Byte → SProg α} {k' : Bool → List Byte → RProg β} (h : ∀ d, Lock S (k d) (k' false d) Post) :
    Lock S (.call .hash k) (.call .hash k') Post := Lock.call (o := .hash) (r := .hash) trivial h

theorem Lock.flushC {k : List Byte → SProg α} {k' : Bool → List Byte → RProg β} (h : Lock S (k []) (k' false []) Post) :
    Lock S (.call .flush k) (.call .flush k') Post := Lock.call (o := .flush) (r := .flush) trivial (fun _ => h)

theorem Lock.bitC {b : Bool} {k : List Byte → SProg α} {k' : Bool → List Byte → RProg β} (h : Lock S (k []) (k' b []) Post) :
    Lock S (.call (.bit b) k) (.call .bit k') Post := Lock.call (o := .bit b) (r := .bit) trivial (fun _ => h)

theorem Lock.dataC {bs : List Byte} {n : Nat} (hl : bs.length = n) (hn : 0 < n) {k : List Byte → SProg α}
    {k' : Bool → List Byte → RProg β} (h : Lock S (k []) (k' false bs) Post) :
    Lock S (.call (.data bs) k) (.call (.data n) k') Post := Lock.call (o := .data bs) (r := .data n) ⟨hl, hn⟩ (fun _ => h)

theorem Lock.backC {bs : List Byte} {n : Nat} (hl : bs.length = n) (hn : 0 < n) {k : List Byte → SProg α}
    {k' : Bool → List Byte → RProg β} (h : Lock S (k bs) (k' false []) Post) :
    Lock S (.call (.back n) k) (.call (.back bs) k') Post := Lock.call (o := .back n) (r := .back bs) ⟨hl, hn⟩ (fun _ => h)

end

section
variable {F : Type} [Field F] [BlockField F] [DecidableEq F]

/-- The states of two honest parties with plain values `pl`. -/
def BRel (ne : NetEnv F) (p : PrvSt F) (v : VerSt F) (pl : Plain) : Prop :=
  ∃ c ch, p = prvOf c ∧ v = verImg ne.e.delta c ch ∧ Hon ne.e.view c ∧ c.plain = pl ∧ CheatInv ne.e v ∧ PrvBounds ne.e p

/-- The numbers of threads and the sizes of the buffers are sane. -/
structure NetEnv.Sane (ne : NetEnv F) : Prop where
  good : ne.Good
  threads : 0 < ne.e.threads
  fits : ne.e.threads ≤ ne.e.checkSz
  poly : 0 < ne.e.polySz

variable {ne : NetEnv F} {p : PrvSt F} {v : VerSt F} {pl : Plain} {S : Nat}

theorem NetEnv.Good.env (hg : ne.Good) (d : List Byte) (sd : F) : (ne.env d sd).Good := ⟨hg.e.lsb_delta, hg.e.lsb_key⟩

theorem BRel.init (ne : NetEnv F) : BRel ne PrvSt.init VerSt.init ⟨[], [], []⟩ :=
  ⟨ComSt.init, [], rfl, rfl, Hon.init _, rfl, CheatInv.init _, ⟨Nat.zero_le _, Nat.zero_le _⟩⟩

theorem BRel.used (h : BRel ne p v pl) : v.used = p.used := by
  obtain ⟨c, ch, rfl, rfl, _⟩ := h; rfl

theorem BRel.gates (h : BRel ne p v pl) : v.gates.length = p.gates.length := by
  obtain ⟨c, ch, rfl, rfl, _⟩ := h; simp [verImg, prvOf]

theorem BRel.polys (h : BRel ne p v pl) : v.polys.length = p.polys.length := by
  obtain ⟨c, ch, rfl, rfl, _⟩ := h; simp [verImg, prvOf]

theorem BRel.polyBatches (h : BRel ne p v pl) : v.polyBatches = p.polyBatches := by
  obtain ⟨c, ch, rfl, rfl, _⟩ := h; rfl

theorem BRel.wires (h : BRel ne p v pl) : v.wires = p.wires.map (keyOf ne.e.delta) := by
  obtain ⟨c, ch, rfl, rfl, _⟩ := h; rfl

theorem BRel.plainWires (h : BRel ne p v pl) : pl.wires = p.wires.map lsb := by
  obtain ⟨c, ch, rfl, rfl, _, rfl, _⟩ := h; rfl

theorem BRel.outs (h : BRel ne p v pl) : p.outs = pl.outs ∧ v.outs = pl.outs := by
  obtain ⟨c, ch, rfl, rfl, _, rfl, _⟩ := h; exact ⟨rfl, rfl⟩

theorem BRel.bounds (h : BRel ne p v pl) : PrvBounds ne.e p := by
  obtain ⟨c, ch, rfl, rfl, _, _, _, hb⟩ := h; exact hb

/-- The counters of correlations are moved together. -/
theorem BRel.setUsed (h : BRel ne p v pl) (n : Nat) : BRel ne { p with used := n } { v with used := n } pl := by
  obtain ⟨c, ch, rfl, rfl, hon, rfl, hc, hb⟩ := h
  exact ⟨{ c with used := n }, ch, rfl, rfl, ⟨hon.opened, hon.gates, hon.andLog, hon.polyLog⟩, rfl, hc.congr rfl rfl rfl, ⟨hb.gates, hb.polys⟩⟩

/-- The wires of both parties are replaced. -/
theorem BRel.setWires (h : BRel ne p v pl) (w : List F) :
    BRel ne { p with wires := w } { v with wires := w.map (keyOf ne.e.delta) } { pl with wires := w.map lsb } := by
  obtain ⟨c, ch, rfl, rfl, hon, rfl, hc, hb⟩ := h
  exact ⟨{ c with wires := w }, ch, rfl, rfl, ⟨hon.opened, hon.gates, hon.andLog, hon.polyLog⟩, rfl, hc.congr rfl rfl rfl,
    ⟨hb.gates, hb.polys⟩⟩

/-- One instruction. -/
theorem BRel.step (hs : ne.Sane) (h : BRel ne p v pl) {o : BOp} {pl' : Plain} (ho : plainStep pl o = some pl') :
    ∃ p' m v', prvStep ne.e p o = some (p', m) ∧ verStep ne.e v m o = some v' ∧ BRel ne p' v' pl' := by
  obtain ⟨c, ch, rfl, rfl, hon, rfl, hc, hb⟩ := h
  have h1 := (prvStep_isSome hs.threads hs.fits hs.poly hb o c.plain rfl).2 (by rw [ho]; rfl)
  obtain ⟨⟨p', m⟩, hq⟩ := Option.isSome_iff_exists.1 h1
  have hq' := hq
  rw [← hs.good.e.eta] at hq'
  obtain ⟨c', k1, k2, k3, k4⟩ := prvStep_com ne.e.view ne.e.delta hq' hon
  simp only at k1 k2
  subst k2
  rw [ho, Option.some.injEq] at k4
  obtain ⟨ch', hv⟩ := verStep_img ne.e.view hs.good.e.lsb_delta c ch m o
  rw [k1, Option.map_some, hs.good.e.eta] at hv
  refine ⟨_, _, _, hq, hv, c', ch', rfl, rfl, k3, k4.symm, hc.step hv, ?_⟩
  exact prvStep_bounds (Nat.lt_of_lt_of_le hs.threads hs.fits) hs.poly hb hq

/-- A check of AND gates. -/
theorem BRel.andCheck (hs : ne.Sane) (h : BRel ne p v pl) (ht : ne.e.threads ≤ p.gates.length) (d : List Byte) :
    ∃ p' a v', prvAndCheck (ne.env d 0) p = some (p', a) ∧ verAndCheck (ne.env d 0) v a = some v' ∧ BRel ne p' v' pl ∧
      p'.gates = [] ∧ p'.wires = p.wires ∧ p'.polys = p.polys := by
  obtain ⟨c, ch, rfl, rfl, hon, rfl, hc, hb⟩ := h
  have he := hs.good.env d 0
  obtain ⟨⟨p', a⟩, hq⟩ := Option.isSome_iff_exists.1 ((prvAndCheck_isSome (ne.env d 0) (prvOf c)).2 ⟨hs.threads, ht⟩)
  have hon' : Hon (ne.env d 0).view c := ⟨hon.opened, hon.gates, hon.andLog, hon.polyLog⟩
  have hq' := hq
  rw [← he.eta] at hq'
  obtain ⟨k1, k2, k3, k4⟩ := prvAndCheck_com (ne.env d 0).view (ne.env d 0).delta hq' hon'
  simp only at k1 k2 k3 k4
  subst k2
  obtain ⟨ch', hv⟩ := verAndCheck_img (ne.env d 0).view ne.e.delta c ch a
  rw [if_pos k1] at hv
  have hv' : verAndCheck (ne.env d 0) (verImg ne.e.delta c ch) a =
      some (verImg ne.e.delta (comAndCheck (ne.env d 0).view c a) ch') := by
    have := he.eta
    rw [show (ne.env d 0).delta = ne.e.delta from rfl] at this
    rw [this] at hv
    exact hv
  have hc' : CheatInv (ne.env d 0) (verImg ne.e.delta c ch) := hc
  refine ⟨_, _, _, hq, hv', ⟨_, ch', rfl, rfl, ⟨k3.opened, k3.gates, k3.andLog, k3.polyLog⟩, k4, ?_, ⟨Nat.zero_le _, hb.polys⟩⟩, rfl, rfl, rfl⟩
  exact hc'.andCheck hv'

/-- A check of statements. -/
theorem BRel.polyCheck (hs : ne.Sane) (h : BRel ne p v pl) (sd : F) :
    BRel ne (prvPolyCheck (ne.env [] sd) p).1 (verPolyCheck (ne.env [] sd) v (prvPolyCheck (ne.env [] sd) p).2) pl := by
  obtain ⟨c, ch, rfl, rfl, hon, rfl, hc, hb⟩ := h
  have he := hs.good.env [] sd
  have hon' : Hon (ne.env [] sd).view c := ⟨hon.opened, hon.gates, hon.andLog, hon.polyLog⟩
  obtain ⟨k1, k2, k3⟩ := prvPolyCheck_com (ne.env [] sd).view (ne.env [] sd).delta c hon'
  rw [he.eta] at k1 k2 k3
  obtain ⟨ch', hv⟩ := verPolyCheck_img (ne.env [] sd).view ne.e.delta c ch (prvPolyCheck (ne.env [] sd) (prvOf c)).2
  have this := he.eta
  rw [show (ne.env [] sd).delta = ne.e.delta from rfl] at this
  rw [this] at hv
  have hc' : CheatInv (ne.env [] sd) (verImg ne.e.delta c ch) := hc
  refine ⟨_, ch', k1, hv, ⟨k2.opened, k2.gates, k2.andLog, k2.polyLog⟩, k3, hc'.polyCheck _, ⟨hb.gates, Nat.zero_le _⟩⟩

/-- At the end: what is recorded. -/
theorem BRel.noCheat (h : BRel ne p v pl) (hs : ne.Sane) (hcl : ∀ b ∈ pl.claims, b = false) :
    v.cheats = [] ∧ v.digest = p.digest := by
  obtain ⟨c, ch, rfl, rfl, hon, rfl, hc, hb⟩ := h
  refine ⟨hc.2 ⟨?_, ?_⟩, ?_⟩
  · intro r hr
    simp only [verImg, List.mem_map] at hr
    obtain ⟨r', hr', rfl⟩ := hr
    have hp := hon.andLog r' hr'
    have hgc : ∀ g ∈ r'.gates, g.Correct := by
      intro g hg
      apply hon.gates
      simp only [ComSt.allGates, List.mem_append, List.mem_flatMap]
      exact Or.inl ⟨r', hr', hg⟩
    unfold andCheckPrv at hp
    have := andCheckVer_keyOf ne.e.delta r'.gates ne.e.view.threads r'.seeds (fun i => ne.e.view.mac (r'.ope + i)) r'.ans
    unfold AndOK
    rw [← hs.good.e.eta]
    refine this.trans ?_
    cases hsp : splitTasks r'.gates.length ne.e.view.threads with
    | none => rw [hsp] at hp; simp at hp
    | some tasks =>
      rw [hsp] at hp
      simp only [Option.some.injEq] at hp
      rw [Option.map_some, ← hp, errSum_correct _ hgc]
      simp only [Option.some.injEq, decide_eq_true_eq]
      ring
  · intro r hr
    simp only [verImg, List.mem_map] at hr
    obtain ⟨r', hr', rfl⟩ := hr
    have hp := hon.polyLog r' hr'
    have := polyCheckVer_keyOf ne.e.delta r'.polys r'.seed (fun i => ne.e.view.mac (r'.ope + i)) r'.ans
    unfold PolyOK
    rw [← hs.good.e.eta]
    refine this.trans ?_
    rw [chiSum_zero _ _ _ (by
      intro s hs
      have : (s.map lsb).eval = false := by
        apply hcl
        simp only [ComSt.plain, ComSt.stmts, List.map_append, List.mem_append, List.mem_map, List.mem_flatMap]
        exact Or.inl ⟨s, ⟨r', hr', hs⟩, rfl⟩
      rw [this, bit_false])]
    simp only [hp, decide_eq_true_eq]
    rw [addSelf]
    ring
  · simp only [verImg, prvOf]
    apply List.map_congr_left
    intro o ho
    rw [openVer_keyOf, hon.opened o ho, Bool.xor_self, bit_false, zero_mul, add_zero]

/-! ### in lock step -/

theorem lock_rcot (hg : ne.Good) (u k : Nat) : Lock S (rcotS ne u k) (rcotR ne u k) (fun _ _ => True) := Lock.calls (hg.ext u k)

theorem lock_andCheck (hs : ne.Sane) (h : BRel ne p v pl) (ht : ne.e.threads ≤ p.gates.length) :
    Lock S (andCheckS ne p) (andCheckR ne v) (fun p' v' => BRel ne p' v' pl ∧ p'.gates = [] ∧ p'.wires = p.wires ∧ p'.polys = p.polys) := by
  unfold andCheckS andCheckR
  refine Lock.hashC (fun d => ?_)
  rw [h.used]
  refine Lock.bind (lock_rcot hs.good _ _) (fun _ _ _ => ?_)
  obtain ⟨p', a, v', k1, k2, k3⟩ := h.andCheck hs ht d
  simp only [k1, SProg.ofOpt, SProg.bind]
  refine Lock.dataC (hs.good.enc2_length a) (by decide) ?_
  simp only [hs.good.dec2_enc2, k2, RProg.ofOpt, RProg.bind]
  exact Lock.flushC (Lock.pure k3)

theorem lock_polyCheck (hs : ne.Sane) (h : BRel ne p v pl) :
    Lock S (polyCheckS ne p) (polyCheckR ne v) (fun p' v' => BRel ne p' v' pl ∧ p'.polys = [] ∧ p'.wires = p.wires ∧ p'.gates = p.gates) := by
  unfold polyCheckS polyCheckR
  refine Lock.backC (hs.good.enc_length _) (by decide) ?_
  simp only [hs.good.dec_enc]
  rw [h.used]
  refine Lock.bind (lock_rcot hs.good _ _) (fun _ _ _ => ?_)
  refine Lock.dataC (hs.good.enc2_length _) (by decide) ?_
  simp only [hs.good.dec2_enc2]
  exact Lock.pure ⟨h.polyCheck hs _, rfl, rfl, rfl⟩

theorem lock_andRoom (hs : ne.Sane) (h : BRel ne p v pl) :
    Lock S (andRoomS ne p) (andRoomR ne v) (fun p' v' => BRel ne p' v' pl ∧
      p'.gates.length = (if p.gates.length = ne.e.checkSz then 0 else p.gates.length) ∧ p'.wires = p.wires) := by
  unfold andRoomS andRoomR
  rw [h.gates]
  by_cases hf : p.gates.length = ne.e.checkSz
  · simp only [if_pos hf]
    refine (lock_andCheck hs h (by rw [hf]; exact hs.fits)).mono ?_
    rintro a b ⟨k1, k2, k3, k4⟩
    exact ⟨k1, by rw [k2]; rfl, k3⟩
  · simp only [if_neg hf]
    exact Lock.pure ⟨h, rfl, rfl⟩

theorem lock_polyRoom (hs : ne.Sane) (h : BRel ne p v pl) :
    Lock S (polyRoomS ne p) (polyRoomR ne v) (fun p' v' => BRel ne p' v' pl ∧ p'.polys.length < ne.e.polySz ∧ p'.wires = p.wires ∧
      p'.gates = p.gates) := by
  unfold polyRoomS polyRoomR
  have hn : v.polys ≠ [] ↔ p.polys ≠ [] := by
    rw [ne_eq, ne_eq, ← List.length_eq_zero_iff, ← List.length_eq_zero_iff, h.polys]
  have hiff : (v.polys.length ≥ ne.e.polySz ∧ v.polys ≠ []) ↔ (p.polys.length ≥ ne.e.polySz ∧ p.polys ≠ []) := by rw [h.polys, hn]
  by_cases hf : p.polys.length ≥ ne.e.polySz ∧ p.polys ≠ []
  · rw [if_pos hf, if_pos (hiff.2 hf)]
    refine (lock_polyCheck hs h).mono ?_
    rintro a b ⟨k1, k2, k3, k4⟩
    exact ⟨k1, by rw [k2]; exact hs.poly, k3, k4⟩
  · rw [if_neg hf, if_neg (fun h' => hf (hiff.1 h'))]
    refine Lock.pure ⟨h, ?_, rfl, rfl⟩
    by_contra hlt
    apply hf
    refine ⟨by omega, ?_⟩
    intro h0
    rw [h0] at hlt
    exact hlt hs.poly

/-- Size of the current batch of AND gates after one more instruction. -/
def nextBatch (sz g : Nat) (isAnd : Bool) : Nat := if isAnd then (if g = sz then 0 else g) + 1 else g

theorem lock_input (hs : ne.Sane) (h : BRel ne p v pl) (b b' : Bool) :
    Lock S (bopS ne p (.input b)) (bopR ne v (.input b')) (fun p' v' => BRel ne p' v' { pl with wires := pl.wires ++ [b] } ∧
      p'.gates = p.gates ∧ ∃ x, p'.wires = p.wires ++ [x]) := by
  unfold bopS bopR
  simp only
  rw [h.used]
  refine Lock.bind (lock_rcot hs.good _ _) (fun _ _ _ => ?_)
  obtain ⟨p', m, v', k1, k2, k3⟩ := h.step hs (o := .input b) rfl
  rw [k1]
  simp only [SProg.ofOpt, SProg.bind]
  refine Lock.bitC ?_
  have e : verStep ne.e v ⟨m.bit, 0, 0⟩ (.input b') = some v' := by
    rw [← k2]; rfl
  simp only [e, RProg.ofOpt]
  simp only [prvStep, Option.some.injEq, Prod.mk.injEq] at k1
  obtain ⟨rfl, _⟩ := k1
  exact Lock.pure ⟨k3, rfl, _, rfl⟩

/-- One instruction in lock step. -/
theorem lock_bop (hs : ne.Sane) (h : BRel ne p v pl) {o : BOp} {pl' : Plain} (ho : plainStep pl o = some pl') :
    Lock S (bopS ne p o) (bopR ne v o) (fun p' v' => BRel ne p' v' pl' ∧
      p'.gates.length = nextBatch ne.e.checkSz p.gates.length o.isAnd) := by
  cases o with
  | input b =>
    simp only [plainStep, Option.some.injEq] at ho
    subst ho
    refine (lock_input hs h b b).mono ?_
    rintro a b ⟨k1, k2, _⟩
    exact ⟨k1, by rw [k2]; rfl⟩
  | pub b =>
    obtain ⟨p', m, v', k1, k2, k3⟩ := h.step hs ho
    have hm : m = ⟨false, 0, 0⟩ ∧ p'.gates = p.gates := by
      simp only [prvStep, Option.some.injEq, Prod.mk.injEq] at k1
      exact ⟨k1.2.symm, by rw [← k1.1]⟩
    rw [hm.1] at k2
    simp only [bopS, bopR, k1, k2, SProg.ofOpt, RProg.ofOpt, SProg.bind]
    exact Lock.pure ⟨k3, by rw [hm.2]; rfl⟩
  | xor i j =>
    obtain ⟨p', m, v', k1, k2, k3⟩ := h.step hs ho
    have hm : m = ⟨false, 0, 0⟩ ∧ p'.gates = p.gates := by
      simp only [prvStep, Option.bind_eq_bind, Option.bind_eq_some_iff, Option.some.injEq, Prod.mk.injEq] at k1
      obtain ⟨_, _, _, _, rfl, rfl⟩ := k1
      exact ⟨rfl, rfl⟩
    rw [hm.1] at k2
    simp only [bopS, bopR, k1, k2, SProg.ofOpt, RProg.ofOpt, SProg.bind]
    exact Lock.pure ⟨k3, by rw [hm.2]; rfl⟩
  | not i =>
    obtain ⟨p', m, v', k1, k2, k3⟩ := h.step hs ho
    have hm : m = ⟨false, 0, 0⟩ ∧ p'.gates = p.gates := by
      simp only [prvStep, Option.bind_eq_bind, Option.bind_eq_some_iff, Option.some.injEq, Prod.mk.injEq] at k1
      obtain ⟨_, _, rfl, rfl⟩ := k1
      exact ⟨rfl, rfl⟩
    rw [hm.1] at k2
    simp only [bopS, bopR, k1, k2, SProg.ofOpt, RProg.ofOpt, SProg.bind]
    exact Lock.pure ⟨k3, by rw [hm.2]; rfl⟩
  | reveal i =>
    obtain ⟨p', m, v', k1, k2, k3⟩ := h.step hs ho
    have hm : m = ⟨m.bit, 0, 0⟩ ∧ p'.gates = p.gates := by
      simp only [prvStep, Option.bind_eq_bind, Option.bind_eq_some_iff, Option.some.injEq, Prod.mk.injEq] at k1
      obtain ⟨_, _, rfl, rfl⟩ := k1
      exact ⟨rfl, rfl⟩
    rw [hm.1] at k2
    simp only [bopS, bopR, k1, SProg.ofOpt, SProg.bind]
    refine Lock.bitC ?_
    simp only [k2, RProg.ofOpt]
    exact Lock.pure ⟨k3, by rw [hm.2]; rfl⟩
  | and i j =>
    have hw := h.wires
    obtain ⟨_, _, _, q1, _, _⟩ := h.step hs ho
    simp only [prvStep, Option.bind_eq_bind, Option.bind_eq_some_iff] at q1
    obtain ⟨a, ha, b, hb, _⟩ := q1
    have ha' : v.wires[i]? = some (keyOf ne.e.delta a) := by rw [hw, List.getElem?_map, ha]; rfl
    have hb' : v.wires[j]? = some (keyOf ne.e.delta b) := by rw [hw, List.getElem?_map, hb]; rfl
    simp only [bopS, bopR, ha, hb, ha', hb', SProg.ofOpt, RProg.ofOpt, SProg.bind, RProg.bind]
    refine Lock.bind (lock_andRoom hs h) ?_
    rintro p1 v1 ⟨k1, k2, k3⟩
    rw [k1.used]
    refine Lock.bind (lock_rcot hs.good _ _) (fun _ _ _ => ?_)
    obtain ⟨p', m, v', l1, l2, l3⟩ := k1.step hs ho
    have hlt : p1.gates.length ≠ ne.e.checkSz := by
      have := Nat.lt_of_lt_of_le hs.threads hs.fits
      rw [k2]
      split <;> omega
    have hlt' : v1.gates.length ≠ ne.e.checkSz := by rw [k1.gates]; exact hlt
    have hw1 := k1.wires
    rw [← k3] at ha hb
    have ha1 : v1.wires[i]? = some (keyOf ne.e.delta a) := by rw [hw1, List.getElem?_map, ha]; rfl
    have hb1 : v1.wires[j]? = some (keyOf ne.e.delta b) := by rw [hw1, List.getElem?_map, hb]; rfl
    simp only [prvStep, ha, hb, Option.bind_eq_bind, Option.bind_some, prvAndRoom, if_neg hlt, Option.bind_eq_some_iff, Option.some.injEq,
      Prod.mk.injEq] at l1
    obtain ⟨q, hq, rfl, rfl⟩ := l1
    simp only [verStep, ha1, hb1, Option.bind_eq_bind, Option.bind_some, verAndRoom, if_neg hlt'] at l2
    simp only [hq, SProg.bind]
    refine Lock.bitC ?_
    simp only [l2]
    refine Lock.pure ⟨l3, ?_⟩
    unfold prvAndPush at hq
    split at hq
    · simp only [Option.some.injEq] at hq
      rw [← hq]
      simp only [List.length_append, List.length_singleton, k2]
      rfl
    · simp at hq
  | poly st =>
    have hw := h.wires
    obtain ⟨_, _, _, q1, _, _⟩ := h.step hs ho
    simp only [prvStep, Option.bind_eq_bind, Option.bind_eq_some_iff] at q1
    obtain ⟨a, ha, _⟩ := q1
    have ha' : st.lookup v.wires = some (a.map (keyOf ne.e.delta)) := by rw [hw, lookup_map, ha]; rfl
    simp only [bopS, bopR, ha, ha', SProg.ofOpt, RProg.ofOpt, SProg.bind, RProg.bind]
    refine Lock.bind (lock_polyRoom hs h) ?_
    rintro p1 v1 ⟨k1, k2, k3, k4⟩
    obtain ⟨p', m, v', l1, l2, l3⟩ := k1.step hs ho
    rw [← k3] at ha
    have ha1 : st.lookup v1.wires = some (a.map (keyOf ne.e.delta)) := by rw [k1.wires, lookup_map, ha]; rfl
    have hr1 : ¬ (p1.polys.length ≥ ne.e.polySz ∧ p1.polys ≠ []) := by rintro ⟨h1, _⟩; omega
    have hr2 : ¬ (v1.polys.length ≥ ne.e.polySz ∧ v1.polys ≠ []) := by rw [k1.polys]; rintro ⟨h1, _⟩; omega
    simp only [prvStep, ha, Option.bind_eq_bind, Option.bind_some, prvPolyRoom, if_neg hr1, Option.bind_eq_some_iff, Option.some.injEq,
      Prod.mk.injEq] at l1
    obtain ⟨q, hq, rfl, rfl⟩ := l1
    simp only [verStep, ha1, Option.bind_eq_bind, Option.bind_some, verPolyRoom, if_neg hr2] at l2
    simp only [hq, l2]
    refine Lock.pure ⟨l3, ?_⟩
    unfold prvPolyPush at hq
    split at hq
    · simp only [Option.some.injEq] at hq
      rw [← hq]
      simp only [k4]
      rfl
    · rename_i hn
      exact absurd k2 hn

/-- Size of the current batch of AND gates after a program. -/
def nextBatches (sz : Nat) (g : Nat) (l : List Bool) : Nat := l.foldl (nextBatch sz) g

/-- A program in lock step. -/
theorem lock_bops (hs : ne.Sane) (ops : List BOp) : ∀ {p : PrvSt F} {v : VerSt F} {pl pl' : Plain}, BRel ne p v pl →
    ops.foldlM plainStep pl = some pl' →
    Lock S (bopsS ne p ops) (bopsR ne v ops) (fun p' v' => BRel ne p' v' pl' ∧
      p'.gates.length = nextBatches ne.e.checkSz p.gates.length (ops.map BOp.isAnd)) := by
  induction ops with
  | nil =>
    intro p v pl pl' h ho
    simp only [List.foldlM_nil, Option.pure_def, Option.some.injEq] at ho
    subst ho
    exact Lock.pure ⟨h, rfl⟩
  | cons o os ih =>
    intro p v pl pl' h ho
    simp only [List.foldlM_cons, Option.bind_eq_bind, Option.bind_eq_some_iff] at ho
    obtain ⟨q, hq, ho⟩ := ho
    simp only [bopsS, bopsR]
    refine Lock.bind (lock_bop hs h hq) ?_
    rintro p1 v1 ⟨k1, k2⟩
    refine (ih k1 ho).mono ?_
    rintro p2 v2 ⟨l1, l2⟩
    exact ⟨l1, by rw [l2, k2]; rfl⟩

/-- Inputs in lock step; the verifier has its own plain values, which it does not use. -/
theorem lock_inputs (hs : ne.Sane) (bs : List Bool) : ∀ {bs' : List Bool} {p : PrvSt F} {v : VerSt F} {pl : Plain}, BRel ne p v pl →
    bs'.length = bs.length →
    Lock S (bopsS ne p (bs.map BOp.input)) (bopsR ne v (bs'.map BOp.input)) (fun p' v' =>
      BRel ne p' v' { pl with wires := pl.wires ++ bs } ∧ p'.gates = p.gates ∧ ∃ x, p'.wires = p.wires ++ x) := by
  induction bs with
  | nil =>
    intro bs' p v pl h hl
    rw [List.length_eq_zero_iff.1 hl]
    exact Lock.pure ⟨by simpa using h, rfl, [], by simp⟩
  | cons b bs ih =>
    intro bs' p v pl h hl
    cases bs' with
    | nil => simp at hl
    | cons b' bs' =>
      simp only [List.map_cons, bopsS, bopsR]
      refine Lock.bind (lock_input hs h b b') ?_
      rintro p1 v1 ⟨k1, k2, x, k3⟩
      refine (ih k1 (by simpa using hl)).mono ?_
      rintro p2 v2 ⟨l1, l2, y, l3⟩
      exact ⟨by simpa using l1, by rw [l2, k2], [x] ++ y, by rw [l3, k3]; simp⟩

theorem BRel.gates_nil (h : BRel ne p v pl) : v.gates ≠ [] ↔ p.gates ≠ [] := by
  rw [ne_eq, ne_eq, ← List.length_eq_zero_iff, ← List.length_eq_zero_iff, h.gates]

theorem BRel.polys_nil (h : BRel ne p v pl) : v.polys ≠ [] ↔ p.polys ≠ [] := by
  rw [ne_eq, ne_eq, ← List.length_eq_zero_iff, ← List.length_eq_zero_iff, h.polys]

/-- The end of the session in lock step. -/
theorem lock_bfin (hs : ne.Sane) (h : BRel ne p v pl) (hg : p.gates.length = 0 ∨ ne.e.threads ≤ p.gates.length)
    (hcl : ∀ b ∈ pl.claims, b = false) :
    Lock S (bfinS ne p) (bfinR ne v) (fun p' v' => p'.outs = pl.outs ∧ v'.outs = pl.outs ∧ v'.cheats = []) := by
  unfold bfinS bfinR
  have h1 : Lock S (if p.polys ≠ [] then polyCheckS ne p else SProg.done p) (if v.polys ≠ [] then polyCheckR ne v else RProg.done v)
      (fun p' v' => BRel ne p' v' pl ∧ p'.gates = p.gates) := by
    by_cases hf : p.polys ≠ []
    · rw [if_pos hf, if_pos (h.polys_nil.2 hf)]
      exact (lock_polyCheck hs h).mono (fun _ _ k => ⟨k.1, k.2.2.2⟩)
    · rw [if_neg hf, if_neg (fun h' => hf (h.polys_nil.1 h'))]
      exact Lock.pure ⟨h, rfl⟩
  refine Lock.bind h1 ?_
  rintro p1 v1 ⟨k1, k2⟩
  have h2 : Lock S (if p1.gates ≠ [] then andCheckS ne p1 else SProg.done p1) (if v1.gates ≠ [] then andCheckR ne v1 else RProg.done v1)
      (fun p' v' => BRel ne p' v' pl) := by
    by_cases hf : p1.gates ≠ []
    · rw [if_pos hf, if_pos (k1.gates_nil.2 hf)]
      refine (lock_andCheck hs k1 ?_).mono (fun _ _ k => k.1)
      rw [k2] at hf ⊢
      rcases hg with hg | hg
      · exact absurd (List.length_eq_zero_iff.1 hg) hf
      · exact hg
    · rw [if_neg hf, if_neg (fun h' => hf (k1.gates_nil.1 h'))]
      exact Lock.pure k1
  refine Lock.bind h2 ?_
  intro p2 v2 k3
  refine Lock.dataC (hs.good.encD_length _) (by decide) ?_
  obtain ⟨l1, l2⟩ := k3.noCheat hs hcl
  simp only [hs.good.decD_encD, verFinHash, l2, if_true]
  exact Lock.pure ⟨k3.outs.1, k3.outs.2, l1⟩

end

/-! ### sizes of batches -/

theorem nextBatches_append (sz g : Nat) (l l' : List Bool) : nextBatches sz g (l ++ l') = nextBatches sz (nextBatches sz g l) l' :=
  List.foldl_append

theorem lastBatch_succ {sz : Nat} (hsz : 0 < sz) (n : Nat) :
    lastBatch (n + 1) sz = (if lastBatch n sz = sz then 0 else lastBatch n sz) + 1 := by
  unfold lastBatch
  rw [if_neg (by omega), Nat.add_sub_cancel]
  by_cases h0 : n = 0
  · subst h0
    simp only [if_true, Nat.zero_mod]
    rw [if_neg (by omega)]
  · rw [if_neg h0]
    have hl := Nat.mod_lt (n - 1) hsz
    have e : n % sz = ((n - 1) % sz + 1) % sz := by
      conv_lhs => rw [show n = (n - 1) + 1 by omega, Nat.add_mod]
      by_cases h1 : sz = 1
      · subst h1; simp [Nat.mod_one]
      · rw [Nat.mod_eq_of_lt (show 1 < sz by omega)]
    by_cases h1 : (n - 1) % sz + 1 = sz
    · rw [if_pos h1, e, h1, Nat.mod_self]
    · rw [if_neg h1, e, Nat.mod_eq_of_lt (by omega)]

theorem nextBatches_eq {sz : Nat} (hsz : 0 < sz) (l : List Bool) : ∀ n : Nat,
    nextBatches sz (lastBatch n sz) l = lastBatch (n + l.countP id) sz := by
  induction l with
  | nil => intro n; rfl
  | cons b l ih =>
    intro n
    simp only [nextBatches, List.foldl_cons] at *
    cases b with
    | false => simpa [nextBatch] using ih n
    | true =>
      rw [nextBatch, if_pos rfl, ← lastBatch_succ hsz, ih]
      congr 1
      simp; omega

end EmpZk
