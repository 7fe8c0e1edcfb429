/-
A program with a memory as a mixed session: its instructions do on plain values what the program says.
-/
import Verif.Lemmas.MixMem
import Verif.Lemmas.ZkRamHonest
import Verif.Spec.RamNet

namespace EmpZk

/-! ### bits and numbers -/

theorem bitsNum_cons (b : Bool) (bs : List Bool) : bitsNum (b :: bs) = b.toNat + 2 * bitsNum bs := rfl

theorem bitsNum_lt (bs : List Bool) : bitsNum bs < 2 ^ bs.length := by
  induction bs with
  | nil => simp [bitsNum]
  | cons b bs ih =>
    rw [bitsNum_cons, List.length_cons, pow_succ]
    have := Bool.toNat_lt b
    omega

theorem bitsNum_testBit (bs : List Bool) : ∀ {i : Nat} {b : Bool}, bs[i]? = some b → (bitsNum bs).testBit i = b := by
  induction bs with
  | nil => intro i b h; simp at h
  | cons a bs ih =>
    intro i b h
    rw [bitsNum_cons]
    cases i with
    | zero =>
      simp only [List.getElem?_cons_zero, Option.some.injEq] at h
      subst h
      rw [Nat.testBit_zero, Nat.add_mul_mod_self_left]
      cases a <;> rfl
    | succ i =>
      simp only [List.getElem?_cons_succ] at h
      rw [Nat.testBit_succ, ← ih h]
      congr 1
      have := Bool.toNat_lt a
      omega

theorem bitsOf_length (w x : Nat) : (bitsOf w x).length = w := by simp [bitsOf]

theorem take_bitsNum {n : Nat} {bs : List Bool} (h : n ≤ bs.length) : bs.take n = bitsOf n (bitsNum bs) := by
  apply List.ext_getElem
  · simp [bitsOf_length, h]
  · intro i h1 h2
    simp only [List.getElem_take, bitsOf, List.getElem_map, List.getElem_range]
    rw [bitsNum_testBit bs (b := bs[i]'(by simp at h1; omega)) (List.getElem?_eq_getElem _)]

theorem bitsNum_bitsOf (w x : Nat) : bitsNum (bitsOf w x) = x % 2 ^ w := by
  apply Nat.eq_of_testBit_eq
  intro i
  rw [Nat.testBit_mod_two_pow]
  by_cases hi : i < w
  · rw [decide_eq_true hi, Bool.true_and]
    exact bitsNum_testBit _ (by simp [bitsOf, hi])
  · rw [decide_eq_false hi, Bool.false_and]
    apply Nat.testBit_lt_two_pow
    have := bitsNum_lt (bitsOf w x)
    rw [bitsOf_length] at this
    exact lt_of_lt_of_le this (Nat.pow_le_pow_right (by decide) (by omega))

theorem bitsOf_eq_iff {w x y : Nat} (hx : x < 2 ^ w) (hy : y < 2 ^ w) : bitsOf w x = bitsOf w y ↔ x = y := by
  constructor
  · intro h
    have := congrArg bitsNum h
    rwa [bitsNum_bitsOf, bitsNum_bitsOf, Nat.mod_eq_of_lt hx, Nat.mod_eq_of_lt hy] at this
  · rintro rfl; rfl

theorem pick_take {α : Type} {l : List α} {g : List Nat} {es : List α} (n : Nat) (h : pick l g = some es) :
    pick l (g.take n) = some (es.take n) := by
  induction g generalizing es n with
  | nil => rw [pick_nil] at h; cases h; simp [pick_nil]
  | cons i g ih =>
    rw [pick_cons] at h
    simp only [Option.bind_eq_some_iff, Option.map_eq_some_iff] at h
    obtain ⟨a, ha, r, hr, rfl⟩ := h
    cases n with
    | zero => rfl
    | succ n => rw [List.take_succ_cons, List.take_succ_cons, pick_cons, ha, ih n hr]; rfl

theorem pick_mid {α : Type} (l t r : List α) {n k : Nat} (hn : n = l.length) (hk : k = t.length) :
    pick (l ++ (t ++ r)) (List.range' n k) = some t := by
  subst hn hk
  rw [← List.append_assoc]
  exact pick_append _ (pick_range' l t)

section
variable {F : Type} [Field F] [BlockField F]

/-- The bits of a row, packed. -/
theorem packList_row {c : RamCfg} (hc : c.Ok) (e : RamEnt) :
    (packList (bitsOf c.vsz e.val ++ e.op :: (bitsOf c.ssz e.step ++ bitsOf c.isz e.idx)) : F) = wordF (ramPacked c e) := by
  rw [wordF_packed hc, packList_eq, List.map_append, innFrom_append, List.map_cons, innFrom, List.map_append, innFrom_append]
  simp only [bitsOf, List.map_map, List.length_map, List.length_range]
  rw [innFrom_map, innFrom_map, innFrom_map]
  simp only [Finset.sum_range_one, Function.comp_apply, Nat.zero_add, Nat.add_zero]
  have : e.op.toNat.testBit 0 = e.op := by cases e.op <;> rfl
  rw [this]
  ring

variable [DecidableEq F]

/-! ### single instructions on plain values -/

theorem mplain_bools (ch : Nat → F) (l : List BOp) : ∀ (s : MPlain F),
    mplainOps ch s (l.map MOp.bool) = (l.foldlM plainStep s.bp).map (fun b => { s with bp := b }) := by
  induction l with
  | nil => intro s; rfl
  | cons o l ih =>
    intro s
    rw [List.map_cons, mplainOps_cons, List.foldlM_cons]
    simp only [mplainStep]
    cases plainStep s.bp o with
    | none => rfl
    | some b => simp only [Option.map_some, Option.bind_some, ih, Option.bind_eq_bind]

omit [Field F] [BlockField F] [DecidableEq F] in
theorem plain_inputs (bs : List Bool) : ∀ (b : Plain), (bs.map BOp.input).foldlM plainStep b = some { b with wires := b.wires ++ bs } := by
  induction bs with
  | nil => intro b; simp
  | cons x bs ih => intro b; rw [List.map_cons, List.foldlM_cons]; simp only [plainStep, Option.bind_eq_bind, Option.bind_some, ih]; simp

omit [Field F] [BlockField F] [DecidableEq F] in
theorem plain_pubs (bs : List Bool) : ∀ (b : Plain), (bs.map BOp.pub).foldlM plainStep b = some { b with wires := b.wires ++ bs } := by
  induction bs with
  | nil => intro b; simp
  | cons x bs ih => intro b; rw [List.map_cons, List.foldlM_cons]; simp only [plainStep, Option.bind_eq_bind, Option.bind_some, ih]; simp

theorem mplain_inInt (ch : Nat → F) (w x : Nat) (s : MPlain F) :
    mplainOps ch s (inInt w x) = some { s with bp := { s.bp with wires := s.bp.wires ++ bitsOf w x } } := by
  have : inInt w x = ((bitsOf w x).map BOp.input).map MOp.bool := by simp [inInt]
  rw [this, mplain_bools, plain_inputs]; rfl

theorem mplain_pubInt (ch : Nat → F) (w x : Nat) (s : MPlain F) :
    mplainOps ch s (pubInt w x) = some { s with bp := { s.bp with wires := s.bp.wires ++ bitsOf w x } } := by
  have : pubInt w x = ((bitsOf w x).map BOp.pub).map MOp.bool := by simp [pubInt]
  rw [this, mplain_bools, plain_pubs]; rfl

/-- Packing the wires of an access. -/
theorem mplain_pack {c : RamCfg} (hc : c.Ok) {s : MPlain F} {ix vs st : List Nat} {op : Nat} {ib vb sb : List Bool} {ob : Bool}
    (hi : pick s.bp.wires ix = some ib) (hv : pick s.bp.wires vs = some vb) (hs : pick s.bp.wires st = some sb) (ho : s.bp.wires[op]? = some ob)
    (li : c.isz ≤ ix.length) (lv : c.vsz ≤ vs.length) (ls : c.ssz ≤ st.length) :
    ∃ ws, packWires c ix vs st op = some ws ∧ ∀ ch,
      mplainStep ch s (.pack ws) = some { s with fs := s.fs ++ [wordF (ramPacked c ⟨bitsNum ib, bitsNum sb, ob, bitsNum vb⟩)] } := by
  have h1 := pick_length hi
  have h2 := pick_length hv
  have h3 := pick_length hs
  obtain ⟨c1, c2, c3⟩ := hc
  refine ⟨_, by rw [packWires, if_pos ⟨li, lv, ls⟩], fun ch => ?_⟩
  have hp : pick s.bp.wires (vs.take c.vsz ++ op :: (st.take c.ssz ++ ix.take c.isz)) =
      some (vb.take c.vsz ++ ob :: (sb.take c.ssz ++ ib.take c.isz)) := by
    refine pick_append_idx (pick_take _ hv) ?_
    rw [pick_cons, ho, pick_append_idx (pick_take _ hs) (pick_take _ hi)]
    rfl
  simp only [mplainStep, hp, Option.bind_eq_bind, Option.bind_some]
  rw [if_pos (by simp only [List.length_append, List.length_take, List.length_cons]; omega), take_bitsNum (by omega), take_bitsNum (by omega),
    take_bitsNum (by omega), ← packList_row ⟨c1, c2, c3⟩]

/-! ### the calls of a program -/

omit [Field F] [BlockField F] [DecidableEq F] in
theorem RamInv.log_eq {c : RamCfg} {st : RamState} {l : List (Acc Nat)} (h : RamInv c st l) :
    st.log = l.mapIdx (fun i a => (⟨a.idx, i, a.op, a.val⟩ : RamEnt)) := by
  apply List.ext_getElem
  · rw [List.length_mapIdx, ← h.acc, List.length_map]
  · intro i h1 h2
    have h3 := h.steps i h1
    have h4 : ∀ hh, l[i]'hh = st.log[i].acc := by
      intro hh
      simp only [← h.acc, List.getElem_map]
    rw [List.getElem_mapIdx, h4]
    rcases hx : st.log[i] with ⟨a, b, d, e⟩
    rw [hx] at h3
    subst h3
    rfl

omit [Field F] [BlockField F] [DecidableEq F] in
theorem RamInv.log_step {c : RamCfg} {st st' : RamState} {l : List (Acc Nat)} {e : Acc Nat} (h : RamInv c st l) (h' : RamInv c st' (l ++ [e])) :
    st'.log = st.log ++ [⟨e.idx, st.step, e.op, e.val⟩] := by
  rw [h'.log_eq, List.mapIdx_concat, ← h.log_eq, h.step, ← h.acc, List.length_map]

omit [Field F] [BlockField F] [DecidableEq F] in
theorem RamInv.step_eq {c : RamCfg} {st : RamState} {l : List (Acc Nat)} (h : RamInv c st l) : st.step = l.length := by
  rw [h.step, ← h.acc, List.length_map]

/-- The generator, the specification and the plain session agree. -/
structure RSim (c : RamCfg) (g : RNet) (u : UPlain) (s : MPlain F) : Prop where
  bp : s.bp = u.bp
  bits : g.bits = u.bp.wires
  nf : g.nf = s.fs.length
  inv : RamInv c g.ram u.log
  macs : pick s.fs g.macs = some (g.ram.log.map (fun e => wordF (ramPacked c e)))
  rs : s.rs = []

/-- One access: its packed block. -/
theorem RSim.push {c : RamCfg} {g : RNet} {u : UPlain} {s : MPlain F} (h : RSim c g u s) {ram : RamState} {e : Acc Nat} {bs : List Bool} {b' : Plain}
    (hr : RamInv c ram (u.log ++ [e])) (hw : b' = { s.bp with wires := s.bp.wires ++ bs }) :
    RSim c ⟨g.bits ++ bs, g.nf + 1, ram, g.macs ++ [g.nf]⟩ ⟨{ u.bp with wires := u.bp.wires ++ bs }, u.log ++ [e]⟩
      ⟨b', s.fs ++ [(wordF (ramPacked c ⟨e.idx, g.ram.step, e.op, e.val⟩) : F)], s.rs⟩ where
  bp := by rw [hw, h.bp]
  bits := by rw [h.bits]
  nf := by simp [h.nf]
  inv := hr
  macs := by
    show pick (s.fs ++ _) (g.macs ++ [g.nf]) = _
    rw [h.inv.log_step hr, List.map_append]
    refine pick_append_idx (pick_append _ h.macs) ?_
    rw [pick_cons, h.nf, List.getElem?_concat_length]
    rfl
  rs := h.rs

omit [Field F] [BlockField F] [DecidableEq F] in
theorem plainStep_wires {b b' : Plain} {o : BOp} (outs claims : List Bool) (h : plainStep b o = some b') :
    ∃ b2, plainStep ⟨b.wires, outs, claims⟩ o = some b2 ∧ b2.wires = b'.wires := by
  cases o <;> simp only [plainStep, Option.bind_eq_bind, Option.bind_eq_some_iff, Option.some.injEq] at h ⊢
  case input => subst h; exact ⟨_, rfl, rfl⟩
  case pub => subst h; exact ⟨_, rfl, rfl⟩
  case xor => obtain ⟨x, hx, y, hy, rfl⟩ := h; exact ⟨_, ⟨x, hx, y, hy, rfl⟩, rfl⟩
  case not => obtain ⟨x, hx, rfl⟩ := h; exact ⟨_, ⟨x, hx, rfl⟩, rfl⟩
  case and => obtain ⟨x, hx, y, hy, rfl⟩ := h; exact ⟨_, ⟨x, hx, y, hy, rfl⟩, rfl⟩
  case reveal => obtain ⟨x, hx, rfl⟩ := h; exact ⟨_, ⟨x, hx, rfl⟩, rfl⟩
  case poly => obtain ⟨x, hx, rfl⟩ := h; exact ⟨_, ⟨x, hx, rfl⟩, rfl⟩

/-- The end of each access. -/
theorem rsim_acc {c : RamCfg} (hc : c.Ok) {g : RNet} {u : UPlain} {s : MPlain F} (h : RSim c g u s) {ram : RamState} {e : Acc Nat}
    (hr : RamInv c ram (u.log ++ [e])) (hstep : g.ram.step < 2 ^ c.ssz) {new fl : List Bool} {ops : List MOp} {ix vs : List Nat} {op : Nat}
    {ib vb : List Bool}
    (hops : ∀ ch, mplainOps ch s ops = some { s with bp := { s.bp with wires := s.bp.wires ++ (new ++ (bitsOf c.ssz g.ram.step ++ fl)) } })
    (hi : pick (s.bp.wires ++ (new ++ (bitsOf c.ssz g.ram.step ++ fl))) ix = some ib)
    (hv : pick (s.bp.wires ++ (new ++ (bitsOf c.ssz g.ram.step ++ fl))) vs = some vb)
    (ho : (s.bp.wires ++ (new ++ (bitsOf c.ssz g.ram.step ++ fl)))[op]? = some e.op)
    (li : c.isz ≤ ix.length) (lv : c.vsz ≤ vs.length) (ei : bitsNum ib = e.idx) (ev : bitsNum vb = e.val) :
    ∃ ws s', packWires c ix vs (List.range' (g.bits.length + new.length) c.ssz) op = some ws ∧
      RSim c ⟨g.bits ++ (new ++ (bitsOf c.ssz g.ram.step ++ fl)), g.nf + 1, ram, g.macs ++ [g.nf]⟩ (u.push c e new fl) s' ∧
      ∀ ch, mplainOps ch s (ops ++ [MOp.pack ws]) = some s' := by
  have hn : g.bits.length = s.bp.wires.length := by rw [h.bits, h.bp]
  have hst := h.inv.step_eq
  obtain ⟨ws, p1, p2⟩ := mplain_pack hc (s := { s with bp := { s.bp with wires := s.bp.wires ++ (new ++ (bitsOf c.ssz g.ram.step ++ fl)) } })
    (ix := ix) (vs := vs) (st := List.range' (g.bits.length + new.length) c.ssz) (op := op) (ib := ib) (vb := vb)
    (sb := bitsOf c.ssz g.ram.step) (ob := e.op) hi hv
    (by
      show pick (s.bp.wires ++ (new ++ (bitsOf c.ssz g.ram.step ++ fl))) _ = _
      rw [← List.append_assoc]
      exact pick_mid _ _ _ (by rw [List.length_append, hn]) (bitsOf_length _ _).symm)
    ho li lv (by simp)
  rw [ei, ev, bitsNum_bitsOf, Nat.mod_eq_of_lt hstep] at p2
  have hp := h.push (bs := new ++ (bitsOf c.ssz g.ram.step ++ fl)) hr rfl
  refine ⟨ws, ⟨{ s.bp with wires := s.bp.wires ++ (new ++ (bitsOf c.ssz g.ram.step ++ fl)) },
    s.fs ++ [wordF (ramPacked c ⟨e.idx, g.ram.step, e.op, e.val⟩)], s.rs⟩, p1, ?_, fun ch => ?_⟩
  · rw [UPlain.push, ← hst]
    exact hp
  · rw [mplainOps_append, hops, Option.bind_some, mplainOps_cons, p2, Option.bind_some]
    rfl

omit [Field F] [BlockField F] [DecidableEq F] in
theorem mixMuls_append (a b : List MOp) : mixMuls (a ++ b) = mixMuls a + mixMuls b := List.countP_append

omit [Field F] [BlockField F] [DecidableEq F] in
theorem mixMuls_bools (l : List BOp) : mixMuls (l.map MOp.bool) = 0 := by
  rw [mixMuls, List.countP_map, List.countP_eq_zero]; intro o _; simp [MOp.isMul]

omit [Field F] [BlockField F] [DecidableEq F] in
theorem mixMuls_inInt (w x : Nat) : mixMuls (inInt w x) = 0 := by
  have : inInt w x = ((bitsOf w x).map BOp.input).map MOp.bool := by simp [inInt]
  rw [this, mixMuls_bools]

omit [Field F] [BlockField F] [DecidableEq F] in
theorem mixMuls_pubInt (w x : Nat) : mixMuls (pubInt w x) = 0 := by
  have : pubInt w x = ((bitsOf w x).map BOp.pub).map MOp.bool := by simp [pubInt]
  rw [this, mixMuls_bools]

/-- A boolean instruction. -/
theorem rsim_bool {c : RamCfg} {g : RNet} {u u' : UPlain} {s : MPlain F} (h : RSim c g u s) {o : BOp} (ho : uplainStep c u (.bool o) = some u') :
    ∃ ops g' s', uGen c g (.bool o) = some (ops, g') ∧ RSim c g' u' s' ∧ mixMuls ops = 0 ∧ ∀ ch, mplainOps ch s ops = some s' := by
  simp only [uplainStep, Option.map_eq_some_iff] at ho
  obtain ⟨b, hb, rfl⟩ := ho
  refine ⟨[MOp.bool o], { g with bits := b.wires }, { s with bp := b }, ?_, ⟨rfl, rfl, h.nf, h.inv, h.macs, h.rs⟩, mixMuls_bools [o], ?_⟩
  · obtain ⟨b2, h2, h3⟩ := plainStep_wires [] [] hb
    simp only [uGen, Option.bind_eq_bind, h.bits, h2, Option.bind_some, h3]
  · intro ch
    rw [mplainOps_cons]
    simp only [mplainStep, h.bp, hb, Option.map_some, Option.bind_some]
    rfl

omit [Field F] [BlockField F] [DecidableEq F] in
theorem uplainStep_log {c : RamCfg} {u u' : UPlain} {o : UOp} (h : uplainStep c u o = some u') :
    u.log.length ≤ u'.log.length ∧ (u'.log.length ≤ u.log.length → ∃ b, o = .bool b) := by
  cases o <;> simp only [uplainStep, Option.bind_eq_bind, Option.bind_eq_some_iff, Option.map_eq_some_iff] at h
  case bool o => obtain ⟨b, _, rfl⟩ := h; exact ⟨le_refl _, fun _ => ⟨o, rfl⟩⟩
  case read =>
    obtain ⟨ib, _, h⟩ := h
    split at h
    · cases h; simp [UPlain.push]
    · cases h
  case write =>
    obtain ⟨ib, _, vb, _, h⟩ := h
    split at h
    · cases h; simp [UPlain.push]
    · cases h
  case access =>
    obtain ⟨ib, _, ob, _, vb, _, h⟩ := h
    split at h
    · cases h; simp [UPlain.push]
    · cases h

omit [Field F] [BlockField F] [DecidableEq F] in
theorem uplainOps_log {c : RamCfg} (us : List UOp) : ∀ {u u' : UPlain}, us.foldlM (uplainStep c) u = some u' → u.log.length ≤ u'.log.length := by
  induction us with
  | nil => intro u u' h; rw [List.foldlM_nil] at h; cases h; exact le_refl _
  | cons o us ih =>
    intro u u' h
    rw [List.foldlM_cons] at h
    simp only [Option.bind_eq_bind, Option.bind_eq_some_iff] at h
    obtain ⟨u1, h1, h2⟩ := h
    exact le_trans (uplainStep_log h1).1 (ih h2)

/-- One call. -/
theorem rsim_step {c : RamCfg} (hc : c.Ok) {g : RNet} {u u' : UPlain} {s : MPlain F} (h : RSim c g u s) (hlen : u.log.length < 2 ^ c.ssz)
    {o : UOp} (ho : uplainStep c u o = some u') :
    ∃ ops g' s', uGen c g o = some (ops, g') ∧ RSim c g' u' s' ∧ mixMuls ops = 0 ∧ ∀ ch, mplainOps ch s ops = some s' := by
  have hst := h.inv.step_eq
  have hstep : g.ram.step < 2 ^ c.ssz := by omega
  have hn : g.bits.length = s.bp.wires.length := by rw [h.bits, h.bp]
  cases o with
  | bool o => exact rsim_bool h ho
  | read ix =>
    simp only [uplainStep, Option.bind_eq_bind, Option.bind_eq_some_iff] at ho
    obtain ⟨ib, hib, ho⟩ := ho
    split at ho
    · rename_i hi
      rw [Option.some.injEq] at ho
      subst ho
      obtain ⟨ram, k1, k2, k3⟩ := ramStep_inv hc h.inv hstep (.read (bitsNum ib)) hi.2
      simp only [ramStep, RamOp.result, RamOp.spec, Option.map_eq_some_iff, Prod.mk.injEq, Option.some.injEq] at k1 k3
      obtain ⟨⟨r1, r2⟩, k1, rfl, rfl⟩ := k1
      set v := (lastWrite u.log (bitsNum ib)).getD 0 with hv
      have hvl : v < 2 ^ c.vsz := h.inv.lw _
      have hb : pick g.bits ix = some ib := by rw [h.bits]; exact hib
      obtain ⟨ws, s', p1, p2, p3⟩ := rsim_acc hc h k3 hstep (new := bitsOf c.vsz v) (fl := [false])
        (ops := inInt c.vsz v ++ (pubInt c.ssz g.ram.step ++ [MOp.bool (.pub false)])) (ix := ix) (vs := List.range' g.bits.length c.vsz)
        (op := g.bits.length + c.vsz + c.ssz) (ib := ib) (vb := bitsOf c.vsz v)
        (by
          intro ch
          rw [mplainOps_append, mplain_inInt, Option.bind_some, mplainOps_append, mplain_pubInt, Option.bind_some, mplainOps_cons]
          simp only [mplainStep, plainStep, Option.map_some, Option.bind_some, List.append_assoc]
          rfl)
        (by rw [h.bp]; exact pick_append _ hib)
        (pick_mid _ _ _ hn (bitsOf_length _ _).symm)
        (by
          rw [← List.append_assoc, ← List.append_assoc]
          have : g.bits.length + c.vsz + c.ssz = (s.bp.wires ++ bitsOf c.vsz v ++ bitsOf c.ssz g.ram.step).length := by
            simp only [List.length_append, bitsOf_length, hn]
          rw [this, List.getElem?_concat_length])
        hi.1 (by simp) rfl (by rw [bitsNum_bitsOf, Nat.mod_eq_of_lt hvl])
      rw [bitsOf_length] at p1
      refine ⟨_, _, s', ?_, p2, ?_, p3⟩
      · simp only [uGen, hb, k1, p1, Option.bind_eq_bind, Option.bind_some]
        simp only [List.append_assoc, List.cons_append, List.nil_append]
      · simp only [mixMuls_append, mixMuls_inInt, mixMuls_pubInt]; rfl
    · cases ho
  | write ix vs =>
    simp only [uplainStep, Option.bind_eq_bind, Option.bind_eq_some_iff] at ho
    obtain ⟨ib, hib, vb, hvb, ho⟩ := ho
    split at ho
    · rename_i hi
      rw [Option.some.injEq] at ho
      subst ho
      obtain ⟨ram, k1, k2, k3⟩ := ramStep_inv hc h.inv hstep (.write (bitsNum ib) (bitsNum vb)) ⟨hi.2.1, hi.2.2.2⟩
      simp only [ramStep, RamOp.result, RamOp.spec, Option.map_eq_some_iff, Prod.mk.injEq, and_true] at k1 k3
      obtain ⟨r1, k1, rfl⟩ := k1
      have hb : pick g.bits ix = some ib := by rw [h.bits]; exact hib
      have hb' : pick g.bits vs = some vb := by rw [h.bits]; exact hvb
      obtain ⟨ws, s', p1, p2, p3⟩ := rsim_acc hc h k3 hstep (new := []) (fl := [true])
        (ops := pubInt c.ssz g.ram.step ++ [MOp.bool (.pub true)]) (ix := ix) (vs := vs)
        (op := g.bits.length + c.ssz) (ib := ib) (vb := vb)
        (by
          intro ch
          rw [mplainOps_append, mplain_pubInt, Option.bind_some, mplainOps_cons]
          simp only [mplainStep, plainStep, Option.map_some, Option.bind_some, List.append_assoc, List.nil_append]
          rfl)
        (by rw [h.bp]; exact pick_append _ hib)
        (by rw [h.bp]; exact pick_append _ hvb)
        (by
          rw [List.nil_append, ← List.append_assoc]
          have : g.bits.length + c.ssz = (s.bp.wires ++ bitsOf c.ssz g.ram.step).length := by
            simp only [List.length_append, bitsOf_length, hn]
          rw [this, List.getElem?_concat_length])
        hi.1 hi.2.2.1 rfl rfl
      rw [List.length_nil, Nat.add_zero] at p1
      refine ⟨_, _, s', ?_, p2, ?_, p3⟩
      · simp only [uGen, hb, hb', k1, p1, Option.bind_eq_bind, Option.bind_some]
        simp only [List.append_assoc, List.cons_append, List.nil_append]
      · simp only [mixMuls_append, mixMuls_inInt, mixMuls_pubInt]; rfl
    · cases ho
  | access op ix vs =>
    simp only [uplainStep, Option.bind_eq_bind, Option.bind_eq_some_iff] at ho
    obtain ⟨ib, hib, ob, hob, vb, hvb, ho⟩ := ho
    split at ho
    · rename_i hi
      rw [Option.some.injEq] at ho
      subst ho
      obtain ⟨ram, k1, k2, k3⟩ := ramStep_inv hc h.inv hstep (.access ob (bitsNum ib) (bitsNum vb)) ⟨hi.2.1, hi.2.2⟩
      simp only [ramStep, RamOp.result, RamOp.spec, Option.map_eq_some_iff, Prod.mk.injEq, Option.some.injEq] at k1 k3
      obtain ⟨⟨r1, r2⟩, k1, rfl, rfl⟩ := k1
      set v := (if ob = true then bitsNum vb else (lastWrite u.log (bitsNum ib)).getD 0) with hv
      have hvl : v < 2 ^ c.vsz := by rw [hv]; split; exacts [hi.2.2, h.inv.lw _]
      have hb : pick g.bits ix = some ib := by rw [h.bits]; exact hib
      have hb' : pick g.bits vs = some vb := by rw [h.bits]; exact hvb
      have hb'' : g.bits[op]? = some ob := by rw [h.bits]; exact hob
      obtain ⟨ws, s', p1, p2, p3⟩ := rsim_acc hc h k3 hstep (new := bitsOf c.vsz v) (fl := [])
        (ops := inInt c.vsz v ++ pubInt c.ssz g.ram.step) (ix := ix) (vs := List.range' g.bits.length c.vsz)
        (op := op) (ib := ib) (vb := bitsOf c.vsz v)
        (by
          intro ch
          rw [mplainOps_append, mplain_inInt, Option.bind_some, mplain_pubInt]
          simp only [List.append_assoc, List.append_nil])
        (by rw [h.bp]; exact pick_append _ hib)
        (pick_mid _ _ _ hn (bitsOf_length _ _).symm)
        (by rw [h.bp, List.getElem?_append_left (List.getElem?_eq_some_iff.1 hob).1]; exact hob)
        hi.1 (by simp) rfl (by rw [bitsNum_bitsOf, Nat.mod_eq_of_lt hvl])
      rw [bitsOf_length] at p1
      refine ⟨_, _, s', ?_, p2, ?_, p3⟩
      · simp only [uGen, hb, hb', hb'', k1, p1, Option.bind_eq_bind, Option.bind_some]
        simp only [List.append_assoc, List.append_nil]
      · simp only [mixMuls_append, mixMuls_inInt, mixMuls_pubInt]; rfl
    · cases ho

/-- All calls. -/
theorem rsim_steps {c : RamCfg} (hc : c.Ok) (us : List UOp) : ∀ {g : RNet} {u u' : UPlain} {s : MPlain F}, RSim c g u s →
    u'.log.length ≤ 2 ^ c.ssz → uplainOps c u us = some u' →
    ∃ ops g' s', uGens c g us = some (ops, g') ∧ RSim c g' u' s' ∧ mixMuls ops = 0 ∧ ∀ ch, mplainOps ch s ops = some s' := by
  induction us with
  | nil =>
    intro g u u' s h _ hu
    rw [uplainOps, List.foldlM_nil] at hu
    cases hu
    exact ⟨[], g, s, rfl, h, rfl, fun _ => rfl⟩
  | cons o us ih =>
    intro g u u' s h hlen hu
    rw [uplainOps, List.foldlM_cons] at hu
    simp only [Option.bind_eq_bind, Option.bind_eq_some_iff] at hu
    obtain ⟨u1, h1, h2⟩ := hu
    have hmono := uplainOps_log us h2
    have hmono1 := uplainStep_log h1
    by_cases hl : u.log.length < 2 ^ c.ssz
    · obtain ⟨a, g1, s1, k1, k2, k3, k4⟩ := rsim_step hc h hl h1
      obtain ⟨b, g2, s2, l1, l2, l3, l4⟩ := ih k2 hlen h2
      refine ⟨a ++ b, g2, s2, ?_, l2, by rw [mixMuls_append, k3, l3], fun ch => by rw [mplainOps_append, k4, Option.bind_some, l4]⟩
      simp only [uGens, k1, l1, Option.bind_eq_bind, Option.bind_some]
    · -- the log is full: only boolean instructions are left
      obtain ⟨b, rfl⟩ := hmono1.2 (by omega)
      obtain ⟨a, g1, s1, k1, k2, k3, k4⟩ := rsim_bool h h1
      obtain ⟨b, g2, s2, l1, l2, l3, l4⟩ := ih k2 hlen h2
      refine ⟨a ++ b, g2, s2, ?_, l2, by rw [mixMuls_append, k3, l3], fun ch => by rw [mplainOps_append, k4, Option.bind_some, l4]⟩
      simp only [uGens, k1, l1, Option.bind_eq_bind, Option.bind_some]

end
end EmpZk
