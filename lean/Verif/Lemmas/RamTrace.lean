/-
Programs with a memory whose input bits are replaced: the plain session of the replaced instructions is a run of the program with arbitrary
values of the reads, and the check compares the rows that were put in with its accesses.
-/
import Verif.Lemmas.RamCheckNet
import Verif.Spec.RamTrace
import Verif.Spec.MixCommit

namespace EmpZk

/-! ### the same instructions up to inputs -/

theorem same_bools {l : List BOp} : ∀ {l' : List MOp}, List.Forall₂ MOp.same (l.map MOp.bool) l' →
    ∃ k, l' = k.map MOp.bool ∧ List.Forall₂ BOp.same l k := by
  induction l with
  | nil => intro l' h; cases h; exact ⟨[], rfl, .nil⟩
  | cons o l ih =>
    intro l' h
    rw [List.map_cons] at h
    cases h with
    | @cons _ o' _ l'' h1 h2 =>
      obtain ⟨k, rfl, hk⟩ := ih h2
      cases o' with
      | bool o' => exact ⟨o' :: k, rfl, .cons h1 hk⟩
      | _ => simp [MOp.same] at h1

theorem same_inputs_bits {bs : List Bool} : ∀ {l : List BOp}, List.Forall₂ BOp.same (bs.map BOp.input) l →
    ∃ ds : List Bool, ds.length = bs.length ∧ l = ds.map BOp.input := by
  induction bs with
  | nil => intro l h; cases h; exact ⟨[], rfl, rfl⟩
  | cons b bs ih =>
    intro l h
    rw [List.map_cons] at h
    cases h with
    | @cons _ o' _ l'' h1 h2 =>
      obtain ⟨ds, hd, rfl⟩ := ih h2
      cases o' with
      | input b' => exact ⟨b' :: ds, by simp [hd], rfl⟩
      | _ => simp [BOp.same] at h1

/-- Instructions that are not inputs stay as they are. -/
def MOp.noIn : MOp → Bool
  | .bool (.input _) => false
  | _ => true

theorem bsame_one {o o' : BOp} (h : BOp.same o o') (hn : ∀ b, o ≠ .input b) : o' = o := by
  unfold BOp.same at h
  split at h
  · exact absurd rfl (hn _)
  · exact h.symm

theorem same_one {o o' : MOp} (h : MOp.same o o') (hn : o.noIn = true) : o' = o := by
  unfold MOp.same at h
  split at h
  · rename_i a b
    rw [bsame_one h]
    rintro x rfl
    cases hn
  · exact h.symm

theorem same_eq {l : List MOp} : ∀ {l' : List MOp}, List.Forall₂ MOp.same l l' → (∀ o ∈ l, o.noIn = true) → l' = l := by
  induction l with
  | nil => intro l' h _; cases h; rfl
  | cons o l ih =>
    intro l' h hn
    cases h with
    | @cons _ o' _ l'' h1 h2 =>
      rw [ih h2 (fun x hx => hn x (by simp [hx]))]
      rw [same_one h1 (hn o (by simp))]

theorem same_split {a b : List MOp} {l : List MOp} (h : List.Forall₂ MOp.same (a ++ b) l) :
    ∃ a' b', l = a' ++ b' ∧ List.Forall₂ MOp.same a a' ∧ List.Forall₂ MOp.same b b' := by
  induction a generalizing l with
  | nil => exact ⟨[], l, rfl, .nil, h⟩
  | cons o a ih =>
    rw [List.cons_append] at h
    cases h with
    | cons h1 h2 =>
      obtain ⟨a', b', rfl, h3, h4⟩ := ih h2
      exact ⟨_ :: a', b', rfl, .cons h1 h3, h4⟩

theorem same_inInt {w x : Nat} {l : List MOp} (h : List.Forall₂ MOp.same (inInt w x) l) : ∃ v, v < 2 ^ w ∧ l = inInt w v := by
  have e : ∀ y, inInt w y = ((bitsOf w y).map BOp.input).map MOp.bool := fun y => by simp [inInt]
  rw [e] at h
  obtain ⟨k, rfl, hk⟩ := same_bools h
  obtain ⟨ds, hd, rfl⟩ := same_inputs_bits hk
  rw [bitsOf_length] at hd
  refine ⟨bitsNum ds, hd ▸ bitsNum_lt ds, ?_⟩
  rw [e, ← take_bitsNum (by omega), List.take_of_length_le (by omega)]

theorem noIn_pubInt (w x : Nat) : ∀ o ∈ pubInt w x, o.noIn = true := by
  intro o ho
  rw [pubInt, List.mem_map] at ho
  obtain ⟨b, _, rfl⟩ := ho
  rfl

/-! ### the calls -/

theorem rowsOfLog_concat (l : List (Acc Nat)) (e : Acc Nat) : rowsOfLog (l ++ [e]) = rowsOfLog l ++ [⟨e.idx, l.length, e.op, e.val⟩] := by
  rw [rowsOfLog, List.mapIdx_concat]; rfl

theorem rowsOfLog_length (l : List (Acc Nat)) : (rowsOfLog l).length = l.length := by simp [rowsOfLog]

theorem rowsOfLog_acc (l : List (Acc Nat)) : (rowsOfLog l).map RowOf.acc = l := by
  apply List.ext_getElem
  · simp [rowsOfLog]
  · intro i h1 h2
    simp [rowsOfLog, RowOf.acc]

theorem rowsOfLog_step (l : List (Acc Nat)) (i : Nat) (h : i < (rowsOfLog l).length) : (rowsOfLog l)[i].step = i := by simp [rowsOfLog]

section
variable {F : Type} [Field F] [BlockField F]

/-- The generator (on some values), a run of the program with arbitrary reads, and the plain session of the replaced instructions. -/
structure CSim (c : RamCfg) (g : RNet) (u : UPlain) (s : MPlain F) : Prop where
  bp : s.bp = u.bp
  bits : g.bits.length = u.bp.wires.length
  nf : g.nf = u.log.length
  step : g.ram.step = u.log.length
  macs : g.macs = List.range u.log.length
  fs : s.fs = (rowsOfLog u.log).map (fun e => wordF (ramPacked c e))
  rs : s.rs = []
  fits : ∀ e ∈ u.log, e.idx < 2 ^ c.isz ∧ e.val < 2 ^ c.vsz

theorem CSim.push {c : RamCfg} {g : RNet} {u : UPlain} {s : MPlain F} (h : CSim c g u s) {ram : RamState} {e : Acc Nat} {new fl gb : List Bool}
    (hr : ram.step = g.ram.step + 1) (he : e.idx < 2 ^ c.isz ∧ e.val < 2 ^ c.vsz) (hg : gb.length = new.length + (c.ssz + fl.length)) :
    CSim c ⟨g.bits ++ gb, g.nf + 1, ram, g.macs ++ [g.nf]⟩ (u.push c e new fl)
      ⟨{ s.bp with wires := s.bp.wires ++ (new ++ (bitsOf c.ssz u.log.length ++ fl)) }, s.fs ++ [(wordF (ramPacked c ⟨e.idx, u.log.length, e.op, e.val⟩) : F)],
        s.rs⟩ where
  bp := by simp only [UPlain.push, h.bp]
  bits := by
    have := h.bits
    simp only [UPlain.push, List.length_append, bitsOf_length, hg]; omega
  nf := by simp [UPlain.push, h.nf]
  step := by simp [UPlain.push, hr, h.step]
  macs := by simp [UPlain.push, h.macs, h.nf, List.range_succ]
  fs := by simp only [UPlain.push, rowsOfLog_concat, List.map_append, h.fs]; rfl
  rs := h.rs
  fits := by
    intro x hx
    simp only [UPlain.push, List.mem_append, List.mem_singleton] at hx
    rcases hx with hx | rfl
    · exact h.fits x hx
    · exact he

theorem ramPush_step {c : RamCfg} {st st' : RamState} {mem : List Nat} {i a b : Nat} {op : Bool} (h : ramPush c st mem i a b op = some st') :
    st'.step = st.step + 1 := by
  simp only [ramPush, Option.bind_eq_bind, Option.bind_eq_some_iff, Option.some.injEq] at h
  obtain ⟨w, _, rfl⟩ := h
  rfl

theorem pick_of_length {α β : Type} {l : List α} {k : List β} (hl : l.length = k.length) {g : List Nat} {es : List α} (h : pick l g = some es) :
    ∃ fs, pick k g = some fs := by
  induction g generalizing es with
  | nil => exact ⟨[], rfl⟩
  | cons i g ih =>
    rw [pick_cons] at h
    simp only [Option.bind_eq_some_iff, Option.map_eq_some_iff] at h
    obtain ⟨a, ha, r, hr, rfl⟩ := h
    obtain ⟨fs, hf⟩ := ih hr
    have hi := (List.getElem?_eq_some_iff.1 ha).1
    exact ⟨k[i]'(by omega) :: fs, by rw [pick_cons, List.getElem?_eq_getElem (by omega), hf]; rfl⟩

variable [DecidableEq F]

/-- The end of each call. -/
theorem csim_acc {c : RamCfg} (hc : c.Ok) {g : RNet} {u : UPlain} {s : MPlain F} (h : CSim c g u s) {ram : RamState} {e : Acc Nat}
    (hr : ram.step = g.ram.step + 1) (hstep : u.log.length < 2 ^ c.ssz) {new fl gb : List Bool} {ops : List MOp} {ix vs ws : List Nat} {op : Nat}
    {ib vb : List Bool} (hg : gb.length = new.length + (c.ssz + fl.length))
    (hops : ∀ ch, mplainOps ch s ops = some { s with bp := { s.bp with wires := s.bp.wires ++ (new ++ (bitsOf c.ssz u.log.length ++ fl)) } })
    (hi : pick (s.bp.wires ++ (new ++ (bitsOf c.ssz u.log.length ++ fl))) ix = some ib)
    (hv : pick (s.bp.wires ++ (new ++ (bitsOf c.ssz u.log.length ++ fl))) vs = some vb)
    (ho : (s.bp.wires ++ (new ++ (bitsOf c.ssz u.log.length ++ fl)))[op]? = some e.op)
    (li : ix.length = c.isz) (lv : vs.length = c.vsz) (ei : bitsNum ib = e.idx) (ev : bitsNum vb = e.val)
    (hws : packWires c ix vs (List.range' (g.bits.length + new.length) c.ssz) op = some ws) :
    ∃ s', CSim c ⟨g.bits ++ gb, g.nf + 1, ram, g.macs ++ [g.nf]⟩ (u.push c e new fl) s' ∧
      ∀ ch, mplainOps ch s (ops ++ [MOp.pack ws]) = some s' := by
  have hn : g.bits.length = s.bp.wires.length := by rw [h.bits, h.bp]
  obtain ⟨ws', p1, p2⟩ := mplain_pack hc (s := { s with bp := { s.bp with wires := s.bp.wires ++ (new ++ (bitsOf c.ssz u.log.length ++ fl)) } })
    (ix := ix) (vs := vs) (st := List.range' (g.bits.length + new.length) c.ssz) (op := op) (ib := ib) (vb := vb)
    (sb := bitsOf c.ssz u.log.length) (ob := e.op) hi hv
    (by
      show pick (s.bp.wires ++ (new ++ (bitsOf c.ssz u.log.length ++ fl))) _ = _
      rw [← List.append_assoc]
      exact pick_mid _ _ _ (by rw [List.length_append, hn]) (bitsOf_length _ _).symm)
    ho (by omega) (by omega) (by simp)
  rw [hws, Option.some.injEq] at p1
  subst p1
  rw [ei, ev, bitsNum_bitsOf, Nat.mod_eq_of_lt hstep] at p2
  have b1 := bitsNum_lt ib
  have b2 := bitsNum_lt vb
  rw [pick_length hi, li, ei] at b1
  rw [pick_length hv, lv, ev] at b2
  refine ⟨_, h.push hr ⟨b1, b2⟩ hg, fun ch => ?_⟩
  rw [mplainOps_append, hops, Option.bind_some, mplainOps_cons, p2, Option.bind_some]
  rfl

/-- One call. -/
theorem csim_step {c : RamCfg} (hc : c.Ok) {g g' : RNet} {u : UPlain} {s : MPlain F} (h : CSim c g u s) (hlen : u.log.length < 2 ^ c.ssz)
    {o : UOp} (hw : o.Widths c) {ops ops' : List MOp} (hgen : uGen c g o = some (ops, g')) (hs : List.Forall₂ MOp.same ops ops')
    {ch : Nat → F} {s' : MPlain F} (hrun : mplainOps ch s ops' = some s') :
    ∃ o' u', UOp.same o o' ∧ UTraceStep c u o' u' ∧ CSim c g' u' s' := by
  have hn : g.bits.length = s.bp.wires.length := by rw [h.bits, h.bp]
  cases o with
  | bool o =>
    simp only [uGen, Option.bind_eq_bind, Option.bind_eq_some_iff, Option.some.injEq, Prod.mk.injEq] at hgen
    obtain ⟨p, hp, rfl, rfl⟩ := hgen
    obtain ⟨k, rfl, hk⟩ := same_bools (l := [o]) hs
    obtain ⟨o', rfl⟩ : ∃ o', k = [o'] := by
      cases hk with
      | cons _ h2 => cases h2; exact ⟨_, rfl⟩
    have hoo : BOp.same o o' := by cases hk with | cons h1 _ => exact h1
    rw [mplain_bools] at hrun
    simp only [List.foldlM_cons, List.foldlM_nil, Option.bind_eq_bind, Option.map_eq_some_iff, Option.bind_eq_some_iff] at hrun
    obtain ⟨b, ⟨b', hb, hb2⟩, rfl⟩ := hrun
    have hbb : b' = b := by simpa using hb2
    subst hbb
    refine ⟨.bool o', { u with bp := b' }, hoo, ⟨b', by rw [← h.bp]; exact hb, rfl⟩, ⟨rfl, ?_, h.nf, h.step, h.macs, h.fs, h.rs, h.fits⟩⟩
    show p.wires.length = b'.wires.length
    have hl := h.bits
    rw [h.bp] at hb
    cases o <;> cases o' <;> simp only [BOp.same, reduceCtorEq] at hoo <;>
      simp only [plainStep, Option.bind_eq_bind, Option.bind_eq_some_iff, Option.some.injEq] at hp hb
    case input => subst hp hb; simp [hl]
    case pub => subst hp hb; simp [hl]
    case xor => obtain ⟨_, _, _, _, rfl⟩ := hp; obtain ⟨_, _, _, _, rfl⟩ := hb; simp [hl]
    case not => obtain ⟨_, _, rfl⟩ := hp; obtain ⟨_, _, rfl⟩ := hb; simp [hl]
    case and => obtain ⟨_, _, _, _, rfl⟩ := hp; obtain ⟨_, _, _, _, rfl⟩ := hb; simp [hl]
    case reveal => obtain ⟨_, _, rfl⟩ := hp; obtain ⟨_, _, rfl⟩ := hb; exact hl
    case poly => obtain ⟨_, _, rfl⟩ := hp; obtain ⟨_, _, rfl⟩ := hb; exact hl
  | read ix =>
    simp only [uGen, Option.bind_eq_bind, Option.bind_eq_some_iff, Option.some.injEq, Prod.mk.injEq, Prod.exists] at hgen
    obtain ⟨ib0, hib0, ram, v0, hram, ws, hws, rfl, rfl⟩ := hgen
    obtain ⟨a1, a2, rfl, q1, q2⟩ := same_split hs
    obtain ⟨v, hv, rfl⟩ := same_inInt q1
    have := same_eq q2 (by
      intro o ho
      rcases List.mem_append.1 ho with ho | ho
      · exact noIn_pubInt _ _ o ho
      · simp only [List.mem_cons, List.not_mem_nil, or_false] at ho
        rcases ho with rfl | rfl <;> rfl)
    subst this
    obtain ⟨ib, hib⟩ := pick_of_length h.bits hib0
    have hst : ram.step = g.ram.step + 1 := by
      simp only [ramRead, Option.bind_eq_bind, Option.bind_eq_some_iff, Option.some.injEq, Prod.mk.injEq] at hram
      obtain ⟨x, _, st, hst, rfl, _⟩ := hram
      exact ramPush_step hst
    obtain ⟨s1, k1, k2⟩ := csim_acc hc h hst hlen (e := ⟨bitsNum ib, false, v⟩) (new := bitsOf c.vsz v) (fl := [false])
      (gb := bitsOf c.vsz v0 ++ (bitsOf c.ssz g.ram.step ++ [false]))
      (ops := inInt c.vsz v ++ (pubInt c.ssz g.ram.step ++ [MOp.bool (.pub false)])) (ix := ix) (vs := List.range' g.bits.length c.vsz) (ws := ws)
      (op := g.bits.length + c.vsz + c.ssz) (ib := ib) (vb := bitsOf c.vsz v)
      (by simp only [List.length_append, bitsOf_length])
      (by
        intro ch
        rw [mplainOps_append, mplain_inInt, Option.bind_some, mplainOps_append, mplain_pubInt, Option.bind_some, mplainOps_cons, h.step]
        simp only [mplainStep, plainStep, Option.map_some, Option.bind_some, List.append_assoc]
        rfl)
      (by rw [h.bp]; exact pick_append _ hib)
      (pick_mid _ _ _ hn (bitsOf_length _ _).symm)
      (by
        rw [← List.append_assoc, ← List.append_assoc]
        have : g.bits.length + c.vsz + c.ssz = (s.bp.wires ++ bitsOf c.vsz v ++ bitsOf c.ssz u.log.length).length := by
          simp only [List.length_append, bitsOf_length, hn]
        rw [this, List.getElem?_concat_length])
      hw (by simp) rfl (by rw [bitsNum_bitsOf, Nat.mod_eq_of_lt hv]) (by rw [bitsOf_length]; exact hws)
    have k3 := k2 ch
    simp only [List.append_assoc, List.cons_append, List.nil_append] at k3
    rw [hrun, Option.some.injEq] at k3
    subst k3
    exact ⟨.read ix, _, rfl, ⟨ib, v, hib, hv, rfl⟩, k1⟩
  | write ix vs =>
    simp only [uGen, Option.bind_eq_bind, Option.bind_eq_some_iff, Option.some.injEq, Prod.mk.injEq] at hgen
    obtain ⟨ib0, hib0, vb0, hvb0, ram, hram, ws, hws, rfl, rfl⟩ := hgen
    have := same_eq hs (by
      intro o ho
      rcases List.mem_append.1 ho with ho | ho
      · exact noIn_pubInt _ _ o ho
      · simp only [List.mem_cons, List.not_mem_nil, or_false] at ho
        rcases ho with rfl | rfl <;> rfl)
    subst this
    obtain ⟨ib, hib⟩ := pick_of_length h.bits hib0
    obtain ⟨vb, hvb⟩ := pick_of_length h.bits hvb0
    have hst : ram.step = g.ram.step + 1 := by
      simp only [ramWrite, Option.bind_eq_bind, Option.bind_eq_some_iff] at hram
      obtain ⟨x, _, hst⟩ := hram
      exact ramPush_step hst
    obtain ⟨s1, k1, k2⟩ := csim_acc hc h hst hlen (e := ⟨bitsNum ib, true, bitsNum vb⟩) (new := []) (fl := [true])
      (gb := bitsOf c.ssz g.ram.step ++ [true])
      (ops := pubInt c.ssz g.ram.step ++ [MOp.bool (.pub true)]) (ix := ix) (vs := vs) (ws := ws)
      (op := g.bits.length + c.ssz) (ib := ib) (vb := vb)
      (by simp only [List.length_append, bitsOf_length, List.length_nil, Nat.zero_add])
      (by
        intro ch
        rw [mplainOps_append, mplain_pubInt, Option.bind_some, mplainOps_cons, h.step]
        simp only [mplainStep, plainStep, Option.map_some, Option.bind_some, List.append_assoc, List.nil_append]
        rfl)
      (by rw [h.bp]; exact pick_append _ hib)
      (by rw [h.bp]; exact pick_append _ hvb)
      (by
        rw [List.nil_append, ← List.append_assoc]
        have : g.bits.length + c.ssz = (s.bp.wires ++ bitsOf c.ssz u.log.length).length := by
          simp only [List.length_append, bitsOf_length, hn]
        rw [this, List.getElem?_concat_length])
      hw.1 hw.2 rfl rfl (by rw [List.length_nil, Nat.add_zero]; exact hws)
    have k3 := k2 ch
    simp only [List.append_assoc, List.cons_append, List.nil_append] at k3
    rw [hrun, Option.some.injEq] at k3
    subst k3
    exact ⟨.write ix vs, _, rfl, ⟨ib, vb, hib, hvb, rfl⟩, k1⟩
  | access op ix vs =>
    simp only [uGen, Option.bind_eq_bind, Option.bind_eq_some_iff, Option.some.injEq, Prod.mk.injEq, Prod.exists] at hgen
    obtain ⟨ib0, hib0, ob0, hob0, vb0, hvb0, ram, v0, hram, ws, hws, rfl, rfl⟩ := hgen
    obtain ⟨a1, a2, rfl, q1, q2⟩ := same_split hs
    obtain ⟨v, hv, rfl⟩ := same_inInt q1
    have := same_eq q2 (by
      intro o ho
      rcases List.mem_append.1 ho with ho | ho
      · exact noIn_pubInt _ _ o ho
      · simp only [List.mem_cons, List.not_mem_nil, or_false] at ho
        rcases ho with rfl; rfl)
    subst this
    obtain ⟨ib, hib⟩ := pick_of_length h.bits hib0
    obtain ⟨vb, hvb⟩ := pick_of_length h.bits hvb0
    obtain ⟨ob, hob⟩ : ∃ ob, u.bp.wires[op]? = some ob := by
      have hl := (List.getElem?_eq_some_iff.1 hob0).1
      have := h.bits
      exact ⟨u.bp.wires[op]'(by omega), List.getElem?_eq_getElem _⟩
    have hst : ram.step = g.ram.step + 1 := by
      simp only [ramAccess, Option.bind_eq_bind, Option.bind_eq_some_iff, Option.some.injEq, Prod.mk.injEq] at hram
      obtain ⟨x, _, st, hst, rfl, _⟩ := hram
      exact ramPush_step hst
    obtain ⟨s1, k1, k2⟩ := csim_acc hc h hst hlen (e := ⟨bitsNum ib, ob, v⟩) (new := bitsOf c.vsz v) (fl := [])
      (gb := bitsOf c.vsz v0 ++ bitsOf c.ssz g.ram.step)
      (ops := inInt c.vsz v ++ pubInt c.ssz g.ram.step) (ix := ix) (vs := List.range' g.bits.length c.vsz) (ws := ws)
      (op := op) (ib := ib) (vb := bitsOf c.vsz v)
      (by simp only [List.length_append, bitsOf_length, List.length_nil, Nat.add_zero])
      (by
        intro ch
        rw [mplainOps_append, mplain_inInt, Option.bind_some, mplain_pubInt, h.step]
        simp only [List.append_assoc, List.append_nil])
      (by rw [h.bp]; exact pick_append _ hib)
      (pick_mid _ _ _ hn (bitsOf_length _ _).symm)
      (by rw [h.bp]; exact getElem?_app hob _)
      hw.1 (by simp) rfl (by rw [bitsNum_bitsOf, Nat.mod_eq_of_lt hv]) (by rw [bitsOf_length]; exact hws)
    have k3 := k2 ch
    simp only [List.append_assoc] at k3
    rw [hrun, Option.some.injEq] at k3
    subst k3
    exact ⟨.access op ix vs, _, rfl, ⟨ib, ob, vb, v, hib, hob, hvb, hv, rfl⟩, k1⟩

theorem uGen_step {c : RamCfg} {g g' : RNet} {o : UOp} {ops : List MOp} (h : uGen c g o = some (ops, g')) :
    g.ram.step ≤ g'.ram.step ∧ (g.ram.step = g'.ram.step ∨ g'.ram.step = g.ram.step + 1) := by
  cases o <;> simp only [uGen, ramRead, ramWrite, ramAccess, Option.bind_eq_bind, Option.bind_eq_some_iff, Option.some.injEq, Prod.mk.injEq, Prod.exists] at h
  case bool => obtain ⟨p, _, _, rfl⟩ := h; exact ⟨le_refl _, .inl rfl⟩
  case read => obtain ⟨_, _, _, _, ⟨_, _, st, hst, rfl, _⟩, _, _, _, rfl⟩ := h; have := ramPush_step hst; simp only; omega
  case write => obtain ⟨_, _, _, _, st, ⟨_, _, hst⟩, _, _, _, rfl⟩ := h; have := ramPush_step hst; simp only; omega
  case access => obtain ⟨_, _, _, _, _, _, _, _, ⟨_, _, st, hst, rfl, _⟩, _, _, _, rfl⟩ := h; have := ramPush_step hst; simp only; omega

theorem uGens_step {c : RamCfg} {us : List UOp} : ∀ {g g' : RNet} {ops : List MOp}, uGens c g us = some (ops, g') → g.ram.step ≤ g'.ram.step := by
  induction us with
  | nil => intro g g' ops h; simp only [uGens, Option.some.injEq, Prod.mk.injEq] at h; obtain ⟨_, rfl⟩ := h; exact le_refl _
  | cons o us ih =>
    intro g g' ops h
    simp only [uGens, Option.bind_eq_bind, Option.bind_eq_some_iff, Option.some.injEq, Prod.mk.injEq, Prod.exists] at h
    obtain ⟨a, g1, h1, b, g2, h2, _, rfl⟩ := h
    exact le_trans (uGen_step h1).1 (ih h2)

/-- The calls of a program. -/
theorem csim_steps {c : RamCfg} (hc : c.Ok) (h1s : 1 ≤ c.ssz) {ch : Nat → F} {us : List UOp} : ∀ {g g' : RNet} {u : UPlain} {s s' : MPlain F} {ops ops' : List MOp}, CSim c g u s →
    g'.ram.step ≤ 2 ^ (c.ssz - 1) → (∀ o ∈ us, o.Widths c) → uGens c g us = some (ops, g') → List.Forall₂ MOp.same ops ops' →
    mplainOps ch s ops' = some s' → ∃ us' u', List.Forall₂ UOp.same us us' ∧ UTrace c u us' u' ∧ CSim c g' u' s' := by
  induction us with
  | nil =>
    intro g g' u s s' ops ops' h _ _ hgen hs hrun
    simp only [uGens, Option.some.injEq, Prod.mk.injEq] at hgen
    obtain ⟨rfl, rfl⟩ := hgen
    cases hs
    simp only [mplainOps, List.foldlM_nil] at hrun
    cases hrun
    exact ⟨[], u, .nil, .nil u, h⟩
  | cons o us ih =>
    intro g g' u s s' ops ops' h hle hw hgen hs hrun
    simp only [uGens, Option.bind_eq_bind, Option.bind_eq_some_iff, Option.some.injEq, Prod.mk.injEq, Prod.exists] at hgen
    obtain ⟨a, g1, h1, b, g2, h2, rfl, rfl⟩ := hgen
    obtain ⟨a', b', rfl, q1, q2⟩ := same_split hs
    rw [mplainOps_append, Option.bind_eq_some_iff] at hrun
    obtain ⟨s1, r1, r2⟩ := hrun
    have hpow : 2 ^ (c.ssz - 1) < 2 ^ c.ssz := Nat.pow_lt_pow_right (by decide) (by omega)
    have hl1 := uGen_step h1
    have hl2 := uGens_step h2
    by_cases hlt : u.log.length < 2 ^ c.ssz
    · obtain ⟨o', u1, k1, k2, k3⟩ := csim_step hc h hlt (hw o (by simp)) h1 q1 r1
      obtain ⟨us', u', l1, l2, l3⟩ := ih k3 hle (fun x hx => hw x (by simp [hx])) h2 q2 r2
      exact ⟨o' :: us', u', .cons k1 l1, .cons k2 l2, l3⟩
    · exfalso
      have := h.step
      omega

omit [DecidableEq F] in
theorem same_refl (o : MOp) : MOp.same o o := by
  cases o with
  | bool o => cases o <;> simp [MOp.same, BOp.same]
  | _ => rfl

theorem same_refls (l : List MOp) : List.Forall₂ MOp.same l l := by
  induction l with
  | nil => exact .nil
  | cons o l ih => exact .cons (same_refl o) ih

theorem inputs_same : ∀ {a b : List Bool}, a.length = b.length → List.Forall₂ MOp.same ((a.map BOp.input).map MOp.bool) ((b.map BOp.input).map MOp.bool)
  | [], [], _ => .nil
  | _ :: a, _ :: b, h => .cons trivial (inputs_same (a := a) (b := b) (by simpa using h))
  | [], _ :: _, h => by simp at h
  | _ :: _, [], h => by simp at h

theorem inInt_same (w x y : Nat) : List.Forall₂ MOp.same (inInt w x) (inInt w y) := by
  have e : ∀ y, inInt w y = ((bitsOf w y).map BOp.input).map MOp.bool := fun y => by simp [inInt]
  rw [e, e]
  exact inputs_same (by rw [bitsOf_length, bitsOf_length])

/-- The prover can make every run of the program: inputs for one call. -/
theorem csim_fwd {c : RamCfg} (hc : c.Ok) {g g' : RNet} {u u' : UPlain} {s : MPlain F} (h : CSim c g u s) (hlen : u.log.length < 2 ^ c.ssz)
    {o o' : UOp} (hoo : UOp.same o o') (hw : o.Widths c) {ops : List MOp} (hgen : uGen c g o = some (ops, g')) (ht : UTraceStep c u o' u') :
    ∃ ops' s', List.Forall₂ MOp.same ops ops' ∧ (∀ ch, mplainOps ch s ops' = some s') ∧ CSim c g' u' s' := by
  have hn : g.bits.length = s.bp.wires.length := by rw [h.bits, h.bp]
  cases o with
  | bool o =>
    cases o' with
    | bool o' =>
      obtain ⟨b, hb, rfl⟩ := ht
      simp only [uGen, Option.bind_eq_bind, Option.bind_eq_some_iff, Option.some.injEq, Prod.mk.injEq] at hgen
      obtain ⟨p, hp, rfl, rfl⟩ := hgen
      refine ⟨[MOp.bool o'], { s with bp := b }, .cons hoo .nil, fun ch => ?_, ⟨rfl, ?_, h.nf, h.step, h.macs, h.fs, h.rs, h.fits⟩⟩
      · rw [mplainOps_cons]
        simp only [mplainStep, h.bp, hb, Option.map_some, Option.bind_some]
        rfl
      · have hl := h.bits
        have hoo : BOp.same o o' := hoo
        show p.wires.length = b.wires.length
        cases o <;> cases o' <;> simp only [BOp.same, reduceCtorEq] at hoo <;>
          simp only [plainStep, Option.bind_eq_bind, Option.bind_eq_some_iff, Option.some.injEq] at hp hb
        case input => subst hp hb; simp [hl]
        case pub => subst hp hb; simp [hl]
        case xor => obtain ⟨_, _, _, _, rfl⟩ := hp; obtain ⟨_, _, _, _, rfl⟩ := hb; simp [hl]
        case not => obtain ⟨_, _, rfl⟩ := hp; obtain ⟨_, _, rfl⟩ := hb; simp [hl]
        case and => obtain ⟨_, _, _, _, rfl⟩ := hp; obtain ⟨_, _, _, _, rfl⟩ := hb; simp [hl]
        case reveal => obtain ⟨_, _, rfl⟩ := hp; obtain ⟨_, _, rfl⟩ := hb; exact hl
        case poly => obtain ⟨_, _, rfl⟩ := hp; obtain ⟨_, _, rfl⟩ := hb; exact hl
    | _ => cases hoo
  | read ix =>
    have : o' = .read ix := by cases o' <;> cases hoo; rfl
    subst this
    obtain ⟨ib, v, hib, hv, rfl⟩ := ht
    simp only [uGen, Option.bind_eq_bind, Option.bind_eq_some_iff, Option.some.injEq, Prod.mk.injEq, Prod.exists] at hgen
    obtain ⟨ib0, hib0, ram, v0, hram, ws, hws, rfl, rfl⟩ := hgen
    have hst : ram.step = g.ram.step + 1 := by
      simp only [ramRead, Option.bind_eq_bind, Option.bind_eq_some_iff, Option.some.injEq, Prod.mk.injEq] at hram
      obtain ⟨x, _, st, hst, rfl, _⟩ := hram
      exact ramPush_step hst
    obtain ⟨s1, k1, k2⟩ := csim_acc hc h hst hlen (e := ⟨bitsNum ib, false, v⟩) (new := bitsOf c.vsz v) (fl := [false])
      (gb := bitsOf c.vsz v0 ++ (bitsOf c.ssz g.ram.step ++ [false]))
      (ops := inInt c.vsz v ++ (pubInt c.ssz g.ram.step ++ [MOp.bool (.pub false)])) (ix := ix) (vs := List.range' g.bits.length c.vsz) (ws := ws)
      (op := g.bits.length + c.vsz + c.ssz) (ib := ib) (vb := bitsOf c.vsz v)
      (by simp only [List.length_append, bitsOf_length])
      (by
        intro ch
        rw [mplainOps_append, mplain_inInt, Option.bind_some, mplainOps_append, mplain_pubInt, Option.bind_some, mplainOps_cons, h.step]
        simp only [mplainStep, plainStep, Option.map_some, Option.bind_some, List.append_assoc]
        rfl)
      (by rw [h.bp]; exact pick_append _ hib)
      (pick_mid _ _ _ hn (bitsOf_length _ _).symm)
      (by
        rw [← List.append_assoc, ← List.append_assoc]
        have : g.bits.length + c.vsz + c.ssz = (s.bp.wires ++ bitsOf c.vsz v ++ bitsOf c.ssz u.log.length).length := by
          simp only [List.length_append, bitsOf_length, hn]
        rw [this, List.getElem?_concat_length])
      hw (by simp) rfl (by rw [bitsNum_bitsOf, Nat.mod_eq_of_lt hv]) (by rw [bitsOf_length]; exact hws)
    refine ⟨_, s1, ?_, k2, k1⟩
    simp only [List.append_assoc, List.cons_append, List.nil_append]
    exact List.rel_append (R := MOp.same) (inInt_same _ _ _) (same_refls _)
  | write ix vs =>
    have : o' = .write ix vs := by cases o' <;> cases hoo; rfl
    subst this
    obtain ⟨ib, vb, hib, hvb, rfl⟩ := ht
    simp only [uGen, Option.bind_eq_bind, Option.bind_eq_some_iff, Option.some.injEq, Prod.mk.injEq] at hgen
    obtain ⟨ib0, hib0, vb0, hvb0, ram, hram, ws, hws, rfl, rfl⟩ := hgen
    have hst : ram.step = g.ram.step + 1 := by
      simp only [ramWrite, Option.bind_eq_bind, Option.bind_eq_some_iff] at hram
      obtain ⟨x, _, hst⟩ := hram
      exact ramPush_step hst
    obtain ⟨s1, k1, k2⟩ := csim_acc hc h hst hlen (e := ⟨bitsNum ib, true, bitsNum vb⟩) (new := []) (fl := [true])
      (gb := bitsOf c.ssz g.ram.step ++ [true])
      (ops := pubInt c.ssz g.ram.step ++ [MOp.bool (.pub true)]) (ix := ix) (vs := vs) (ws := ws)
      (op := g.bits.length + c.ssz) (ib := ib) (vb := vb)
      (by simp only [List.length_append, bitsOf_length, List.length_nil, Nat.zero_add])
      (by
        intro ch
        rw [mplainOps_append, mplain_pubInt, Option.bind_some, mplainOps_cons, h.step]
        simp only [mplainStep, plainStep, Option.map_some, Option.bind_some, List.append_assoc, List.nil_append]
        rfl)
      (by rw [h.bp]; exact pick_append _ hib)
      (by rw [h.bp]; exact pick_append _ hvb)
      (by
        rw [List.nil_append, ← List.append_assoc]
        have : g.bits.length + c.ssz = (s.bp.wires ++ bitsOf c.ssz u.log.length).length := by
          simp only [List.length_append, bitsOf_length, hn]
        rw [this, List.getElem?_concat_length])
      hw.1 hw.2 rfl rfl (by rw [List.length_nil, Nat.add_zero]; exact hws)
    refine ⟨_, s1, ?_, k2, k1⟩
    simp only [List.append_assoc, List.cons_append, List.nil_append]
    exact same_refls _
  | access op ix vs =>
    have : o' = .access op ix vs := by cases o' <;> cases hoo; rfl
    subst this
    obtain ⟨ib, ob, vb, v, hib, hob, hvb, hv, rfl⟩ := ht
    simp only [uGen, Option.bind_eq_bind, Option.bind_eq_some_iff, Option.some.injEq, Prod.mk.injEq, Prod.exists] at hgen
    obtain ⟨ib0, hib0, ob0, hob0, vb0, hvb0, ram, v0, hram, ws, hws, rfl, rfl⟩ := hgen
    have hst : ram.step = g.ram.step + 1 := by
      simp only [ramAccess, Option.bind_eq_bind, Option.bind_eq_some_iff, Option.some.injEq, Prod.mk.injEq] at hram
      obtain ⟨x, _, st, hst, rfl, _⟩ := hram
      exact ramPush_step hst
    obtain ⟨s1, k1, k2⟩ := csim_acc hc h hst hlen (e := ⟨bitsNum ib, ob, v⟩) (new := bitsOf c.vsz v) (fl := [])
      (gb := bitsOf c.vsz v0 ++ bitsOf c.ssz g.ram.step)
      (ops := inInt c.vsz v ++ pubInt c.ssz g.ram.step) (ix := ix) (vs := List.range' g.bits.length c.vsz) (ws := ws)
      (op := op) (ib := ib) (vb := bitsOf c.vsz v)
      (by simp only [List.length_append, bitsOf_length, List.length_nil, Nat.add_zero])
      (by
        intro ch
        rw [mplainOps_append, mplain_inInt, Option.bind_some, mplain_pubInt, h.step]
        simp only [List.append_assoc, List.append_nil])
      (by rw [h.bp]; exact pick_append _ hib)
      (pick_mid _ _ _ hn (bitsOf_length _ _).symm)
      (by rw [h.bp]; exact getElem?_app hob _)
      hw.1 (by simp) rfl (by rw [bitsNum_bitsOf, Nat.mod_eq_of_lt hv]) (by rw [bitsOf_length]; exact hws)
    refine ⟨_, s1, ?_, k2, k1⟩
    simp only [List.append_assoc]
    exact List.rel_append (R := MOp.same) (inInt_same _ _ _) (same_refls _)

/-- The prover can make every run of the program. -/
theorem csim_fwds {c : RamCfg} (hc : c.Ok) (h1s : 1 ≤ c.ssz) {us : List UOp} : ∀ {us' : List UOp} {g g' : RNet} {u u' : UPlain} {s : MPlain F}
    {ops : List MOp}, CSim c g u s → g'.ram.step ≤ 2 ^ (c.ssz - 1) → (∀ o ∈ us, o.Widths c) → uGens c g us = some (ops, g') →
    List.Forall₂ UOp.same us us' → UTrace c u us' u' →
    ∃ ops' s', List.Forall₂ MOp.same ops ops' ∧ (∀ ch, mplainOps ch s ops' = some s') ∧ CSim c g' u' s' := by
  induction us with
  | nil =>
    intro us' g g' u u' s ops h _ _ hgen hs ht
    simp only [uGens, Option.some.injEq, Prod.mk.injEq] at hgen
    obtain ⟨rfl, rfl⟩ := hgen
    cases hs
    cases ht
    exact ⟨[], s, .nil, fun ch => rfl, h⟩
  | cons o us ih =>
    intro us' g g' u u' s ops h hle hw hgen hs ht
    simp only [uGens, Option.bind_eq_bind, Option.bind_eq_some_iff, Option.some.injEq, Prod.mk.injEq, Prod.exists] at hgen
    obtain ⟨a, g1, h1, b, g2, h2, rfl, rfl⟩ := hgen
    cases hs with
    | cons q1 q2 =>
      cases ht with
      | cons t1 t2 =>
        have hpow : 2 ^ (c.ssz - 1) < 2 ^ c.ssz := Nat.pow_lt_pow_right (by decide) (by omega)
        have hl1 := uGen_step h1
        have hl2 := uGens_step h2
        have hst := h.step
        obtain ⟨oa, s1, k1, k2, k3⟩ := csim_fwd hc h (by omega) q1 (hw o (by simp)) h1 t1
        obtain ⟨ob, s2, l1, l2, l3⟩ := ih k3 hle (fun x hx => hw x (by simp [hx])) h2 q2 t2
        exact ⟨oa ++ ob, s2, List.rel_append (R := MOp.same) k1 l1, fun ch => by rw [mplainOps_append, k2, Option.bind_some, l2], l3⟩

end
end EmpZk
