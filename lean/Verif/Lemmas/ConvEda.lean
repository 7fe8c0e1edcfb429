/-
Bits and numbers, circuits, openings and the generation of edaBits in lock step.
-/
import Verif.Lemmas.ConvArith
import Verif.Lemmas.Mpfss
import Verif.Lemmas.F2kChain
import Verif.Props.EdaBits

namespace EmpZk

/-! ### bits and numbers -/

theorem bits62_length (x : Int62) : (bits62 x).length = 62 := by simp [bits62]

theorem bits62_get {x : Int62} {i : Nat} (hi : i < 62) : (bits62 x)[i]? = some (x.getLsbD i) := by
  simp [bits62, hi]

theorem bits62_inj {x y : Int62} (h : bits62 x = bits62 y) : x = y := by
  refine BitVec.eq_of_getLsbD_eq ?_
  intro i hi
  have := congrArg (·[i]?) h
  simpa only [bits62_get hi, Option.some.injEq] using this

theorem bitsW_eq (w : W) : bitsW w = bits62 (w.setWidth 62) := by
  unfold bitsW bits62
  refine List.map_congr_left ?_
  intro i hi
  rw [BitVec.getLsbD_setWidth]
  simp [List.mem_range.1 hi]

theorem numOf_lt (bs : List Bool) : numOf bs < 2 ^ bs.length := by
  induction bs with
  | nil => simp [numOf]
  | cons b bs ih =>
    rw [numOf, List.length_cons, pow_succ]
    have := b.toNat_lt
    omega

theorem numOf_testBit (bs : List Bool) : ∀ i, (numOf bs).testBit i = (bs[i]?).getD false := by
  induction bs with
  | nil => intro i; simp [numOf]
  | cons b bs ih =>
    intro i
    rw [numOf]
    cases i with
    | zero => cases b <;> simp [Nat.testBit_zero] <;> omega
    | succ i =>
      rw [Nat.testBit_succ, List.getElem?_cons_succ, ← ih]
      congr 1
      have := b.toNat_lt
      omega

theorem numOf_valOf (bs : List Bool) : numOf bs = valOf bs := by
  induction bs with
  | nil => rfl
  | cons b bs ih =>
    rw [numOf, ih]
    unfold valOf
    rw [List.length_cons, List.range_succ_eq_map, List.map_cons, List.map_map, List.sum_cons]
    congr 1
    · cases b <;> simp
    · rw [← List.sum_map_mul_left]
      congr 1
      refine List.map_congr_left ?_
      intro i _
      simp only [Function.comp_apply, List.getElem?_cons_succ, pow_succ]
      split <;> omega

/-- Any 62 bits are the bits of an integer, the number they stand for. -/
theorem bits62_of {bs : List Bool} (h : bs.length = 62) : bs = bits62 (BitVec.ofNat 62 (valOf bs)) ∧
    (BitVec.ofNat 62 (valOf bs)).toNat = valOf bs := by
  have hl : valOf bs < 2 ^ 62 := by rw [← numOf_valOf, ← h]; exact numOf_lt bs
  refine ⟨?_, by rw [BitVec.toNat_ofNat, Nat.mod_eq_of_lt hl]⟩
  refine List.ext_getElem? fun i => ?_
  by_cases hi : i < 62
  · rw [bits62_get hi, BitVec.getLsbD_ofNat, ← numOf_valOf, numOf_testBit, List.getElem?_eq_getElem (by omega)]
    simp [hi]
  · rw [List.getElem?_eq_none (by omega), List.getElem?_eq_none (by rw [bits62_length]; omega)]

theorem numOf_bits62 (x : Int62) : numOf (bits62 x) = x.toNat := by
  obtain ⟨h1, h2⟩ := bits62_of (bits62_length x)
  rw [numOf_valOf, ← h2, ← bits62_inj h1]

theorem chunk_flatMap {α β : Type} (f : α → List β) (hf : ∀ a, (f a).length = 62) : ∀ (l : List α) (i : Nat) (hi : i < l.length),
    ((l.flatMap f).drop (62 * i)).take 62 = f l[i] := by
  intro l
  induction l with
  | nil => intro i hi; simp at hi
  | cons a l ih =>
    intro i hi
    rw [List.flatMap_cons]
    cases i with
    | zero => simp only [Nat.mul_zero, List.drop_zero, List.getElem_cons_zero]; rw [← hf a, List.take_left]
    | succ i =>
      rw [show 62 * (i + 1) = (f a).length + 62 * i by rw [hf]; omega, ← List.drop_drop, List.drop_left, List.getElem_cons_succ]
      exact ih i (by simpa using hi)

theorem addMod_toNat_canon {a b : W} (ha : Canon a) (hb : Canon b) : (addMod a b).toNat = (a.toNat + b.toNat) % pN := by
  rw [← canon_val (canon_addMod ha hb), fp_addMod_canon ha hb, fp, fp, ← Nat.cast_add, ZMod.val_natCast]

/-- Without the exceptional sum, the boolean sum has the bits of the field sum. -/
theorem sum_bits {delta : W} {M K M' K' : U128} (h : Auth delta M K) (h' : Auth delta M' K')
    (hne : (high64 M).toNat + (high64 M').toNat ≠ pN) :
    bits62 (f2Sum ((high64 M).setWidth 62) ((high64 M').setWidth 62)) = bitsW (high64 (intfpAddA M M')) := by
  have e : ∀ w : W, Canon w → (w.setWidth 62).toNat = w.toNat := by
    intro w hw
    rw [BitVec.toNat_setWidth]
    exact Nat.mod_eq_of_lt (lt_trans hw (by decide))
  rw [bitsW_eq]
  congr 1
  refine BitVec.eq_of_toNat_eq ?_
  rw [e _ (auth_intfpAdd h h').value, f2Sum_canon (by rw [e _ h.value]; exact h.value) (by rw [e _ h'.value]; exact h'.value), e _ h.value,
    e _ h'.value, if_neg hne, intfpAddA, high64_makeBlock, addMod_toNat_canon h.value h'.value]

/-! ### positions -/

/-- Where the next generation will be. -/
def EdaState.Pos (c : EdaCfg) (npSz : Nat) (s : EdaState) : Prop :=
  (s.gens = 0 → s.npRg = 0 ∧ s.ext = 1) ∧
    ∀ g, s.gens = g + 1 → s.npRg = c.ell * (g % (npSz / c.ell)) + c.ell ∧ s.ext = g / (npSz / c.ell) + 1

theorem edaInit_pos (c : EdaCfg) (npSz : Nat) : edaInit.Pos c npSz := by
  refine ⟨fun _ => ⟨rfl, rfl⟩, ?_⟩
  intro g h
  simp [edaInit] at h

theorem gen_pos {c : EdaCfg} {npSz : Nat} (h0 : 0 < c.ell) (hsz : c.ell ≤ npSz) {s : EdaState} (h : s.Pos c npSz) :
    let s' := edaGen c npSz { s with npPt := s.npRg }
    s'.npPt = c.ell * (s.gens % (npSz / c.ell)) ∧ s'.ext = s.gens / (npSz / c.ell) + 1 ∧ s'.gens = s.gens + 1 ∧ s'.Pos c npSz ∧
      (if npSz < s.npRg + c.ell then s'.ext = s.ext + 1 else s'.ext = s.ext) ∧ 1 ≤ s.ext := by
  intro s'
  have hr : 0 < npSz / c.ell := Nat.div_pos hsz h0
  have e2 : s'.gens = s.gens + 1 := by
    simp only [s', edaGen]; split <;> rfl
  have e3 : s'.npRg = s'.npPt + c.ell := by
    simp only [s', edaGen]
  have e5 : if npSz < s.npRg + c.ell then s'.ext = s.ext + 1 else s'.ext = s.ext := by
    simp only [s', edaGen]; split <;> rfl
  have e6 : s'.npPt = if npSz < s.npRg + c.ell then 0 else s.npRg := by
    simp only [s', edaGen]; split <;> rfl
  suffices hk : s'.npPt = c.ell * (s.gens % (npSz / c.ell)) ∧ s'.ext = s.gens / (npSz / c.ell) + 1 ∧ 1 ≤ s.ext by
    refine ⟨hk.1, hk.2.1, e2, ⟨fun h => by omega, ?_⟩, e5, hk.2.2⟩
    intro g hg
    rw [e2, Nat.add_right_cancel_iff] at hg
    subst hg
    exact ⟨by rw [e3, hk.1], hk.2.1⟩
  generalize hrr : npSz / c.ell = r at *
  have hlt : ∀ k, npSz < c.ell * k ↔ r < k := by
    intro k
    rw [← hrr, Nat.div_lt_iff_lt_mul h0, Nat.mul_comm]
  rcases Nat.eq_zero_or_pos s.gens with hz | hp
  · obtain ⟨k1, k2⟩ := h.1 hz
    rw [k1, Nat.zero_add, if_neg (by omega)] at e6 e5
    rw [hz, e6, e5, k2]
    simp
  · obtain ⟨g, hg⟩ := Nat.exists_eq_succ_of_ne_zero (by omega : s.gens ≠ 0)
    obtain ⟨k1, k2⟩ := h.2 g hg
    rw [hrr] at k1 k2
    have e7 : s.npRg + c.ell = c.ell * (g % r + 2) := by rw [k1]; ring
    rw [e7] at e5 e6
    have hm := Nat.mod_lt g hr
    have hd := Nat.div_add_mod g r
    rw [hg, Nat.succ_eq_add_one]
    generalize hq : g / r = q at *
    generalize hmm : g % r = m at *
    generalize ht : r * q = t at hd
    by_cases hc : npSz < c.ell * (m + 2)
    · rw [if_pos hc] at e5 e6
      have h1 := (hlt _).1 hc
      have hge : g + 1 = r * (q + 1) := by rw [Nat.mul_add, ht]; omega
      rw [hge, Nat.mul_mod_right, Nat.mul_div_cancel_left _ hr]
      exact ⟨by rw [e6, Nat.mul_zero], by rw [e5, k2], by omega⟩
    · rw [if_neg hc] at e5 e6
      have h1 : ¬ r < m + 2 := fun h => hc ((hlt _).2 h)
      have hge : g + 1 = r * q + (m + 1) := by rw [ht]; omega
      rw [hge, Nat.mul_add_mod, Nat.mod_eq_of_lt (by omega), Nat.mul_add_div hr, Nat.div_eq_of_lt (by omega)]
      exact ⟨by rw [e6, k1]; ring, by rw [e5, k2], by omega⟩

/-! ### labels and openings -/

section
variable {F : Type} [Field F] [BlockField F]

/-- Adjusting the keys with the right bits gives the labels. -/
theorem adjKeys_eq (d : F) {l : List F} {v : W} (h : l.map lsb = bitsW v) : adjKeys d v (l.map (keyOf d)) = l := by
  have hl : l.length = 62 := by
    have := congrArg List.length h
    simpa [bitsW] using this
  unfold adjKeys
  refine List.ext_getElem? fun i => ?_
  by_cases hi : i < l.length
  · have hb : lsb l[i] = v.getLsbD i := by
      have := congrArg (·[i]?) h
      simpa [bitsW, hi, show i < 62 by omega] using this
    rw [List.getElem?_zipWith]
    simp only [List.length_map, List.getElem?_map, List.getElem?_eq_getElem hi, Option.map_some]
    rw [List.getElem?_range hi]
    simp only [Option.some.injEq, keyOf, hb]
    cases v.getLsbD i <;> simp [add_assoc, addSelf]
  · rw [List.getElem?_eq_none (by simpa using by omega), List.getElem?_eq_none (by omega)]

end

section
variable {F : Type} [Field F] [BlockField F] [DecidableEq F] {ce : ConvEnv F} {S : Nat}

omit [Field F] [BlockField F] [DecidableEq F] in
theorem Lock.sendC {α β : Type} {bs : List Byte} {n : Nat} (hl : bs.length = n) {k : SProg α} {k' : List Byte → RProg β}
    {Post : α → β → Prop} (h : Lock S k (k' bs) Post) : Lock S (sendS bs k) (recvR n k') Post := by
  unfold sendS recvR
  by_cases hb : bs = []
  · subst hb
    rw [if_pos rfl, if_pos (by rw [← hl]; rfl)]
    exact Lock.flushC h
  · have hn : n ≠ 0 := by
      rw [← hl]
      exact fun h0 => hb (List.length_eq_zero_iff.1 h0)
    rw [if_neg hb, if_neg hn]
    exact Lock.dataC hl (Nat.pos_of_ne_zero hn) h

omit [DecidableEq F] in
/-- The opening in lock step: both hash the same. -/
theorem lock_open (hd : Canon ce.base.delta) {P : CPrv F} {V : CVer F} (hh : V.hashed = P.hashed) {ms ks : List U128} {ls : List (List F)}
    (ha : List.Forall₂ (Auth ce.base.delta) ms ks) (hb : List.Forall₂ (fun m l => l.map lsb = bitsW (high64 m)) ms ls) :
    Lock S (openS P ms ls) (openR ce V ks (ls.map (List.map (keyOf ce.ne.e.delta)))) (fun P' V' =>
      P' = { P with hashed := P'.hashed } ∧ V' = { V with hashed := P'.hashed }) := by
  unfold openS openR
  have hk : ks.length = (ms.map high64).length := by rw [List.length_map, ha.length_eq]
  refine Lock.sendC (by rw [encWs_length, hk]) ?_
  rw [hk, decWs_encWs]
  refine Lock.pure ⟨rfl, ?_⟩
  have e1 : ∀ {ms ks : List U128}, List.Forall₂ (Auth ce.base.delta) ms ks →
      List.zipWith (openWord ce.base.delta) (ms.map high64) ks = ms.map low64 := by
    intro ms ks ha
    induction ha with
    | nil => rfl
    | cons h _ ih =>
      simp only [List.map_cons, List.zipWith_cons_cons, ih]
      rw [openWord, openWord_eq hd h]
  have e2 : ∀ {ms : List U128} {ls : List (List F)}, List.Forall₂ (fun m l => l.map lsb = bitsW (high64 m)) ms ls →
      List.zipWith (adjKeys ce.ne.e.delta) (ms.map high64) (ls.map (List.map (keyOf ce.ne.e.delta))) = ls := by
    intro ms ls hb
    induction hb with
    | nil => rfl
    | cons h _ ih => simp only [List.map_cons, List.zipWith_cons_cons, ih, adjKeys_eq _ h]
  rw [e1 ha, e2 hb, hh, List.map_map]
  rfl

/-! ### circuits -/

section
variable {ne : NetEnv F} {p : PrvSt F} {v : VerSt F} {pl : Plain}

theorem BRel.backWires {p0 : PrvSt F} {v0 : VerSt F} {pl0 : Plain} (h0 : BRel ne p0 v0 pl0) (h : BRel ne p v pl) :
    BRel ne { p with wires := p0.wires } { v with wires := v0.wires } { pl with wires := pl0.wires } := by
  have := h.setWires p0.wires
  rwa [← h0.wires, ← h0.plainWires] at this

theorem lock_circ (hs : ne.Sane) {c : Circ62} {f : Int62 → Int62 → Int62} (hc : c.Computes f) (h : BRel ne p v pl) {xs ys : List F}
    {x y : Int62} (hx : xs.map lsb = bits62 x) (hy : ys.map lsb = bits62 y) {n : Nat} (hn : p.gates.length = lastBatch n ne.e.checkSz) :
    Lock S (circS ne p c xs ys) (circR ne v c (xs.map (keyOf ne.e.delta)) (ys.map (keyOf ne.e.delta))) (fun a b =>
      BRel ne a.1 b.1 pl ∧ a.1.gates.length = lastBatch (n + c.ands) ne.e.checkSz ∧ b.2 = a.2.map (keyOf ne.e.delta) ∧
      a.2.map lsb = bits62 (f x y)) := by
  unfold circS circR
  rw [← List.map_append]
  obtain ⟨w, h1, h2⟩ := hc x y pl.outs pl.claims
  have h0 := h.setWires (xs ++ ys)
  rw [List.map_append (f := lsb), hx, hy] at h0
  refine Lock.bind (lock_bops hs c.ops h0 h1) ?_
  rintro p1 v1 ⟨k1, k2⟩
  have hw := k1.plainWires
  simp only at hw
  have hsz : 0 < ne.e.checkSz := lt_of_lt_of_le hs.threads hs.fits
  obtain ⟨es, he⟩ : ∃ es, pick p1.wires c.out = some es := by
    have hlen : ∀ {α : Type} {l l' : List α} {g : List Nat} {es : List α}, pick l g = some es → ∀ i ∈ g, i < l.length := by
      intro α l l' g
      induction g with
      | nil => simp
      | cons i g ih =>
        intro es h j hj
        unfold pick at h
        rw [List.mapM_cons] at h
        simp only [Option.bind_eq_bind, Option.bind_eq_some_iff, Option.pure_def, Option.some.injEq] at h
        obtain ⟨a, ha, b, hb, _⟩ := h
        rcases List.mem_cons.1 hj with rfl | hj
        · exact (List.getElem?_eq_some_iff.1 ha).1
        · exact ih hb j hj
    obtain ⟨es, he, _⟩ := pick_some p1.wires c.out (fun i hi => by
      have := hlen (l' := w) h2 i hi
      rwa [hw, List.length_map] at this)
    exact ⟨es, he⟩
  have e1 := pick_map lsb p1.wires c.out es he
  rw [← hw, h2, Option.some.injEq] at e1
  have e2 := pick_map (keyOf ne.e.delta) p1.wires c.out es he
  rw [← k1.wires] at e2
  rw [he, e2]
  refine Lock.pure ⟨?_, ?_, rfl, e1.symm⟩
  · have := h.backWires k1
    exact this
  · simp only at k2
    rw [k2]
    rw [show ({ p with wires := xs ++ ys } : PrvSt F).gates = p.gates from rfl, hn, nextBatches_eq hsz]
    congr 2
    rw [Circ62.ands, List.countP_map]
    rfl

end

/-- The sums of a pass in lock step. -/
theorem lock_sums {ne : NetEnv F} (hs : ne.Sane) {c : Circ62} {f : Int62 → Int62 → Int62} (hc : c.Computes f) {cand candV : List (List F)}
    {N : Nat} {X : Nat → Int62} (hX : ∀ i, i < N → ∃ l, cand[i]? = some l ∧ candV[i]? = some (l.map (keyOf ne.e.delta)) ∧
      l.map lsb = bits62 (X i)) : ∀ (ps : List (Nat × Nat)) {p : PrvSt F} {v : VerSt F} {pl : Plain} {n : Nat}, BRel ne p v pl →
    p.gates.length = lastBatch n ne.e.checkSz → (∀ q ∈ ps, q.1 < N ∧ q.2 < N) →
    Lock S (sumsS ne c cand p ps) (sumsR ne c candV v ps) (fun a b => BRel ne a.1 b.1 pl ∧
      a.1.gates.length = lastBatch (n + ps.length * c.ands) ne.e.checkSz ∧ b.2 = a.2.map (List.map (keyOf ne.e.delta)) ∧
      List.Forall₂ (fun (q : Nat × Nat) l => l.map lsb = bits62 (f (X q.1) (X q.2))) ps a.2) := by
  intro ps
  induction ps with
  | nil =>
    intro p v pl n h hn _
    exact Lock.pure ⟨h, by simpa using hn, rfl, .nil⟩
  | cons q ps ih =>
    intro p v pl n h hn hq
    obtain ⟨hq1, hq2⟩ := hq q List.mem_cons_self
    obtain ⟨l1, a1, a2, a3⟩ := hX q.1 hq1
    obtain ⟨l2, b1, b2, b3⟩ := hX q.2 hq2
    simp only [sumsS, sumsR, a1, a2, b1, b2, SProg.ofOpt, RProg.ofOpt, SProg.bind, RProg.bind]
    refine Lock.bind (lock_circ hs hc h a3 b3 hn) ?_
    rintro r r' ⟨k1, k2, k3, k4⟩
    refine Lock.bind (ih k1 k2 (fun x hx => hq x (List.mem_cons_of_mem _ hx))) ?_
    rintro t t' ⟨m1, m2, m3, m4⟩
    refine Lock.pure ⟨m1, ?_, ?_, .cons k4 m4⟩
    · rw [m2, List.length_cons]
      congr 1
      ring
    · simp only [m3, k3, List.map_cons]

end
end EmpZk
