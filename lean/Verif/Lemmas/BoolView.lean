/-
Two honest provers of a boolean proof with the same program and different witnesses look alike to every verifier.
-/
import Verif.Lemmas.CView
import Verif.Lemmas.BoolHide

namespace EmpZk

namespace CProg
variable {C α β : Type}

theorem Equi.refl (vc : Nat → Bool → C) (P : CProg C α) : ∀ i, Equi vc (fun _ a b => a = b) i P P := by
  induction P with
  | done a => intro i; exact .done rfl
  | fail => intro i; exact .fail
  | send bs k ih => intro i; exact .send bs (ih i)
  | recv n k ih => intro i; exact .recv n (fun b => ih b i)
  | cor k ih => intro i; exact .cor (Equiv.refl _) (fun u => ih _ (i + 1))

theorem equi_ofOptC {vc : Nat → Bool → C} {Φ : Nat → α → β → Prop} {i : Nat} {a : Option α} {b : Option β}
    (h : (a = none ∧ b = none) ∨ ∃ x y, a = some x ∧ b = some y ∧ Φ i x y) : Equi vc Φ i (ofOpt a) (ofOpt b) := by
  rcases h with ⟨rfl, rfl⟩ | ⟨x, y, rfl, rfl, h⟩
  · exact .fail
  · exact .done h

/-- The bijection of one bit. -/
def xorPerm (d : Bool) : Equiv.Perm Bool where
  toFun u := u ^^ d
  invFun u := u ^^ d
  left_inv u := by cases u <;> cases d <;> rfl
  right_inv u := by cases u <;> cases d <;> rfl

/-- `n` draws, the bits of the second program shifted by `δ`. -/
theorem equi_askN (vc : Nat → Bool → C) (δ : Nat → Bool) (i n : Nat) :
    Equi vc (fun j l l' => j = i + n ∧ ∃ u : Nat → Bool, l = (List.range n).map (fun k => vc (i + k) (u k)) ∧
      l' = (List.range n).map (fun k => vc (i + k) (u k ^^ δ k))) i (askN n) (askN n) := by
  induction n with
  | zero => exact .done ⟨rfl, fun _ => false, rfl, rfl⟩
  | succ n ih =>
    refine ih.bind ?_
    rintro j l l' ⟨rfl, u, rfl, rfl⟩
    refine .cor (xorPerm (δ n)) (fun v => .done ⟨by omega, Function.update u n v, ?_, ?_⟩)
    · rw [List.range_succ, List.map_append, List.map_singleton, Function.update_self]
      congr 1
      refine List.map_congr_left (fun k hk => ?_)
      rw [Function.update_of_ne (by rw [List.mem_range] at hk; omega)]
    · rw [List.range_succ, List.map_append, List.map_singleton, Function.update_self]
      congr 1
      refine List.map_congr_left (fun k hk => ?_)
      rw [Function.update_of_ne (by rw [List.mem_range] at hk; omega)]

end CProg

section
variable {F : Type} [Field F] [PackField F]

/-! ### masks -/

theorem cotOf_eq (d k : F) (u : Bool) : cotOf d k u = k + bit u * d := by rw [cotOf, sel_bit]

theorem lsb_cotOf {d k : F} (hd : lsb d = true) (hk : lsb k = false) (u : Bool) : lsb (cotOf d k u) = u := by
  rw [cotOf_eq, lsb_add, lsb_bit_mul, hd, hk, Bool.and_true, Bool.false_xor]

/-- The key of a correlation corrected by a bit depends on the bit sent only. -/
theorem keyOf_cot {d k : F} (hd : lsb d = true) (hk : lsb k = false) (u c : Bool) :
    keyOf d (cotOf d k u + bit c) = k + bit c * (d + 1) := by
  rw [keyOf, lsb_add, lsb_cotOf hd hk, lsb_bit, bit_xor, cotOf_eq]
  linear_combination bit u * d * two_eq_zero' (F := F)

theorem packBlocks_cot (d : F) (K : Nat → F) (u : Nat → Bool) :
    packBlocks (fun k => cotOf d (K k) (u k)) = packBlocks K + packBits u 0 * d := by
  simp only [packBlocks, packBits, cotOf_eq, Nat.zero_add]
  rw [Finset.sum_mul, ← Finset.sum_add_distrib]
  exact Finset.sum_congr rfl (fun i _ => by ring)

theorem packLsbs_cot {d : F} {K : Nat → F} (hd : lsb d = true) (hk : ∀ k, lsb (K k) = false) (u : Nat → Bool) :
    packLsbs (fun k => cotOf d (K k) (u k)) = packBits u 0 := by
  simp only [packLsbs, packBits, lsb_cotOf hd (hk _), Nat.zero_add]

theorem packBits_xor (u v : Nat → Bool) : (packBits (fun k => u k ^^ v k) 0 : F) = packBits u 0 + packBits v 0 := by
  simp only [packBits, bit_xor]
  rw [← Finset.sum_add_distrib]
  exact Finset.sum_congr rfl (fun i _ => by ring)

theorem packBlocks_congr {f g : Nat → F} (h : ∀ k, k < 128 → f k = g k) : packBlocks f = packBlocks g :=
  Finset.sum_congr rfl (fun i _ => by rw [h i i.2])

theorem packLsbs_congr {f g : Nat → F} (h : ∀ k, k < 128 → f k = g k) : packLsbs f = packLsbs g :=
  Finset.sum_congr rfl (fun i _ => by rw [h i i.2])

omit [PackField F] in
theorem withMacs_mac [BlockField F] (e : BEnv F) (used : Nat) (n : Nat) (f : Nat → F) (k : Nat) (hk : k < n) :
    (e.withMacs used ((List.range n).map f)).mac (used + k) = f k := by
  simp only [BEnv.mac, BEnv.withMacs, sel, Bool.false_eq_true, if_false, add_zero, Nat.add_sub_cancel_left]
  rw [List.getD_eq_getElem?_getD, List.getElem?_map, List.getElem?_range hk, Option.map_some, Option.getD_some]

theorem prvAndCheck_map (e : BEnv F) (s : PrvSt F) : prvAndCheck e s = (splitTasks s.gates.length e.threads).map (fun ts =>
    (({ s with used := s.used + 128, gates := [], andBatches := s.andBatches + 1 } : PrvSt F),
      (packBlocks (fun i => e.mac (s.used + i)) + (checkSumPrv s.gates (e.chal s.andBatches s.transcript) ts 0).1,
        packLsbs (fun i => e.mac (s.used + i)) + (checkSumPrv s.gates (e.chal s.andBatches s.transcript) ts 0).2))) := by
  unfold prvAndCheck andCheckPrv
  cases splitTasks s.gates.length e.threads <;> rfl

/-- The masked answers of two sessions whose sums lie on the same line. -/
theorem ans_eq {d : F} {K : Nat → F} (hd : lsb d = true) (hk : ∀ k, lsb (K k) = false) {s s' : F × F}
    (hs : s.1 + s.2 * d = s'.1 + s'.2 * d) {δ : Nat → Bool} (hδ : packBits δ 0 = s.2 + s'.2) (u : Nat → Bool) :
    (packBlocks (fun k => cotOf d (K k) (u k)) + s.1, packLsbs (fun k => cotOf d (K k) (u k)) + s.2) =
      (packBlocks (fun k => cotOf d (K k) (u k ^^ δ k)) + s'.1, packLsbs (fun k => cotOf d (K k) (u k ^^ δ k)) + s'.2) := by
  rw [packBlocks_cot, packLsbs_cot hd hk, packBlocks_cot d K (fun k => u k ^^ δ k), packLsbs_cot hd hk (fun k => u k ^^ δ k), packBits_xor, hδ]
  apply Prod.ext
  · linear_combination hs - s.2 * d * two_eq_zero' (F := F)
  · linear_combination - s'.2 * two_eq_zero' (F := F)

/-! ### the two sessions -/

/-- Buffered polynomial statement as the verifier sees it. -/
def polyKey (d : F) (p : F × F) : F := p.1 + p.2 * d

/-- The states of the two provers and the plain programs. -/
structure BPair (d : F) (pl pl' : Plain) (n n' : BPrv F) : Prop where
  io : n.io = n'.io
  used : n.st.used = n'.st.used
  w : n.st.wires.map (keyOf d) = n'.st.wires.map (keyOf d)
  pw : pl.wires = n.st.wires.map lsb
  pw' : pl'.wires = n'.st.wires.map lsb
  g : n.st.gates.map (Gate.key d) = n'.st.gates.map (Gate.key d)
  gc : ∀ g ∈ n.st.gates, g.Correct
  gc' : ∀ g ∈ n'.st.gates, g.Correct
  p : n.st.polys.map (polyKey d) = n'.st.polys.map (polyKey d)
  dg : n.st.digest = n'.st.digest

theorem BPair.glen {d : F} {pl pl' : Plain} {n n' : BPrv F} (h : BPair d pl pl' n n') : n'.st.gates.length = n.st.gates.length := by
  simpa using (congrArg List.length h.g).symm

theorem BPair.plen {d : F} {pl pl' : Plain} {n n' : BPrv F} (h : BPair d pl pl' n n') : n'.st.polys.length = n.st.polys.length := by
  simpa using (congrArg List.length h.p).symm

/-- A wire of the first session is a wire of the second with the same key. -/
theorem BPair.wire {d : F} {pl pl' : Plain} {n n' : BPrv F} (h : BPair d pl pl' n n') (i : Nat) :
    (n.st.wires[i]? = none ∧ n'.st.wires[i]? = none) ∨ ∃ a a', n.st.wires[i]? = some a ∧ n'.st.wires[i]? = some a' ∧
      keyOf d a = keyOf d a' ∧ pl.wires[i]? = some (lsb a) ∧ pl'.wires[i]? = some (lsb a') := by
  have hw := congrArg (fun l => l[i]?) h.w
  simp only [List.getElem?_map] at hw
  rw [h.pw, h.pw', List.getElem?_map, List.getElem?_map]
  cases h1 : n.st.wires[i]? <;> cases h2 : n'.st.wires[i]? <;> rw [h1, h2] at hw <;> simp at hw
  · exact .inl ⟨rfl, rfl⟩
  · exact .inr ⟨_, _, rfl, rfl, hw, rfl, rfl⟩

/-- A wire opened with the same bit is the same block. -/
theorem eq_of_keyOf {d a a' : F} (h : keyOf d a = keyOf d a') (hl : lsb a = lsb a') : a = a' := by
  rw [keyOf, keyOf, hl] at h
  exact add_right_cancel h

section
variable {ne : NetEnv F} {S : Nat} {d : F} {key : Nat → F} {pl pl' : Plain} {n n' : BPrv F}

/-- What two matched calls of `rcot` give. -/
def RcotRel (d : F) (key : Nat → F) (δ : Nat → Bool) (k : Nat) (n n' : BPrv F) (_ : Nat) (r r' : BPrv F × List F) : Prop :=
  r.1.st = n.st ∧ r'.1.st = n'.st ∧ r.1.io = r'.1.io ∧ ∃ (i : Nat) (u : Nat → Bool),
    r.2 = (List.range k).map (fun j => cotOf d (key (i + j)) (u j)) ∧ r'.2 = (List.range k).map (fun j => cotOf d (key (i + j)) (u j ^^ δ j))

omit [PackField F] in
theorem equi_rcot [BlockField F] (δ : Nat → Bool) (k : Nat) (hio : n.io = n'.io) (hu : n.st.used = n'.st.used) (i : Nat) :
    CProg.Equi (fun j => cotOf d (key j)) (RcotRel d key δ k n n') i (brcot ne S n k) (brcot ne S n' k) := by
  unfold brcot
  rw [← hio, ← hu]
  refine (CProg.Equi.refl _ _ i).bind ?_
  rintro j io _ rfl
  refine (CProg.equi_askN _ δ j k).bind ?_
  rintro _ l l' ⟨-, u, rfl, rfl⟩
  exact .done ⟨rfl, rfl, rfl, j, u, rfl, rfl⟩

/-- The check of AND gates. -/
theorem andCheck_viewB (hP : BPair d pl pl' n n') (hd : lsb d = true) (hk : ∀ j, lsb (key j) = false) (i : Nat) :
    CProg.Equi (fun j => cotOf d (key j)) (fun _ t t' => BPair d pl pl' t t' ∧ t.st.gates = []) i
      (bAndCheck ne S n) (bAndCheck ne S n') := by
  unfold bAndCheck
  rw [← hP.io, ← hP.used]
  refine (CProg.Equi.refl _ _ i).bind ?_
  rintro j r _ rfl
  -- the sums are known before the masks are drawn
  have hsum : ∀ ts, (checkSumPrv n.st.gates (ne.seeds r.2) ts 0).1 + (checkSumPrv n.st.gates (ne.seeds r.2) ts 0).2 * d =
      (checkSumPrv n'.st.gates (ne.seeds r.2) ts 0).1 + (checkSumPrv n'.st.gates (ne.seeds r.2) ts 0).2 * d := by
    intro ts
    have h1 := checkSum_keyOf d n.st.gates (ne.seeds r.2) ts 0
    have h2 := checkSum_keyOf d n'.st.gates (ne.seeds r.2) ts 0
    rw [errSum_correct _ hP.gc, zero_mul, add_zero] at h1
    rw [errSum_correct _ hP.gc', zero_mul, add_zero] at h2
    rw [← h1, ← h2, hP.g]
  obtain ⟨δ, hδ⟩ : ∃ δ : Nat → Bool, ∀ ts, splitTasks n.st.gates.length ne.e.threads = some ts →
      packBits δ 0 = (checkSumPrv n.st.gates (ne.seeds r.2) ts 0).2 + (checkSumPrv n'.st.gates (ne.seeds r.2) ts 0).2 := by
    cases hs : splitTasks n.st.gates.length ne.e.threads with
    | none => exact ⟨fun _ => false, by simp⟩
    | some ts =>
      obtain ⟨δ, hδ⟩ := packBits_surj ((checkSumPrv n.st.gates (ne.seeds r.2) ts 0).2 + (checkSumPrv n'.st.gates (ne.seeds r.2) ts 0).2) 0
      exact ⟨δ, by rintro _ ⟨⟩; exact hδ⟩
  refine (equi_rcot (n := ⟨n.st, r.1⟩) (n' := ⟨n'.st, r.1⟩) δ 128 rfl hP.used j).bind ?_
  rintro j' ⟨⟨st, io⟩, l⟩ ⟨⟨st', io'⟩, l'⟩ ⟨h1, h2, h3, i0, u, h4, h5⟩
  simp only at h1 h2 h3 h4 h5
  subst h1 h2 h3 h4 h5
  have e1 : prvAndCheck ((ne.env r.2 0).withMacs n.st.used ((List.range 128).map fun j => cotOf d (key (i0 + j)) (u j))) n.st =
      (splitTasks n.st.gates.length ne.e.threads).map (fun ts =>
        (({ n.st with used := n.st.used + 128, gates := [], andBatches := n.st.andBatches + 1 } : PrvSt F),
          (packBlocks (fun k => cotOf d (key (i0 + k)) (u k)) + (checkSumPrv n.st.gates (ne.seeds r.2) ts 0).1,
            packLsbs (fun k => cotOf d (key (i0 + k)) (u k)) + (checkSumPrv n.st.gates (ne.seeds r.2) ts 0).2))) := by
    have ep := packBlocks_congr (F := F) (fun k hk => withMacs_mac (ne.env r.2 0) n.st.used 128 (fun j => cotOf d (key (i0 + j)) (u j)) k hk)
    have el := packLsbs_congr (F := F) (fun k hk => withMacs_mac (ne.env r.2 0) n.st.used 128 (fun j => cotOf d (key (i0 + j)) (u j)) k hk)
    rw [prvAndCheck_map, ep, el]
    rfl
  have e2 : prvAndCheck ((ne.env r.2 0).withMacs n.st.used ((List.range 128).map fun j => cotOf d (key (i0 + j)) (u j ^^ δ j))) n'.st =
      (splitTasks n.st.gates.length ne.e.threads).map (fun ts =>
        (({ n'.st with used := n.st.used + 128, gates := [], andBatches := n'.st.andBatches + 1 } : PrvSt F),
          (packBlocks (fun k => cotOf d (key (i0 + k)) (u k ^^ δ k)) + (checkSumPrv n'.st.gates (ne.seeds r.2) ts 0).1,
            packLsbs (fun k => cotOf d (key (i0 + k)) (u k ^^ δ k)) + (checkSumPrv n'.st.gates (ne.seeds r.2) ts 0).2))) := by
    have ep := packBlocks_congr (F := F) (fun k hk => withMacs_mac (ne.env r.2 0) n.st.used 128 (fun j => cotOf d (key (i0 + j)) (u j ^^ δ j)) k hk)
    have el := packLsbs_congr (F := F) (fun k hk => withMacs_mac (ne.env r.2 0) n.st.used 128 (fun j => cotOf d (key (i0 + j)) (u j ^^ δ j)) k hk)
    rw [prvAndCheck_map, ← hP.used, ep, el, hP.glen]
    rfl
  show CProg.Equi _ _ _ ((CProg.ofOpt (prvAndCheck _ n.st)).bind _) ((CProg.ofOpt (prvAndCheck _ n'.st)).bind _)
  rw [e1, e2]
  cases hs : splitTasks n.st.gates.length ne.e.threads with
  | none => exact .fail
  | some ts =>
    have ha := ans_eq hd (K := fun k => key (i0 + k)) (fun k => hk _) (hsum ts) (hδ ts hs) u
    simp only [Option.map_some]
    rw [← ha]
    refine CProg.Equi.bind (Φ := fun _ a b => BPair d pl pl' ⟨a.1, io⟩ ⟨b.1, io⟩ ∧ a.1.gates = [] ∧ a.2 = b.2)
      (.done ⟨⟨rfl, rfl, hP.w, hP.pw, hP.pw', rfl, by simp, by simp, hP.p, hP.dg⟩, rfl, rfl⟩) ?_
    rintro j1 ⟨a, x⟩ ⟨b, _⟩ ⟨hQ, hg, rfl⟩
    refine (CProg.Equi.refl _ _ j1).bind ?_
    rintro j2 io2 _ rfl
    exact .done ⟨⟨rfl, hQ.used, hQ.w, hQ.pw, hQ.pw', hQ.g, hQ.gc, hQ.gc', hQ.p, hQ.dg⟩, hg⟩

/-- The check of polynomial statements. -/
theorem polyCheck_viewB (hP : BPair d pl pl' n n') (hd : lsb d = true) (hk : ∀ j, lsb (key j) = false) (i : Nat) :
    CProg.Equi (fun j => cotOf d (key j)) (fun _ t t' => BPair d pl pl' t t' ∧ t.st.polys = []) i
      (bPolyCheck ne S n) (bPolyCheck ne S n') := by
  unfold bPolyCheck
  rw [← hP.io, ← hP.used]
  refine (CProg.Equi.refl _ _ i).bind ?_
  rintro j r _ rfl
  have hsum : chiSum (ne.dec r.2) (n.st.polys.map Prod.fst) + chiSum (ne.dec r.2) (n.st.polys.map Prod.snd) * d =
      chiSum (ne.dec r.2) (n'.st.polys.map Prod.fst) + chiSum (ne.dec r.2) (n'.st.polys.map Prod.snd) * d := by
    rw [← chiSum_mul, ← chiSum_add, ← chiSum_mul, ← chiSum_add]
    exact congrArg _ hP.p
  obtain ⟨δ, hδ⟩ := packBits_surj (chiSum (ne.dec r.2) (n.st.polys.map Prod.snd) + chiSum (ne.dec r.2) (n'.st.polys.map Prod.snd)) 0
  refine (equi_rcot (n := ⟨n.st, r.1⟩) (n' := ⟨n'.st, r.1⟩) δ 128 rfl hP.used j).bind ?_
  rintro j' ⟨⟨st, io⟩, l⟩ ⟨⟨st', io'⟩, l'⟩ ⟨h1, h2, h3, i0, u, h4, h5⟩
  simp only at h1 h2 h3 h4 h5
  subst h1 h2 h3 h4 h5
  have ha := ans_eq (s := (chiSum (ne.dec r.2) (n.st.polys.map Prod.fst), chiSum (ne.dec r.2) (n.st.polys.map Prod.snd)))
    (s' := (chiSum (ne.dec r.2) (n'.st.polys.map Prod.fst), chiSum (ne.dec r.2) (n'.st.polys.map Prod.snd)))
    hd (K := fun k => key (i0 + k)) (fun k => hk _) hsum hδ u
  have e1 : (prvPolyCheck ((ne.env [] (ne.dec r.2)).withMacs n.st.used ((List.range 128).map fun j => cotOf d (key (i0 + j)) (u j))) n.st).2 =
      (packBlocks (fun k => cotOf d (key (i0 + k)) (u k)) + chiSum (ne.dec r.2) (n.st.polys.map Prod.fst),
        packLsbs (fun k => cotOf d (key (i0 + k)) (u k)) + chiSum (ne.dec r.2) (n.st.polys.map Prod.snd)) := by
    have ep := packBlocks_congr (F := F) (fun k hk => withMacs_mac (ne.env [] (ne.dec r.2)) n.st.used 128 (fun j => cotOf d (key (i0 + j)) (u j)) k hk)
    have el := packLsbs_congr (F := F) (fun k hk => withMacs_mac (ne.env [] (ne.dec r.2)) n.st.used 128 (fun j => cotOf d (key (i0 + j)) (u j)) k hk)
    unfold prvPolyCheck polyCheckPrv
    rw [ep, el]
    exact Prod.ext (add_comm _ _) (add_comm _ _)
  have e2 : (prvPolyCheck ((ne.env [] (ne.dec r.2)).withMacs n.st.used ((List.range 128).map fun j => cotOf d (key (i0 + j)) (u j ^^ δ j))) n'.st).2 =
      (packBlocks (fun k => cotOf d (key (i0 + k)) (u k ^^ δ k)) + chiSum (ne.dec r.2) (n'.st.polys.map Prod.fst),
        packLsbs (fun k => cotOf d (key (i0 + k)) (u k ^^ δ k)) + chiSum (ne.dec r.2) (n'.st.polys.map Prod.snd)) := by
    have ep := packBlocks_congr (F := F) (fun k hk => withMacs_mac (ne.env [] (ne.dec r.2)) n.st.used 128 (fun j => cotOf d (key (i0 + j)) (u j ^^ δ j)) k hk)
    have el := packLsbs_congr (F := F) (fun k hk => withMacs_mac (ne.env [] (ne.dec r.2)) n.st.used 128 (fun j => cotOf d (key (i0 + j)) (u j ^^ δ j)) k hk)
    unfold prvPolyCheck polyCheckPrv
    rw [← hP.used, ep, el]
    exact Prod.ext (add_comm _ _) (add_comm _ _)
  simp only [e1, e2]
  rw [← ha]
  refine (CProg.Equi.refl _ _ j').bind ?_
  rintro j2 io2 _ rfl
  refine .done ⟨⟨rfl, ?_, hP.w, hP.pw, hP.pw', hP.g, hP.gc, hP.gc', rfl, hP.dg⟩, rfl⟩
  exact congrArg (· + 128) hP.used

theorem andRoom_viewB (hP : BPair d pl pl' n n') (hd : lsb d = true) (hk : ∀ j, lsb (key j) = false) (i : Nat) :
    CProg.Equi (fun j => cotOf d (key j)) (fun _ t t' => BPair d pl pl' t t') i (bAndRoom ne S n) (bAndRoom ne S n') := by
  unfold bAndRoom
  rw [hP.glen]
  split
  · exact (andCheck_viewB hP hd hk i).mono (fun _ _ _ h => h.1)
  · exact .done hP

theorem bpolys_nil_iff (hP : BPair d pl pl' n n') : n'.st.polys = [] ↔ n.st.polys = [] := by
  rw [← List.length_eq_zero_iff, ← List.length_eq_zero_iff, hP.plen]

theorem bgates_nil_iff (hP : BPair d pl pl' n n') : n'.st.gates = [] ↔ n.st.gates = [] := by
  rw [← List.length_eq_zero_iff, ← List.length_eq_zero_iff, hP.glen]

theorem polyRoom_viewB (hP : BPair d pl pl' n n') (hd : lsb d = true) (hk : ∀ j, lsb (key j) = false) (i : Nat) :
    CProg.Equi (fun j => cotOf d (key j)) (fun _ t t' => BPair d pl pl' t t') i (bPolyRoom ne S n) (bPolyRoom ne S n') := by
  unfold bPolyRoom
  rw [hP.plen]
  simp only [ne_eq, bpolys_nil_iff hP]
  split
  · exact (polyCheck_viewB hP hd hk i).mono (fun _ _ _ h => h.1)
  · exact .done hP

omit [PackField F] in
/-- One bit on the wire, then the end of the instruction. -/
theorem bit_viewB [BlockField F] (io : SndSt) (b : Bool) (i : Nat) {Φ : Nat → BPrv F → BPrv F → Prop} {s s' : PrvSt F}
    (h : ∀ io2, Φ i ⟨s, io2⟩ ⟨s', io2⟩) : CProg.Equi (fun j => cotOf d (key j)) Φ i
      ((bcalls S io [.bit b]).bind fun io => .done ⟨s, io⟩) ((bcalls S io [.bit b]).bind fun io => .done ⟨s', io⟩) :=
  .send _ (.done (h _))

/-- One instruction. -/
theorem step_viewB {q q' : Plain} {o o' : BOp} (hP : BPair d pl pl' n n') (hd : lsb d = true) (hk : ∀ j, lsb (key j) = false)
    (he : o.erase = o'.erase) (hq : plainStep pl o = some q) (hq' : plainStep pl' o' = some q') (hc : ∀ b ∈ q.claims, b = false)
    (hc' : ∀ b ∈ q'.claims, b = false) (hout : pl.outs = pl'.outs) (hout' : q.outs = q'.outs) (i : Nat) :
    CProg.Equi (fun j => cotOf d (key j)) (fun _ t t' => BPair d q q' t t') i (bprvStep ne S n o) (bprvStep ne S n' o') := by
  cases o <;> cases o' <;> simp only [BOp.erase, reduceCtorEq] at he
  case input.input b b' =>
    simp only [plainStep, Option.some.injEq] at hq hq'
    subst hq; subst hq'
    refine (equi_rcot (fun _ => b ^^ b') 1 hP.io hP.used i).bind ?_
    rintro j' ⟨⟨st, io⟩, l⟩ ⟨⟨st', io'⟩, l'⟩ ⟨h1, h2, h3, i0, u, h4, h5⟩
    simp only at h1 h2 h3 h4 h5
    subst h1 h2 h3 h4 h5
    have e1 := withMacs_mac ne.e n.st.used 1 (fun j => cotOf d (key (i0 + j)) (u j)) 0 (by omega)
    have e2 := withMacs_mac ne.e n'.st.used 1 (fun j => cotOf d (key (i0 + j)) (u j ^^ (b ^^ b'))) 0 (by omega)
    simp only [Nat.add_zero] at e1 e2
    have hb : (inputPrv (cotOf d (key i0) (u 0)) b).2 = (inputPrv (cotOf d (key i0) (u 0 ^^ (b ^^ b'))) b').2 := by
      simp only [inputPrv, lsb_cotOf hd (hk _)]
      cases b <;> cases b' <;> simp
    have hkey : keyOf d (inputPrv (cotOf d (key i0) (u 0)) b).1 = keyOf d (inputPrv (cotOf d (key i0) (u 0 ^^ (b ^^ b'))) b').1 := by
      rw [inputPrv_fst, inputPrv_fst, keyOf_cot hd (hk _), keyOf_cot hd (hk _), hb]
    have hlb := lsb_inputPrv (cotOf d (key i0) (u 0)) b
    have hlb' := lsb_inputPrv (cotOf d (key i0) (u 0 ^^ (b ^^ b'))) b'
    simp only [prvStep, e1, e2]
    generalize inputPrv (cotOf d (key i0) (u 0)) b = A at *
    generalize inputPrv (cotOf d (key i0) (u 0 ^^ (b ^^ b'))) b' = A' at *
    have := bit_viewB (S := S) (d := d) (key := key) io A.2 j'
      (Φ := fun _ t t' => BPair d { pl with wires := pl.wires ++ [b] } { pl' with wires := pl'.wires ++ [b'] } t t')
      (s := { n.st with wires := n.st.wires ++ [A.1], used := n.st.used + 1, transcript := n.st.transcript ++ [A.2] })
      (s' := { n'.st with wires := n'.st.wires ++ [A'.1], used := n'.st.used + 1, transcript := n'.st.transcript ++ [A'.2] })
      (fun io2 => ⟨rfl, congrArg (· + 1) hP.used, by simp only [List.map_append, List.map_singleton, hP.w, hkey],
        by simp only [List.map_append, List.map_singleton, ← hP.pw, hlb],
        by simp only [List.map_append, List.map_singleton, ← hP.pw', hlb'], hP.g, hP.gc, hP.gc', hP.p, hP.dg⟩)
    show CProg.Equi _ _ _ ((bcalls S io [.bit A.2]).bind _) ((bcalls S io [.bit A'.2]).bind _)
    rw [← hb] at this ⊢
    exact this
  case pub.pub b b' =>
    simp only [BOp.pub.injEq] at he
    subst he
    simp only [plainStep, Option.some.injEq] at hq hq'
    subst hq; subst hq'
    refine CProg.Equi.done ⟨hP.io, hP.used, ?_, ?_, ?_, hP.g, hP.gc, hP.gc', hP.p, hP.dg⟩
    · simp only [List.map_append, List.map_singleton, hP.w]
    · simp only [List.map_append, List.map_singleton, ← hP.pw, lsb_pubPrv]
    · simp only [List.map_append, List.map_singleton, ← hP.pw', lsb_pubPrv]
  case xor.xor a b a' b' =>
    simp only [BOp.xor.injEq] at he
    obtain ⟨rfl, rfl⟩ := he
    simp only [plainStep, Option.bind_eq_bind, Option.bind_eq_some_iff, Option.some.injEq] at hq hq'
    obtain ⟨x, hx, y, hy, rfl⟩ := hq
    obtain ⟨x', hx', y', hy', rfl⟩ := hq'
    unfold bprvStep
    rcases hP.wire a with ⟨h1, h2⟩ | ⟨m, m', h1, h2, h3, h4, h5⟩
    · simp only [prvStep, h1, h2]; exact .fail
    rcases hP.wire b with ⟨g1, g2⟩ | ⟨k, k', g1, g2, g3, g4, g5⟩
    · simp only [prvStep, h1, h2, g1, g2]; exact .fail
    rw [h4] at hx; rw [g4] at hy; rw [h5] at hx'; rw [g5] at hy'
    simp only [Option.some.injEq] at hx hy hx' hy'
    subst hx hy hx' hy'
    simp only [prvStep, h1, h2, g1, g2]
    refine CProg.Equi.done ⟨hP.io, hP.used, ?_, ?_, ?_, hP.g, hP.gc, hP.gc', hP.p, hP.dg⟩
    · simp only [List.map_append, List.map_singleton, hP.w, xorGate, ← xor_keyOf, h3, g3]
    · simp only [List.map_append, List.map_singleton, ← hP.pw, xorGate, lsb_add]
    · simp only [List.map_append, List.map_singleton, ← hP.pw', xorGate, lsb_add]
  case not.not a a' =>
    simp only [BOp.not.injEq] at he
    subst he
    simp only [plainStep, Option.bind_eq_bind, Option.bind_eq_some_iff, Option.some.injEq] at hq hq'
    obtain ⟨x, hx, rfl⟩ := hq
    obtain ⟨x', hx', rfl⟩ := hq'
    unfold bprvStep
    rcases hP.wire a with ⟨h1, h2⟩ | ⟨m, m', h1, h2, h3, h4, h5⟩
    · simp only [prvStep, h1, h2]; exact .fail
    rw [h4] at hx; rw [h5] at hx'
    simp only [Option.some.injEq] at hx hx'
    subst hx hx'
    simp only [prvStep, h1, h2]
    refine CProg.Equi.done ⟨hP.io, hP.used, ?_, ?_, ?_, hP.g, hP.gc, hP.gc', hP.p, hP.dg⟩
    · simp only [List.map_append, List.map_singleton, hP.w, notPrv, ← notVer_keyOf, h3]
    · simp only [List.map_append, List.map_singleton, ← hP.pw, notPrv, lsb_add, lsb_one, Bool.xor_true]
    · simp only [List.map_append, List.map_singleton, ← hP.pw', notPrv, lsb_add, lsb_one, Bool.xor_true]
  case and.and a b a' b' =>
    simp only [BOp.and.injEq] at he
    obtain ⟨rfl, rfl⟩ := he
    simp only [plainStep, Option.bind_eq_bind, Option.bind_eq_some_iff, Option.some.injEq] at hq hq'
    obtain ⟨x, hx, y, hy, rfl⟩ := hq
    obtain ⟨x', hx', y', hy', rfl⟩ := hq'
    unfold bprvStep
    rcases hP.wire a with ⟨h1, h2⟩ | ⟨m, m', h1, h2, h3, h4, h5⟩
    · simp only [h1, h2]; exact .fail
    rcases hP.wire b with ⟨g1, g2⟩ | ⟨k, k', g1, g2, g3, g4, g5⟩
    · simp only [h1, h2, g1, g2]; exact .fail
    rw [h4] at hx; rw [g4] at hy; rw [h5] at hx'; rw [g5] at hy'
    simp only [Option.some.injEq] at hx hy hx' hy'
    subst hx hy hx' hy'
    simp only [h1, h2, g1, g2]
    show CProg.Equi _ _ _ ((bAndRoom ne S n).bind _) ((bAndRoom ne S n').bind _)
    refine (andRoom_viewB hP hd hk i).bind ?_
    intro i1 t t' hT
    refine (equi_rcot (fun _ => (lsb m && lsb k) ^^ (lsb m' && lsb k')) 1 hT.io hT.used i1).bind ?_
    rintro j' ⟨⟨st, io⟩, l⟩ ⟨⟨st', io'⟩, l'⟩ ⟨f1, f2, f3, i0, u, f4, f5⟩
    simp only at f1 f2 f3 f4 f5
    subst f1 f2 f3 f4 f5
    have e1 := withMacs_mac ne.e t.st.used 1 (fun j => cotOf d (key (i0 + j)) (u j)) 0 (by omega)
    have e2 := withMacs_mac ne.e t'.st.used 1
      (fun j => cotOf d (key (i0 + j)) (u j ^^ ((lsb m && lsb k) ^^ (lsb m' && lsb k')))) 0 (by omega)
    simp only [Nat.add_zero] at e1 e2
    have hb : (andPrv m k (cotOf d (key i0) (u 0))).2 =
        (andPrv m' k' (cotOf d (key i0) (u 0 ^^ ((lsb m && lsb k) ^^ (lsb m' && lsb k'))))).2 := by
      simp only [andPrv, lsb_cotOf hd (hk _)]
      generalize (lsb m && lsb k) = p
      generalize (lsb m' && lsb k') = p'
      cases u 0 <;> cases p <;> cases p' <;> rfl
    have hkey : keyOf d (andPrv m k (cotOf d (key i0) (u 0))).1 =
        keyOf d (andPrv m' k' (cotOf d (key i0) (u 0 ^^ ((lsb m && lsb k) ^^ (lsb m' && lsb k'))))).1 := by
      rw [andPrv_fst, andPrv_fst, keyOf_cot hd (hk _), keyOf_cot hd (hk _), hb]
    have hlb := lsb_andPrv m k (cotOf d (key i0) (u 0))
    have hlb' := lsb_andPrv m' k' (cotOf d (key i0) (u 0 ^^ ((lsb m && lsb k) ^^ (lsb m' && lsb k'))))
    have hs1 : (ne.e.withMacs t.st.used ((List.range 1).map fun j => cotOf d (key (i0 + j)) (u j))).checkSz = ne.e.checkSz := rfl
    have hs2 : (ne.e.withMacs t'.st.used ((List.range 1).map fun j => cotOf d (key (i0 + j))
      (u j ^^ ((lsb m && lsb k) ^^ (lsb m' && lsb k'))))).checkSz = ne.e.checkSz := rfl
    simp only [prvAndPush, e1, e2, hs1, hs2, hT.glen]
    generalize andPrv m k (cotOf d (key i0) (u 0)) = A at *
    generalize andPrv m' k' (cotOf d (key i0) (u 0 ^^ ((lsb m && lsb k) ^^ (lsb m' && lsb k')))) = A' at *
    by_cases hlen : t.st.gates.length < ne.e.checkSz
    · rw [if_pos hlen, if_pos hlen]
      have := bit_viewB (S := S) (d := d) (key := key) io A.2 j'
        (Φ := fun _ t t' => BPair d { pl with wires := pl.wires ++ [lsb m && lsb k] } { pl' with wires := pl'.wires ++ [lsb m' && lsb k'] } t t')
        (s := { t.st with wires := t.st.wires ++ [A.1], used := t.st.used + 1, transcript := t.st.transcript ++ [A.2], gates := t.st.gates ++ [⟨m, k, A.1⟩] })
        (s' := { t'.st with wires := t'.st.wires ++ [A'.1], used := t'.st.used + 1, transcript := t'.st.transcript ++ [A'.2], gates := t'.st.gates ++ [⟨m', k', A'.1⟩] })
        (fun io2 => ⟨rfl, congrArg (· + 1) hT.used, by simp only [List.map_append, List.map_singleton, hT.w, hkey],
          by simp only [List.map_append, List.map_singleton, ← hT.pw, hlb],
          by simp only [List.map_append, List.map_singleton, ← hT.pw', hlb'],
          by simp only [List.map_append, List.map_singleton, hT.g, Gate.key, hkey, h3, g3],
          by simp only [List.forall_mem_append, List.forall_mem_singleton]; exact ⟨hT.gc, hlb⟩,
          by simp only [List.forall_mem_append, List.forall_mem_singleton]; exact ⟨hT.gc', hlb'⟩, hT.p, hT.dg⟩)
      show CProg.Equi _ _ _ ((bcalls S io [.bit A.2]).bind _) ((bcalls S io [.bit A'.2]).bind _)
      rw [← hb] at this ⊢
      exact this
    · rw [if_neg hlen, if_neg hlen]
      exact .fail
  case reveal.reveal a a' =>
    simp only [BOp.reveal.injEq] at he
    subst he
    simp only [plainStep, Option.bind_eq_bind, Option.bind_eq_some_iff, Option.some.injEq] at hq hq'
    obtain ⟨x, hx, rfl⟩ := hq
    obtain ⟨x', hx', rfl⟩ := hq'
    unfold bprvStep
    rcases hP.wire a with ⟨h1, h2⟩ | ⟨m, m', h1, h2, h3, h4, h5⟩
    · simp only [prvStep, h1, h2]; exact .fail
    rw [h4] at hx; rw [h5] at hx'
    simp only [Option.some.injEq] at hx hx'
    subst hx hx'
    simp only [hout, List.append_cancel_left_eq, List.cons.injEq, and_true] at hout'
    have hm := eq_of_keyOf h3 hout'
    subst hm
    simp only [prvStep, h1, h2]
    rw [← hP.io]
    exact bit_viewB (S := S) (d := d) (key := key) n.io (lsb m) i
      (fun io2 => ⟨rfl, hP.used, hP.w, hP.pw, hP.pw', hP.g, hP.gc, hP.gc', hP.p, by rw [hP.dg]⟩)
  case poly.poly st st' =>
    simp only [BOp.poly.injEq] at he
    subst he
    simp only [plainStep, Option.bind_eq_bind, Option.bind_eq_some_iff, Option.some.injEq] at hq hq'
    obtain ⟨x, hx, rfl⟩ := hq
    obtain ⟨x', hx', rfl⟩ := hq'
    rw [hP.pw, lookup_map, Option.map_eq_some_iff] at hx
    rw [hP.pw', lookup_map, Option.map_eq_some_iff] at hx'
    obtain ⟨p, hp, rfl⟩ := hx
    obtain ⟨p', hp', rfl⟩ := hx'
    have hz : (p.map lsb).eval = false := hc _ (by simp)
    have hz' : (p'.map lsb).eval = false := hc' _ (by simp)
    have hpk : p.map (keyOf d) = p'.map (keyOf d) := by
      have := congrArg st.lookup hP.w
      rw [lookup_map, lookup_map, hp, hp'] at this
      simpa using this
    unfold bprvStep
    simp only [hp, hp']
    show CProg.Equi _ _ _ ((bPolyRoom ne S n).bind _) ((bPolyRoom ne S n').bind _)
    refine (polyRoom_viewB hP hd hk i).bind ?_
    intro i1 t t' hT
    simp only [prvPolyPush, hT.plen]
    by_cases hlen : t.st.polys.length < ne.e.polySz
    · rw [if_pos hlen, if_pos hlen]
      refine CProg.Equi.done ⟨hT.io, hT.used, hT.w, hT.pw, hT.pw', hT.g, hT.gc, hT.gc', ?_, hT.dg⟩
      have k1 := stmtVer_keyOf d p
      have k2 := stmtVer_keyOf d p'
      rw [hz, bit_false, zero_mul, add_zero] at k1
      rw [hz', bit_false, zero_mul, add_zero] at k2
      simp only [List.map_append, List.map_singleton, hT.p, polyKey]
      rw [← k1, ← k2, hpk]
    · rw [if_neg hlen, if_neg hlen]
      exact .fail

theorem plainStep_grows {p q : Plain} {o : BOp} (h : plainStep p o = some q) : p.outs <+: q.outs ∧ p.claims <+: q.claims := by
  cases o <;> simp only [plainStep, Option.bind_eq_bind, Option.bind_eq_some_iff, Option.some.injEq] at h
  case input w => subst h; exact ⟨List.prefix_refl _, List.prefix_refl _⟩
  case pub w => subst h; exact ⟨List.prefix_refl _, List.prefix_refl _⟩
  case xor i j => obtain ⟨a, _, b, _, rfl⟩ := h; exact ⟨List.prefix_refl _, List.prefix_refl _⟩
  case and i j => obtain ⟨a, _, b, _, rfl⟩ := h; exact ⟨List.prefix_refl _, List.prefix_refl _⟩
  case not i => obtain ⟨a, _, rfl⟩ := h; exact ⟨List.prefix_refl _, List.prefix_refl _⟩
  case reveal i => obtain ⟨a, _, rfl⟩ := h; exact ⟨List.prefix_append _ _, List.prefix_refl _⟩
  case poly st => obtain ⟨a, _, rfl⟩ := h; exact ⟨List.prefix_refl _, List.prefix_append _ _⟩

theorem plainRun_grows (ops : List BOp) : ∀ {p q : Plain}, ops.foldlM plainStep p = some q → p.outs <+: q.outs ∧ p.claims <+: q.claims := by
  induction ops with
  | nil =>
    intro p q h
    simp only [List.foldlM_nil, Option.pure_def, Option.some.injEq] at h
    subst h
    exact ⟨List.prefix_refl _, List.prefix_refl _⟩
  | cons o os ih =>
    intro p q h
    simp only [List.foldlM_cons, Option.bind_eq_bind, Option.bind_eq_some_iff] at h
    obtain ⟨r, hr, hq⟩ := h
    have h1 := plainStep_grows hr
    have h2 := ih hq
    exact ⟨h1.1.trans h2.1, h1.2.trans h2.2⟩

theorem plainStep_outlen {p p' q q' : Plain} {o o' : BOp} (he : o.erase = o'.erase) (h : plainStep p o = some q)
    (h' : plainStep p' o' = some q') (hl : p.outs.length = p'.outs.length) : q.outs.length = q'.outs.length := by
  cases o <;> cases o' <;> simp only [BOp.erase, reduceCtorEq] at he <;>
    simp only [plainStep, Option.bind_eq_bind, Option.bind_eq_some_iff, Option.some.injEq] at h h'
  case input.input => subst h; subst h'; exact hl
  case pub.pub => subst h; subst h'; exact hl
  case xor.xor => obtain ⟨a, _, b, _, rfl⟩ := h; obtain ⟨a', _, b', _, rfl⟩ := h'; exact hl
  case and.and => obtain ⟨a, _, b, _, rfl⟩ := h; obtain ⟨a', _, b', _, rfl⟩ := h'; exact hl
  case not.not => obtain ⟨a, _, rfl⟩ := h; obtain ⟨a', _, rfl⟩ := h'; exact hl
  case reveal.reveal => obtain ⟨a, _, rfl⟩ := h; obtain ⟨a', _, rfl⟩ := h'; simp [hl]
  case poly.poly => obtain ⟨a, _, rfl⟩ := h; obtain ⟨a', _, rfl⟩ := h'; exact hl

/-- A whole program. -/
theorem run_viewB (hd : lsb d = true) (hk : ∀ j, lsb (key j) = false) (ops : List BOp) :
    ∀ {ops' : List BOp} {n n' : BPrv F} {pl pl' q q' : Plain}, BPair d pl pl' n n' →
      ops.map BOp.erase = ops'.map BOp.erase → ops.foldlM plainStep pl = some q →
      ops'.foldlM plainStep pl' = some q' → (∀ b ∈ q.claims, b = false) → (∀ b ∈ q'.claims, b = false) → pl.outs = pl'.outs → q.outs = q'.outs →
      ∀ i, CProg.Equi (fun j => cotOf d (key j)) (fun _ t t' => BPair d q q' t t') i (bprvRun ne S n ops) (bprvRun ne S n' ops') := by
  induction ops with
  | nil =>
    intro ops' n n' pl pl' q q' hM he hq hq' _ _ _ _ i
    have : ops' = [] := by simpa using he.symm
    subst this
    simp only [List.foldlM_nil, Option.pure_def, Option.some.injEq] at hq hq'
    subst hq; subst hq'
    exact .done hM
  | cons o os ih =>
    intro ops' n n' pl pl' q q' hM he hq hq' hc hc' hout hout' i
    cases ops' with
    | nil => simp at he
    | cons o' os' =>
      simp only [List.map_cons, List.cons.injEq] at he
      simp only [List.foldlM_cons, Option.bind_eq_bind, Option.bind_eq_some_iff] at hq hq'
      obtain ⟨r, hr, hq⟩ := hq
      obtain ⟨r', hr', hq'⟩ := hq'
      have g := plainRun_grows os hq
      have g' := plainRun_grows os' hq'
      have hl := plainStep_outlen he.1 hr hr' (by rw [hout])
      have hor : r.outs = r'.outs := by
        have h1 := List.prefix_of_prefix_length_le g.1 (hout' ▸ g'.1) (le_of_eq hl)
        exact h1.eq_of_length hl
      have hcr : ∀ x ∈ r.claims, x = false := fun x hx => hc x (g.2.subset hx)
      have hcr' : ∀ x ∈ r'.claims, x = false := fun x hx => hc' x (g'.2.subset hx)
      refine (step_viewB hM hd hk he.1 hr hr' hcr hcr' hout hor i).bind ?_
      intro j t t' hT
      exact ih hT he.2 hq hq' hc hc' hor hout' j

/-- The end of the session. -/
theorem fin_viewB (hP : BPair d pl pl' n n') (hd : lsb d = true) (hk : ∀ j, lsb (key j) = false) (i : Nat) :
    CProg.Equi (fun j => cotOf d (key j)) (fun _ t t' => BPair d pl pl' t t') i (bprvFin ne S n) (bprvFin ne S n') := by
  unfold bprvFin
  have h1 : CProg.Equi (fun j => cotOf d (key j)) (fun _ t t' => BPair d pl pl' t t') i (bFinPoly ne S n) (bFinPoly ne S n') := by
    unfold bFinPoly
    simp only [ne_eq, bpolys_nil_iff hP]
    split
    · exact (polyCheck_viewB hP hd hk i).mono (fun _ _ _ h => h.1)
    · exact .done hP
  refine h1.bind ?_
  intro i1 t t' hT
  have h2 : CProg.Equi (fun j => cotOf d (key j)) (fun _ t t' => BPair d pl pl' t t') i1 (bFinAnd ne S t) (bFinAnd ne S t') := by
    unfold bFinAnd
    simp only [ne_eq, bgates_nil_iff hT]
    split
    · exact (andCheck_viewB hT hd hk i1).mono (fun _ _ _ h => h.1)
    · exact .done hT
  refine h2.bind ?_
  intro i2 v v' hV
  rw [← hV.io, ← hV.dg]
  refine (CProg.Equi.refl _ _ i2).bind ?_
  rintro j io _ rfl
  exact .done ⟨rfl, hV.used, hV.w, hV.pw, hV.pw', hV.g, hV.gc, hV.gc', hV.p, hV.dg⟩

/-- A whole session. -/
theorem session_viewB {ops ops' : List BOp} {q q' : Plain} (hd : lsb d = true) (hk : ∀ j, lsb (key j) = false)
    (he : ops.map BOp.erase = ops'.map BOp.erase) (hq : plainRun ops = some q) (hq' : plainRun ops' = some q')
    (hc : ∀ b ∈ q.claims, b = false) (hc' : ∀ b ∈ q'.claims, b = false) (hout : q.outs = q'.outs) :
    CProg.Equi (fun j => cotOf d (key j)) (fun _ t t' => BPair d q q' t t') 0 (bprvProg ne S ops) (bprvProg ne S ops') := by
  unfold bprvProg
  refine (CProg.Equi.refl _ _ 0).bind ?_
  rintro j m _ rfl
  refine (run_viewB hd hk ops (n := ⟨PrvSt.init, m.1.io⟩) (n' := ⟨PrvSt.init, m.1.io⟩) (pl := ⟨[], [], []⟩) (pl' := ⟨[], [], []⟩)
    ⟨rfl, rfl, rfl, rfl, rfl, rfl, by simp [PrvSt.init], by simp [PrvSt.init], rfl, rfl⟩ he hq hq' hc hc' rfl hout j).bind ?_
  intro j' t t' hT
  exact fin_viewB hT hd hk j'

end

/-! ### how many correlations are used -/

section
variable {ne : NetEnv F} {S : Nat}

theorem asks_ofOptC {C α : Type} (a : Option α) : (CProg.ofOpt a : CProg C α).Asks 0 := by
  cases a with
  | none => exact .fail _
  | some a => exact .done _ _

theorem asks_askN {C : Type} (n : Nat) : (CProg.askN n : CProg C (List C)).Asks n := by
  induction n with
  | zero => exact .done _ _
  | succ n ih =>
    have := ih.bind (f := fun l => (CProg.cor CProg.done).bind fun x => .done (l ++ [x])) (l := 1) (fun l => .cor (fun x => .done _ _))
    rw [Nat.add_comm] at this
    exact this

omit [Field F] [PackField F] in
theorem asks_bcall (io : SndSt) (o : SOp) : (bcall S io o : CProg F _).Asks 0 := by
  cases o with
  | bit b => exact .send _ (.done _ _)
  | flush => exact .send _ (.done _ _)
  | data bs => exact .send _ (.done _ _)
  | hash => exact .send _ (.done _ _)
  | back n => exact .send _ (.recv _ fun b => .done _ _)

omit [Field F] [PackField F] in
theorem asks_bcalls (l : List SOp) : ∀ io, (bcalls S io l : CProg F _).Asks 0 := by
  induction l with
  | nil => intro io; exact .done _ _
  | cons o l ih => intro io; exact (asks_bcall io o).bind (l := 0) (fun r => ih r.1)

omit [PackField F] [Field F] in
theorem asks_brcot (n : BPrv F) (k : Nat) : (brcot ne S n k).Asks k :=
  ((asks_bcalls _ _).bind (l := k + 0) (fun _ => ((asks_askN k).bind (l := 0) (fun _ => .done _ _)).mono (by omega))).mono (by omega)

theorem asks_bAndCheck (n : BPrv F) : (bAndCheck ne S n).Asks 128 :=
  ((asks_bcall _ _).bind (l := 128) (fun _ => ((asks_brcot _ 128).bind (l := 0) (fun _ => (asks_ofOptC _).bind (l := 0)
    (fun _ => (asks_bcalls _ _).bind (l := 0) (fun _ => .done _ _)))).mono (by omega))).mono (by omega)

theorem asks_bPolyCheck (n : BPrv F) : (bPolyCheck ne S n).Asks 128 :=
  ((asks_bcall _ _).bind (l := 128) (fun _ => ((asks_brcot _ 128).bind (l := 0)
    (fun _ => (asks_bcalls _ _).bind (l := 0) (fun _ => .done _ _))).mono (by omega))).mono (by omega)

theorem asks_bstep (n : BPrv F) (o : BOp) : (bprvStep ne S n o).Asks 129 := by
  cases o with
  | input b =>
    exact ((asks_brcot n 1).bind (l := 0) (fun _ => (asks_ofOptC _).bind (l := 0)
      (fun _ => (asks_bcalls _ _).bind (l := 0) (fun _ => .done _ _)))).mono (by omega)
  | and i j =>
    have h : (bAndRoom ne S n).Asks 128 := by
      unfold bAndRoom; split
      · exact asks_bAndCheck n
      · exact .done _ _
    exact ((asks_ofOptC _).bind (l := 129) (fun _ => ((asks_ofOptC _).bind (l := 129) (fun _ => (h.bind (l := 1) (fun t =>
      ((asks_brcot t 1).bind (l := 0) (fun _ => (asks_ofOptC _).bind (l := 0)
        (fun _ => (asks_bcalls _ _).bind (l := 0) (fun _ => .done _ _)))).mono (by omega))).mono (by omega))).mono (by omega))).mono (by omega)
  | poly s =>
    have h : (bPolyRoom ne S n).Asks 128 := by
      unfold bPolyRoom; split
      · exact asks_bPolyCheck n
      · exact .done _ _
    exact ((asks_ofOptC _).bind (l := 128) (fun _ => (h.bind (l := 0) (fun t => (asks_ofOptC _).bind (l := 0) (fun _ => .done _ _))).mono
      (by omega))).mono (by omega)
  | reveal i =>
    exact ((asks_ofOptC _).bind (l := 0) (fun _ => (asks_bcalls _ _).bind (l := 0) (fun _ => .done _ _))).mono (by omega)
  | pub b => exact ((asks_ofOptC _).bind (l := 0) (fun _ => .done _ _)).mono (by omega)
  | xor i j => exact ((asks_ofOptC _).bind (l := 0) (fun _ => .done _ _)).mono (by omega)
  | not i => exact ((asks_ofOptC _).bind (l := 0) (fun _ => .done _ _)).mono (by omega)

theorem asks_brun (ops : List BOp) : ∀ n : BPrv F, (bprvRun ne S n ops).Asks (129 * ops.length) := by
  induction ops with
  | nil => intro n; exact .done _ _
  | cons o os ih =>
    intro n
    have := (asks_bstep (ne := ne) (S := S) n o).bind (fun t => ih t)
    rw [show 129 * (o :: os).length = 129 * os.length + 129 by simp only [List.length_cons]; omega]
    exact this

theorem asks_bprog (ops : List BOp) : (bprvProg ne S ops).Asks (257 + 129 * ops.length) := by
  have hf : ∀ n : BPrv F, (bprvFin ne S n).Asks 256 := by
    intro n
    have h1 : (bFinPoly ne S n).Asks 128 := by
      unfold bFinPoly; split
      · exact asks_bPolyCheck n
      · exact .done _ _
    have h2 : ∀ t, (bFinAnd ne S t).Asks 128 := by
      intro t
      unfold bFinAnd; split
      · exact asks_bAndCheck t
      · exact .done _ _
    exact h1.bind (l := 128) (fun t => ((h2 t).bind (l := 0) (fun _ => (asks_bcalls _ _).bind (l := 0) (fun _ => .done _ _))).mono (by omega))
  exact ((asks_brcot _ 1).bind (l := 256 + 129 * ops.length) (fun m => (asks_brun ops _).bind (l := 256) (fun n => hf n))).mono (by omega)

end
end
end EmpZk
