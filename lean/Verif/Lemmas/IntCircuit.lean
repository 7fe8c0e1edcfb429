/-
The circuits on integers compute what they should.
-/
import Verif.Lemmas.ConvEda
import Verif.Model.IntCircuit

namespace EmpZk

/-- Gates that only add wires. -/
def AddsW (ops : List BOp) (w w' : List Bool) : Prop := ∀ o cl, ops.foldlM plainStep ⟨w, o, cl⟩ = some ⟨w', o, cl⟩

/-- Wires `is` hold the bits `bs`. -/
def HoldsAt (w : List Bool) (is : List Nat) (bs : List Bool) : Prop := List.Forall₂ (fun i b => w[i]? = some b) is bs

theorem AddsW.nil (w : List Bool) : AddsW [] w w := fun _ _ => rfl

theorem AddsW.append {a b : List BOp} {w w' w'' : List Bool} (h : AddsW a w w') (h' : AddsW b w' w'') : AddsW (a ++ b) w w'' := by
  intro o cl
  rw [List.foldlM_append, h o cl]
  exact h' o cl

theorem AddsW.xor {i j : Nat} {ops : List BOp} {w w' : List Bool} {a b : Bool} (hi : w[i]? = some a) (hj : w[j]? = some b)
    (h : AddsW ops (w ++ [a ^^ b]) w') : AddsW (.xor i j :: ops) w w' := by
  intro o cl
  rw [List.foldlM_cons]
  simp only [plainStep, hi, hj, Option.bind_eq_bind, Option.bind_some]
  exact h o cl

theorem AddsW.and {i j : Nat} {ops : List BOp} {w w' : List Bool} {a b : Bool} (hi : w[i]? = some a) (hj : w[j]? = some b)
    (h : AddsW ops (w ++ [a && b]) w') : AddsW (.and i j :: ops) w w' := by
  intro o cl
  rw [List.foldlM_cons]
  simp only [plainStep, hi, hj, Option.bind_eq_bind, Option.bind_some]
  exact h o cl

theorem AddsW.pubs : ∀ (bs w : List Bool), AddsW (bs.map BOp.pub) w (w ++ bs) := by
  intro bs
  induction bs with
  | nil => intro w o cl; simp
  | cons b bs ih =>
    intro w o cl
    rw [List.map_cons, List.foldlM_cons]
    simp only [plainStep, Option.bind_eq_bind, Option.bind_some]
    rw [ih _ o cl]
    simp

theorem get_app {w : List Bool} {i : Nat} {b : Bool} (h : w[i]? = some b) (t : List Bool) : (w ++ t)[i]? = some b := by
  rw [List.getElem?_append_left (List.getElem?_eq_some_iff.1 h).1]
  exact h

theorem get_last {w : List Bool} {n : Nat} (hn : w.length = n) (b : Bool) : (w ++ [b])[n]? = some b := by
  subst hn; simp

theorem HoldsAt.app {w : List Bool} {is : List Nat} {bs : List Bool} (h : HoldsAt w is bs) (t : List Bool) : HoldsAt (w ++ t) is bs :=
  h.imp (fun _ _ hi => get_app hi t)

theorem HoldsAt.pick {w : List Bool} {is : List Nat} {bs : List Bool} (h : HoldsAt w is bs) : EmpZk.pick w is = some bs := by
  unfold EmpZk.pick
  induction h with
  | nil => rfl
  | cons h _ ih => rw [List.mapM_cons, h, ih]; rfl

/-- Pairs of wires hold pairs of bits. -/
def HoldsPr (w : List Bool) (ps : List (Nat × Nat)) (bs : List (Bool × Bool)) : Prop :=
  List.Forall₂ (fun p b => w[p.1]? = some b.1 ∧ w[p.2]? = some b.2) ps bs

theorem HoldsPr.app {w : List Bool} {ps : List (Nat × Nat)} {bs : List (Bool × Bool)} (h : HoldsPr w ps bs) (t : List Bool) :
    HoldsPr (w ++ t) ps bs :=
  h.imp (fun _ _ hi => ⟨get_app hi.1 t, get_app hi.2 t⟩)

theorem HoldsAt.zip {w : List Bool} {is js : List Nat} {as bs : List Bool} (h : HoldsAt w is as) (h' : HoldsAt w js bs) :
    HoldsPr w (is.zip js) (as.zip bs) := by
  induction h generalizing js bs with
  | nil => exact .nil
  | cons h1 _ ih =>
    cases h' with
    | nil => exact .nil
    | cons h2 h2' => exact .cons ⟨h1, h2⟩ (ih h2')

/-- Addition of pairs of bits with a carry. -/
def radd : Bool → List (Bool × Bool) → List Bool
  | _, [] => []
  | c, (a, b) :: ps => (a ^^ (b ^^ c)) :: radd (c ^^ ((a ^^ c) && (b ^^ c))) ps

/-- Subtraction of pairs of bits with a borrow. -/
def rsub : Bool → List (Bool × Bool) → List Bool
  | _, [] => []
  | c, (a, b) :: ps => ((a ^^ b) ^^ c) :: rsub (c ^^ ((a ^^ b) && (c ^^ b))) ps

theorem addGo_spec : ∀ (n c : Nat) (ps : List (Nat × Nat)) (w : List Bool) (cb : Bool) (bs : List (Bool × Bool)), w.length = n →
    w[c]? = some cb → HoldsPr w ps bs →
    ∃ t, AddsW (addGo n c ps).1 w (w ++ t) ∧ HoldsAt (w ++ t) (addGo n c ps).2.1 (radd cb bs) ∧ (addGo n c ps).2.2 = (w ++ t).length := by
  intro n c ps
  induction n, c, ps using addGo.induct with
  | case1 n c =>
    intro w cb bs hn hc h
    cases h
    exact ⟨[], by rw [List.append_nil]; exact AddsW.nil w, .nil, by simp [addGo, hn]⟩
  | case2 n c a b =>
    intro w cb bs hn hc h
    cases h with
    | cons h1 h2 =>
      cases h2
      rename_i q
      obtain ⟨x, y⟩ := q
      have e : (x ^^ (y ^^ cb)) = ((cb ^^ y) ^^ x) := by cases x <;> cases y <;> cases cb <;> rfl
      refine ⟨[cb ^^ y, (cb ^^ y) ^^ x], ?_, ?_, by simp [addGo, hn]⟩
      · refine AddsW.xor hc h1.2 (AddsW.xor (get_last hn _) (get_app h1.1 _) ?_)
        rw [List.append_assoc]
        exact AddsW.nil _
      · refine .cons ?_ .nil
        rw [e, show w ++ [cb ^^ y, (cb ^^ y) ^^ x] = (w ++ [cb ^^ y]) ++ [(cb ^^ y) ^^ x] by simp]
        exact get_last (by simp [hn]) _
  | case3 n c a b q ps ih =>
    intro w cb bs hn hc h
    cases h with
    | @cons _ xy _ bs' h1 h2 =>
      obtain ⟨x, y⟩ := xy
      simp only at h1
      have h2 : HoldsPr w _ bs' := h2
      have w1 := get_last hn (x ^^ cb)
      have w2 := get_last (w := w ++ [x ^^ cb]) (n := n + 1) (by simp [hn]) (y ^^ cb)
      have w3 := get_last (w := w ++ [x ^^ cb] ++ [y ^^ cb]) (n := n + 2) (by simp [hn]) (x ^^ (y ^^ cb))
      have w4 := get_last (w := w ++ [x ^^ cb] ++ [y ^^ cb] ++ [x ^^ (y ^^ cb)]) (n := n + 3) (by simp [hn]) ((x ^^ cb) && (y ^^ cb))
      have w5 := get_last (w := w ++ [x ^^ cb] ++ [y ^^ cb] ++ [x ^^ (y ^^ cb)] ++ [(x ^^ cb) && (y ^^ cb)]) (n := n + 4) (by simp [hn])
        (cb ^^ ((x ^^ cb) && (y ^^ cb)))
      obtain ⟨t, k1, k2, k3⟩ := ih (w ++ [x ^^ cb] ++ [y ^^ cb] ++ [x ^^ (y ^^ cb)] ++ [(x ^^ cb) && (y ^^ cb)] ++ [cb ^^ ((x ^^ cb) && (y ^^ cb))])
        _ bs' (by simp [hn]) w5 (((((h2.app _).app _).app _).app _).app _)
      refine ⟨[x ^^ cb] ++ [y ^^ cb] ++ [x ^^ (y ^^ cb)] ++ [(x ^^ cb) && (y ^^ cb)] ++ [cb ^^ ((x ^^ cb) && (y ^^ cb))] ++ t, ?_, ?_, ?_⟩
      · simp only [addGo, ← List.append_assoc]
        exact AddsW.xor h1.1 hc (AddsW.xor (get_app h1.2 _) (get_app hc _) (AddsW.xor (get_app (get_app h1.1 _) _) w2
          (AddsW.and (get_app (get_app w1 _) _) (get_app w2 _) (AddsW.xor (get_app (get_app (get_app (get_app hc _) _) _) _) w4 k1))))
      · simp only [addGo, ← List.append_assoc]
        exact .cons (get_app (get_app (get_app w3 _) _) _) k2
      · simp only [addGo, ← List.append_assoc]
        exact k3

theorem subGo_spec : ∀ (n c : Nat) (ps : List (Nat × Nat)) (w : List Bool) (cb : Bool) (bs : List (Bool × Bool)), w.length = n →
    w[c]? = some cb → HoldsPr w ps bs →
    ∃ t, AddsW (subGo n c ps).1 w (w ++ t) ∧ HoldsAt (w ++ t) (subGo n c ps).2.1 (rsub cb bs) ∧ (subGo n c ps).2.2 = (w ++ t).length := by
  intro n c ps
  induction n, c, ps using subGo.induct with
  | case1 n c =>
    intro w cb bs hn hc h
    cases h
    exact ⟨[], by rw [List.append_nil]; exact AddsW.nil w, .nil, by simp [subGo, hn]⟩
  | case2 n c a b =>
    intro w cb bs hn hc h
    cases h with
    | cons h1 h2 =>
      cases h2
      rename_i q
      obtain ⟨x, y⟩ := q
      refine ⟨[x ^^ y, (x ^^ y) ^^ cb], ?_, ?_, by simp [subGo, hn]⟩
      · refine AddsW.xor h1.1 h1.2 (AddsW.xor (get_last hn _) (get_app hc _) ?_)
        rw [List.append_assoc]
        exact AddsW.nil _
      · refine .cons ?_ .nil
        rw [show w ++ [x ^^ y, (x ^^ y) ^^ cb] = (w ++ [x ^^ y]) ++ [(x ^^ y) ^^ cb] by simp]
        exact get_last (by simp [hn]) _
  | case3 n c a b q ps ih =>
    intro w cb bs hn hc h
    cases h with
    | @cons _ xy _ bs' h1 h2 =>
      obtain ⟨x, y⟩ := xy
      simp only at h1
      have h2 : HoldsPr w _ bs' := h2
      have w1 := get_last hn (x ^^ y)
      have w2 := get_last (w := w ++ [x ^^ y]) (n := n + 1) (by simp [hn]) (cb ^^ y)
      have w3 := get_last (w := w ++ [x ^^ y] ++ [cb ^^ y]) (n := n + 2) (by simp [hn]) ((x ^^ y) ^^ cb)
      have w4 := get_last (w := w ++ [x ^^ y] ++ [cb ^^ y] ++ [(x ^^ y) ^^ cb]) (n := n + 3) (by simp [hn]) ((x ^^ y) && (cb ^^ y))
      have w5 := get_last (w := w ++ [x ^^ y] ++ [cb ^^ y] ++ [(x ^^ y) ^^ cb] ++ [(x ^^ y) && (cb ^^ y)]) (n := n + 4) (by simp [hn])
        (cb ^^ ((x ^^ y) && (cb ^^ y)))
      obtain ⟨t, k1, k2, k3⟩ := ih (w ++ [x ^^ y] ++ [cb ^^ y] ++ [(x ^^ y) ^^ cb] ++ [(x ^^ y) && (cb ^^ y)] ++ [cb ^^ ((x ^^ y) && (cb ^^ y))])
        _ bs' (by simp [hn]) w5 (((((h2.app _).app _).app _).app _).app _)
      refine ⟨[x ^^ y] ++ [cb ^^ y] ++ [(x ^^ y) ^^ cb] ++ [(x ^^ y) && (cb ^^ y)] ++ [cb ^^ ((x ^^ y) && (cb ^^ y))] ++ t, ?_, ?_, ?_⟩
      · simp only [subGo, ← List.append_assoc]
        exact AddsW.xor h1.1 h1.2 (AddsW.xor (get_app hc _) (get_app h1.2 _) (AddsW.xor (get_app w1 _) (get_app (get_app hc _) _)
          (AddsW.and (get_app (get_app w1 _) _) (get_app w2 _) (AddsW.xor (get_app (get_app (get_app (get_app hc _) _) _) _) w4 k1))))
      · simp only [subGo, ← List.append_assoc]
        exact .cons (get_app (get_app (get_app w3 _) _) _) k2
      · simp only [subGo, ← List.append_assoc]
        exact k3

theorem selGo_spec (s : Nat) : ∀ (n : Nat) (ps : List (Nat × Nat)) (w : List Bool) (sb : Bool) (bs : List (Bool × Bool)), w.length = n →
    w[s]? = some sb → HoldsPr w ps bs →
    ∃ t, AddsW (selGo s n ps).1 w (w ++ t) ∧ HoldsAt (w ++ t) (selGo s n ps).2.1 (bs.map (fun b => if sb then b.2 else b.1)) := by
  intro n ps
  induction ps generalizing n with
  | nil =>
    intro w sb bs hn hs h
    cases h
    exact ⟨[], by rw [List.append_nil]; exact AddsW.nil w, .nil⟩
  | cons p ps ih =>
    intro w sb bs hn hs h
    cases h with
    | @cons _ xy _ bs' h1 h2 =>
      obtain ⟨x, y⟩ := xy
      obtain ⟨a, b⟩ := p
      simp only at h1
      have h2 : HoldsPr w _ bs' := h2
      have w1 := get_last hn (x ^^ y)
      have w2 := get_last (w := w ++ [x ^^ y]) (n := n + 1) (by simp [hn]) ((x ^^ y) && sb)
      have w3 := get_last (w := w ++ [x ^^ y] ++ [(x ^^ y) && sb]) (n := n + 2) (by simp [hn]) (x ^^ ((x ^^ y) && sb))
      obtain ⟨t, k1, k2⟩ := ih (n + 3) (w ++ [x ^^ y] ++ [(x ^^ y) && sb] ++ [x ^^ ((x ^^ y) && sb)]) sb bs' (by simp [hn])
        (get_app (get_app (get_app hs _) _) _) (((h2.app _).app _).app _)
      refine ⟨[x ^^ y] ++ [(x ^^ y) && sb] ++ [x ^^ ((x ^^ y) && sb)] ++ t, ?_, ?_⟩
      · simp only [selGo, ← List.append_assoc]
        exact AddsW.xor h1.1 h1.2 (AddsW.and w1 (get_app hs _) (AddsW.xor (get_app (get_app h1.1 _) _) w2 k1))
      · simp only [selGo, ← List.append_assoc, List.map_cons]
        refine .cons ?_ k2
        have e : (if sb = true then y else x) = (x ^^ ((x ^^ y) && sb)) := by cases x <;> cases y <;> cases sb <;> rfl
        simp only [e]
        exact get_app w3 _

theorem numOf_radd : ∀ (as bs : List Bool) (c : Bool), as.length = bs.length →
    numOf (radd c (as.zip bs)) = (numOf as + numOf bs + c.toNat) % 2 ^ as.length := by
  intro as
  induction as with
  | nil => intro bs c h; simp [radd, numOf, Nat.mod_one]
  | cons a as ih =>
    intro bs c h
    cases bs with
    | nil => simp at h
    | cons b bs =>
      rw [List.zip_cons_cons, radd, numOf, ih bs _ (by simpa using h), numOf, numOf, List.length_cons, Nat.pow_succ]
      generalize 2 ^ as.length = m
      generalize numOf as = u
      generalize numOf bs = v
      have key : ∀ (r k q : Nat), r < 2 → q = r + 2 * k → r + 2 * (k % m) = q % (m * 2) := by
        intro r k q hr hq
        subst hq
        rcases Nat.eq_zero_or_pos m with rfl | hm
        · simp
        · have h1 := Nat.div_add_mod k m
          have h2 := Nat.mod_lt k hm
          have e : r + 2 * k = (r + 2 * (k % m)) + (m * 2) * (k / m) := by
            conv_lhs => rw [← h1]
            ring
          rw [e, Nat.add_mul_mod_self_left]
          exact (Nat.mod_eq_of_lt (by omega)).symm
      refine key _ _ _ (Bool.toNat_lt _) ?_
      cases a <;> cases b <;> cases c <;> simp <;> omega

theorem numOf_rsub : ∀ (as bs : List Bool) (c : Bool), as.length = bs.length →
    (numOf (rsub c (as.zip bs)) + numOf bs + c.toNat) % 2 ^ as.length = numOf as := by
  intro as
  induction as with
  | nil => intro bs c h; simp [numOf, Nat.mod_one]
  | cons a as ih =>
    intro bs c h
    cases bs with
    | nil => simp at h
    | cons b bs =>
      have h1 := ih bs (c ^^ ((a ^^ b) && (c ^^ b))) (by simpa using h)
      rw [List.zip_cons_cons, rsub, numOf, numOf, numOf, List.length_cons, Nat.pow_succ]
      have hlt := numOf_lt as
      generalize 2 ^ as.length = m at h1 hlt ⊢
      generalize numOf as = u at h1 hlt ⊢
      generalize numOf bs = v at h1 ⊢
      generalize numOf (rsub _ _) = s at h1 ⊢
      have key : ∀ (r k q : Nat), r < 2 → k % m = u → q = r + 2 * k → q % (m * 2) = r + 2 * u := by
        intro r k q hr hk hq
        subst hq
        have h1 := Nat.div_add_mod k m
        have e : r + 2 * k = (r + 2 * (k % m)) + (m * 2) * (k / m) := by
          conv_lhs => rw [← h1]
          ring
        rw [e, Nat.add_mul_mod_self_left, hk, Nat.mod_eq_of_lt (by omega)]
      refine key _ _ _ (Bool.toNat_lt _) h1 ?_
      cases a <;> cases b <;> cases c <;> simp <;> omega

theorem radd_length (c : Bool) (ps : List (Bool × Bool)) : (radd c ps).length = ps.length := by
  induction ps generalizing c with
  | nil => rfl
  | cons p ps ih => rw [radd, List.length_cons, ih, List.length_cons]

theorem rsub_length (c : Bool) (ps : List (Bool × Bool)) : (rsub c ps).length = ps.length := by
  induction ps generalizing c with
  | nil => rfl
  | cons p ps ih => rw [rsub, List.length_cons, ih, List.length_cons]

theorem radd_bits (x y : Int62) : radd false ((bits62 x).zip (bits62 y)) = bits62 (x + y) := by
  have hl : (radd false ((bits62 x).zip (bits62 y))).length = 62 := by
    rw [radd_length, List.length_zip, bits62_length, bits62_length]; rfl
  obtain ⟨h1, h2⟩ := bits62_of hl
  refine h1.trans (congrArg bits62 ?_)
  refine BitVec.eq_of_toNat_eq ?_
  rw [h2, ← numOf_valOf, numOf_radd _ _ _ (by rw [bits62_length, bits62_length]), numOf_bits62, numOf_bits62, bits62_length, BitVec.toNat_add]
  rfl

theorem rsub_bits (x y : Int62) : rsub false ((bits62 x).zip (bits62 y)) = bits62 (x - y) := by
  have hl : (rsub false ((bits62 x).zip (bits62 y))).length = 62 := by
    rw [rsub_length, List.length_zip, bits62_length, bits62_length]; rfl
  obtain ⟨h1, h2⟩ := bits62_of hl
  refine h1.trans (congrArg bits62 ?_)
  have h3 := numOf_rsub (bits62 x) (bits62 y) false (by rw [bits62_length, bits62_length])
  rw [numOf_bits62, numOf_bits62, bits62_length, numOf_valOf, ← h2] at h3
  generalize BitVec.ofNat 62 (valOf (rsub false ((bits62 x).zip (bits62 y)))) = d at h3 ⊢
  have h4 : d + y = x := by
    refine BitVec.eq_of_toNat_eq ?_
    rw [BitVec.toNat_add]
    exact h3
  rw [← h4, BitVec.add_sub_cancel]

theorem sel_bits (s : Bool) (x y : Int62) :
    ((bits62 x).zip (bits62 y)).map (fun b => if s then b.2 else b.1) = bits62 (if s then y else x) := by
  cases s
  · have : ((bits62 x).zip (bits62 y)).map Prod.fst = bits62 x :=
      List.map_fst_zip (by rw [bits62_length, bits62_length])
    simpa using this
  · have : ((bits62 x).zip (bits62 y)).map Prod.snd = bits62 y :=
      List.map_snd_zip (by rw [bits62_length, bits62_length])
    simpa using this

theorem holds_range (u v t : List Bool) : HoldsAt (u ++ v ++ t) ((List.range v.length).map (u.length + ·)) v := by
  refine List.forall₂_iff_get.2 ⟨by simp, ?_⟩
  intro i h1 h2
  simp only [List.get_eq_getElem, List.getElem_map, List.getElem_range]
  rw [List.append_assoc, List.getElem?_append_right (by omega), Nat.add_sub_cancel_left, List.getElem?_append_left h2,
    List.getElem?_eq_getElem h2]

theorem fixGo_spec (n : Nat) (ds : List Nat) (s : Nat) (k : Int62) (w : List Bool) (d : Int62) (hn : w.length = n)
    (hd : HoldsAt w ds (bits62 d)) (hs : w[s]? = some (d.getLsbD 61)) :
    ∃ t, AddsW (fixGo n ds s k).1 w (w ++ t) ∧ HoldsAt (w ++ t) (fixGo n ds s k).2 (bits62 (if d.getLsbD 61 then d + k else d)) := by
  have e0 : ((List.range 62).map (fun i => BOp.pub (k.getLsbD i)) ++ [BOp.pub false]) = (bits62 k ++ [false]).map BOp.pub := by
    rw [List.map_append, bits62, List.map_map]; rfl
  have r0 := AddsW.pubs (bits62 k ++ [false]) w
  have hk : HoldsAt (w ++ (bits62 k ++ [false])) ((List.range 62).map (n + ·)) (bits62 k) := by
    have := holds_range w (bits62 k) [false]
    rw [bits62_length, hn, List.append_assoc] at this
    exact this
  have hc : (w ++ (bits62 k ++ [false]))[n + 62]? = some false := by
    rw [← List.append_assoc]
    exact get_last (by rw [List.length_append, hn, bits62_length]) _
  obtain ⟨t, a1, a2, a3⟩ := addGo_spec (n + 63) (n + 62) _ _ false _ (by rw [List.length_append, List.length_append, hn, bits62_length]; rfl) hc
    ((hd.app _).zip hk)
  rw [radd_bits] at a2
  obtain ⟨t', b1, b2⟩ := selGo_spec s _ _ _ (d.getLsbD 61) _ a3.symm (get_app (get_app hs _) _) (((hd.app _).app _).zip a2)
  rw [sel_bits] at b2
  refine ⟨(bits62 k ++ [false]) ++ t ++ t', ?_, ?_⟩
  · unfold fixGo
    simp only [e0]
    have := (r0.append a1).append b1
    rw [← List.append_assoc, ← List.append_assoc w, ]
    exact this
  · unfold fixGo
    simp only
    rw [← List.append_assoc, ← List.append_assoc w]
    exact b2

theorem holds_inputs (x y : Int62) (t : List Bool) : HoldsPr (bits62 x ++ bits62 y ++ t) inPairs ((bits62 x).zip (bits62 y)) := by
  have h1 : HoldsAt (bits62 x ++ bits62 y ++ t) (List.range 62) (bits62 x) := by
    have := holds_range [] (bits62 x) (bits62 y ++ t)
    rw [bits62_length] at this
    simpa using this
  have h2 : HoldsAt (bits62 x ++ bits62 y ++ t) ((List.range 62).map (62 + ·)) (bits62 y) := by
    have := holds_range (bits62 x) (bits62 y) t
    rw [bits62_length, bits62_length] at this
    exact this
  have h3 := h1.zip h2
  have e : (List.range 62).zip ((List.range 62).map (62 + ·)) = inPairs := by decide
  rw [e] at h3
  exact h3

theorem holds_last {w : List Bool} {is : List Nat} {d : Int62} (h : HoldsAt w is (bits62 d)) : w[is.getLastD 0]? = some (d.getLsbD 61) := by
  have hl : is.length = 62 := by rw [h.length_eq, bits62_length]
  have hne : is ≠ [] := by intro h0; rw [h0] at hl; simp at hl
  have h1 := (List.forall₂_iff_get.1 h).2 61 (by omega) (by rw [bits62_length]; decide)
  simp only [List.get_eq_getElem] at h1
  have e : (bits62 d)[61]'(by rw [bits62_length]; decide) = d.getLsbD 61 := by
    simp [bits62]
  rw [e] at h1
  rw [← h1, List.getLastD_eq_getLast?, List.getLast?_eq_getLast_of_ne_nil hne, Option.getD_some, List.getLast_eq_getElem]
  simp only [hl]

theorem sumCirc_ok : sumCirc.Computes f2Sum := by
  intro x y o cl
  have h0 : AddsW ([false].map BOp.pub) (bits62 x ++ bits62 y) (bits62 x ++ bits62 y ++ [false]) := AddsW.pubs _ _
  have hl : (bits62 x ++ bits62 y).length = 124 := by rw [List.length_append, bits62_length, bits62_length]
  obtain ⟨t, a1, a2, a3⟩ := addGo_spec 125 124 inPairs (bits62 x ++ bits62 y ++ [false]) false _ (by rw [List.length_append, hl]; rfl)
    (get_last hl _) (holds_inputs x y _)
  rw [radd_bits] at a2
  obtain ⟨t', b1, b2⟩ := fixGo_spec _ _ _ prI2 _ _ a3.symm a2 (holds_last a2)
  exact ⟨_, ((h0.append a1).append b1) o cl, b2.pick⟩

theorem diffCirc_ok : diffCirc.Computes f2Diff := by
  intro x y o cl
  have h0 : AddsW ([false].map BOp.pub) (bits62 x ++ bits62 y) (bits62 x ++ bits62 y ++ [false]) := AddsW.pubs _ _
  have hl : (bits62 x ++ bits62 y).length = 124 := by rw [List.length_append, bits62_length, bits62_length]
  obtain ⟨t, a1, a2, a3⟩ := subGo_spec 125 124 inPairs (bits62 x ++ bits62 y ++ [false]) false _ (by rw [List.length_append, hl]; rfl)
    (get_last hl _) (holds_inputs x y _)
  rw [rsub_bits] at a2
  obtain ⟨t', b1, b2⟩ := fixGo_spec _ _ _ prI _ _ a3.symm a2 (holds_last a2)
  exact ⟨_, ((h0.append a1).append b1) o cl, b2.pick⟩

end EmpZk
