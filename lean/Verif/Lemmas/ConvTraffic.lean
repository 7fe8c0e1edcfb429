/-
The prover of a program with bits, field elements and conversions makes the same kinds of calls for all witnesses.
-/
import Verif.Spec.ConvTraffic
import Verif.Lemmas.MixTraffic
import Verif.Lemmas.ArithSession
import Verif.Props.EdaBits

namespace EmpZk

/-! ### arithmetic part -/

/-- States of the two provers: the same numbers. -/
structure ASame (s s' : APrv) : Prop where
  wires : s.wires.length = s'.wires.length
  used : s.used = s'.used
  gates : s.gates.length = s'.gates.length
  polys : s.polys.length = s'.polys.length

theorem coeff_orel (a b : W) (n : Nat) : ORel (fun _ _ => True) (uniHashCoeffGen a n) (uniHashCoeffGen b n) := by
  cases n with
  | zero => exact .none
  | succ n => exact .some trivial

theorem taskA_orel {l l' : List AGate} (h : l.length = l'.length) (a b : U128) : ORel (fun _ _ => True) (taskA l a) (taskA l' b) := by
  unfold taskA
  rw [h]
  exact ORel.bind (coeff_orel _ _ _) (fun _ _ _ => .some trivial)

theorem tasksA_orel {l l' : List AGate} (h : l.length = l'.length) (sd sd' : Nat → U128) (ts : List (Nat × Nat)) : ∀ i acc acc',
    ORel (fun _ _ => True) (tasksA l sd ts i acc) (tasksA l' sd' ts i acc') := by
  induction ts with
  | nil => intro i acc acc'; exact .some trivial
  | cons t ts ih =>
    intro i acc acc'
    exact ORel.bind (taskA_orel (by simp [taskSlice, h]) _ _) (fun _ _ _ => ih _ _ _)

theorem mulCheckA_orel {l l' : List AGate} (h : l.length = l'.length) {n n' : Nat} (hn : n = n') (sd sd' : Nat → U128) (o o' : U128) :
    ORel (fun _ _ => True) (mulCheckA l n sd o) (mulCheckA l' n' sd' o') := by
  refine ORel.bind (R := fun _ _ => True) ?_ (fun _ _ _ => .some trivial)
  unfold mulSumsA
  rw [h, hn]
  split
  · exact taskA_orel h _ _
  · cases splitTasks l'.length n' with
    | none => exact .none
    | some ts => exact tasksA_orel h _ _ ts _ _ _

theorem apolyCheckA_orel {l l' : List (W × W)} (h : l.length = l'.length) (a b : W) (o o' : U128) :
    ORel (fun _ _ => True) (apolyCheckA l a o) (apolyCheckA l' b o') := by
  unfold apolyCheckA
  rw [h]
  exact ORel.bind (coeff_orel _ _ _) (fun _ _ _ => .some trivial)

theorem alookup_orel {l l' : List U128} (h : l.length = l'.length) (st : APoly Nat) : ORel (fun _ _ => True) (st.lookup l) (st.lookup l') := by
  have e : l.map (fun _ => ()) = l'.map (fun _ => ()) := by
    rw [List.map_const', List.map_const', h]
  have e1 := congrArg st.lookup e
  rw [alookup_map, alookup_map] at e1
  cases h1 : st.lookup l <;> cases h2 : st.lookup l' <;> rw [h1, h2] at e1
  · exact .none
  · simp at e1
  · simp at e1
  · exact .some trivial

theorem encW_len (w : W) : (encW w).length = 8 := leBytes_length _ _

theorem encAns_len (a : W × W) : (encAns a).length = 16 := by simp [encAns, encW_len]

theorem encDig_len (a : BitVec 256) : (encDig a).length = 32 := leBytes_length _ _

theorem encWs_len (l : List W) : (encWs l).length = l.length * 8 := by
  induction l with
  | nil => rfl
  | cons a l ih =>
    show (encW a ++ encWs l).length = _
    rw [List.length_append, encW_len, ih, List.length_cons]
    omega

theorem kind_data {a b : List Byte} (h : a.length = b.length) : (SOp.data a).kind = (SOp.data b).kind := congrArg Kind.data h

section
variable {F : Type} [Field F] [BlockField F] {M : Kind → List Byte → List Byte → Prop} {ce ce' : ConvEnv F} {s s' : APrv}

theorem extAS_alike (hc : ce.Same ce') {k k' n n' : Nat} (hk : k = k') (hn : n = n') :
    Alike M (fun _ _ => True) (extAS ce k n) (extAS ce' k' n') := by
  subst hk
  subst hn
  exact Alike.calls (hc.av n k)

theorem amulCheckS_alike (hc : ce.Same ce') (k : Nat) (h : ASame s s') : Alike M ASame (amulCheckS ce k s) (amulCheckS ce' k s') := by
  refine .call rfl (fun _ _ _ => .call rfl (fun sd sd' hsd => .call rfl (fun _ _ _ => ?_)))
  refine (Alike.opt (mulCheckA_orel h.gates hc.threads _ _ _ _)).bind (fun a a' _ => (extAS_alike hc rfl h.used).bind (fun _ _ _ => ?_))
  exact .call (kind_data (by rw [encAns_len, encAns_len])) (fun _ _ _ => .call rfl (fun _ _ _ => .done ⟨h.wires, congrArg (· + 1) h.used, rfl, h.polys⟩))

theorem apolyCheckS_alike (hc : ce.Same ce') (k : Nat) (h : ASame s s') : Alike M ASame (apolyCheckS ce k s) (apolyCheckS ce' k s') := by
  refine .call rfl (fun _ _ _ => .call rfl (fun sd sd' hsd => ?_))
  refine (Alike.opt (apolyCheckA_orel h.polys _ _ _ _)).bind (fun a a' _ => (extAS_alike hc rfl h.used).bind (fun _ _ _ => ?_))
  exact .call (kind_data (by rw [encAns_len, encAns_len])) (fun _ _ _ => .done ⟨h.wires, congrArg (· + 1) h.used, h.gates, rfl⟩)

theorem amulRoomS_alike (hc : ce.Same ce') (k : Nat) (h : ASame s s') : Alike M ASame (amulRoomS ce k s) (amulRoomS ce' k s') := by
  unfold amulRoomS
  rw [h.gates, hc.checkSz]
  split
  · exact amulCheckS_alike hc k h
  · exact .done h

theorem apolyRoomS_alike (hc : ce.Same ce') (k : Nat) (h : ASame s s') : Alike M ASame (apolyRoomS ce k s) (apolyRoomS ce' k s') := by
  unfold apolyRoomS
  simp only [ne_eq, h.polys, hc.polySz, nil_iff_len h.polys]
  split
  · exact apolyCheckS_alike hc k h
  · exact .done h

theorem ASame.push (h : ASame s s') (a a' : U128) : ASame { s with wires := s.wires ++ [a] } { s' with wires := s'.wires ++ [a'] } :=
  ⟨by simp [h.wires], h.used, h.gates, h.polys⟩

theorem aopS_alike (hc : ce.Same ce') (k : Nat) (h : ASame s s') {o o' : AOp} (ho : o.erase = o'.erase) :
    Alike M ASame (aopS ce k s o) (aopS ce' k s' o') := by
  have hd : ∀ {r r' : APrv × AMsg}, ASame r.1 r'.1 → Alike M ASame (.call (.data (encW r.2.w)) (fun _ => .done r.1))
      (.call (.data (encW r'.2.w)) (fun _ => .done r'.1)) :=
    fun hr => .call (kind_data (by rw [encW_len, encW_len])) (fun _ _ _ => .done hr)
  cases o with
  | input w =>
    cases o' <;> simp only [AOp.erase, reduceCtorEq] at ho
    refine (extAS_alike hc rfl h.used).bind (fun _ _ _ => (Alike.opt (R := fun r r' => ASame r.1 r'.1) (.some ?_)).bind (fun _ _ hr => hd hr))
    exact ⟨by simp [h.wires], by simp [h.used], h.gates, h.polys⟩
  | pub w =>
    cases o' <;> simp only [AOp.erase, reduceCtorEq, AOp.pub.injEq] at ho
    exact .done (h.push _ _)
  | add i j =>
    cases o' <;> simp only [AOp.erase, reduceCtorEq, AOp.add.injEq] at ho
    obtain ⟨rfl, rfl⟩ := ho
    refine (Alike.opt (R := fun r r' => ASame r.1 r'.1) ?_).bind (fun _ _ hr => .done hr)
    exact (get_orel h.wires i).bind (fun _ _ _ => (get_orel h.wires j).bind (fun _ _ _ => .some (h.push _ _)))
  | mul i j =>
    cases o' <;> simp only [AOp.erase, reduceCtorEq, AOp.mul.injEq] at ho
    obtain ⟨rfl, rfl⟩ := ho
    refine (Alike.opt (get_orel h.wires i)).bind (fun a a' _ => (Alike.opt (get_orel h.wires j)).bind (fun b b' _ =>
      (amulRoomS_alike hc k h).bind (fun r r' hr => (extAS_alike hc rfl hr.used).bind (fun _ _ _ =>
        (Alike.opt (R := fun q q' => ASame q.1 q'.1) ?_).bind (fun q q' hq =>
          .call (kind_data (by rw [encW_len, encW_len])) (fun _ _ _ => .done hq))))))
    have e : (r.gates.length < ce.env.checkSz) = (r'.gates.length < ce'.env.checkSz) := by
      show (r.gates.length < ce.base.checkSz) = (r'.gates.length < ce'.base.checkSz)
      rw [hr.gates, hc.checkSz]
    unfold aprvMulPush
    by_cases hlt : r'.gates.length < ce'.env.checkSz
    · rw [if_pos hlt, if_pos (e ▸ hlt)]
      exact .some ⟨by simp [hr.wires], by simp [hr.used], by simp [hr.gates], hr.polys⟩
    · rw [if_neg hlt, if_neg (e ▸ hlt)]
      exact .none
  | mulc i c =>
    cases o' <;> simp only [AOp.erase, reduceCtorEq, AOp.mulc.injEq] at ho
    obtain ⟨rfl, rfl⟩ := ho
    refine (Alike.opt (R := fun r r' => ASame r.1 r'.1) ?_).bind (fun _ _ hr => .done hr)
    exact (get_orel h.wires i).bind (fun _ _ _ => .some (h.push _ _))
  | reveal i =>
    cases o' <;> simp only [AOp.erase, reduceCtorEq, AOp.reveal.injEq] at ho
    subst ho
    refine (Alike.opt (R := fun r r' => ASame r.1 r'.1) ?_).bind (fun _ _ hr => hd hr)
    exact (get_orel h.wires i).bind (fun _ _ _ => .some ⟨h.wires, h.used, h.gates, h.polys⟩)
  | revealCheck i x =>
    cases o' <;> simp only [AOp.erase, reduceCtorEq, AOp.revealCheck.injEq] at ho
    obtain ⟨rfl, rfl⟩ := ho
    refine (Alike.opt (R := fun r r' => ASame r.1 r'.1) ?_).bind (fun _ _ hr => hd hr)
    exact (get_orel h.wires i).bind (fun _ _ _ => .some ⟨h.wires, h.used, h.gates, h.polys⟩)
  | revealZero i =>
    cases o' <;> simp only [AOp.erase, reduceCtorEq, AOp.revealZero.injEq] at ho
    subst ho
    refine (Alike.opt (R := fun r r' => ASame r.1 r'.1) ?_).bind (fun _ _ hr => .done hr)
    exact (get_orel h.wires i).bind (fun _ _ _ => .some ⟨h.wires, h.used, h.gates, h.polys⟩)
  | poly st =>
    cases o' <;> simp only [AOp.erase, reduceCtorEq, AOp.poly.injEq] at ho
    subst ho
    refine (Alike.opt (alookup_orel h.wires st)).bind (fun a a' _ => (apolyRoomS_alike hc k h).bind (fun r r' hr => Alike.opt ?_))
    have e : (r.polys.length < ce.env.polySz) = (r'.polys.length < ce'.env.polySz) := by
      show (r.polys.length < ce.base.polySz) = (r'.polys.length < ce'.base.polySz)
      rw [hr.polys, hc.polySz]
    unfold aprvPolyPush
    by_cases hlt : r'.polys.length < ce'.env.polySz
    · rw [if_pos hlt, if_pos (e ▸ hlt)]
      exact .some ⟨hr.wires, hr.used, hr.gates, by simp [hr.polys]⟩
    · rw [if_neg hlt, if_neg (e ▸ hlt)]
      exact .none

theorem afinS_alike (hc : ce.Same ce') (k : Nat) (h : ASame s s') : Alike M ASame (afinS ce k s) (afinS ce' k s') := by
  unfold afinS
  refine Alike.bind (R := ASame) ?_ (fun a b hab => Alike.bind (R := ASame) ?_ (fun c d hcd => ?_))
  · simp only [ne_eq, nil_iff_len h.polys]
    split
    · exact apolyCheckS_alike hc k h
    · exact .done h
  · simp only [ne_eq, nil_iff_len hab.gates]
    split
    · exact amulCheckS_alike hc k hab
    · exact .done hab
  · exact .call (kind_data (by rw [encDig_len, encDig_len])) (fun _ _ _ => .done hcd)

end

/-! ### edaBits and conversions -/

/-- Lists of lists of the same lengths. -/
def Shape {α β : Type} (l : List (List α)) (l' : List (List β)) : Prop := l.map List.length = l'.map List.length

section
variable {α β : Type} {l : List (List α)} {l' : List (List β)}

theorem Shape.len (h : Shape l l') : l.length = l'.length := by
  have := congrArg List.length h
  simpa using this

theorem Shape.cons {a : List α} {b : List β} (h1 : a.length = b.length) (h : Shape l l') : Shape (a :: l) (b :: l') := by
  simp only [Shape, List.map_cons, h1, List.cons.injEq, true_and]
  exact h

theorem Shape.tail {a : List α} {b : List β} (h : Shape (a :: l) (b :: l')) : a.length = b.length ∧ Shape l l' := by
  simpa only [Shape, List.map_cons, List.cons.injEq] using h

theorem Shape.append {m : List (List α)} {m' : List (List β)} (h : Shape l l') (h1 : Shape m m') : Shape (l ++ m) (l' ++ m') := by
  simp only [Shape, List.map_append]
  rw [h, h1]

theorem Shape.take (h : Shape l l') (n : Nat) : Shape (l.take n) (l'.take n) := by
  simp only [Shape, List.map_take]
  rw [h]

theorem Shape.drop (h : Shape l l') (n : Nat) : Shape (l.drop n) (l'.drop n) := by
  simp only [Shape, List.map_drop]
  rw [h]

theorem Shape.flat (h : Shape l l') : l.flatten.length = l'.flatten.length := by
  rw [List.length_flatten, List.length_flatten]
  exact congrArg List.sum h

theorem Shape.get (h : Shape l l') (i : Nat) : ORel (fun a b => a.length = b.length) l[i]? l'[i]? := by
  have e := congrArg (fun m => m[i]?) h
  simp only [List.getElem?_map] at e
  cases h1 : l[i]? <;> cases h2 : l'[i]? <;> rw [h1, h2] at e
  · exact .none
  · simp at e
  · simp at e
  · exact .some (by simpa using e)

theorem shape_map {γ : Type} {f : γ → List α} {g : γ → List β} (h : ∀ x, (f x).length = (g x).length) (m : List γ) :
    Shape (m.map f) (m.map g) := by
  simp only [Shape, List.map_map]
  exact List.map_congr_left (fun x _ => h x)

theorem chunk_shape (n : Nat) {x : List α} {y : List β} (h : x.length = y.length) : Shape (chunk62 n x) (chunk62 n y) :=
  shape_map (fun i => by simp [h]) _

theorem sendS_alike {M : Kind → List Byte → List Byte → Prop} {γ δ : Type} {R : γ → δ → Prop} {a b : List Byte} (h : a.length = b.length) {k : SProg γ} {k' : SProg δ} (hk : Alike M R k k') :
    Alike M R (sendS a k) (sendS b k') := by
  unfold sendS
  simp only [nil_iff_len h]
  split
  · exact .call rfl (fun _ _ _ => hk)
  · exact .call (kind_data h) (fun _ _ _ => hk)

end

theorem inputs_erase' {l l' : List Bool} (h : l.length = l'.length) :
    (l.map BOp.input).map BOp.erase = (l'.map BOp.input).map BOp.erase := by
  have e : ∀ m : List Bool, (m.map BOp.input).map BOp.erase = List.replicate m.length (BOp.input false) := by
    intro m
    induction m with
    | nil => rfl
    | cons b m ih => rw [List.map_cons, List.map_cons, ih, List.length_cons, List.replicate_succ]; rfl
  rw [e, e, h]

theorem candBits_erase : ∀ {ms ms' : List U128}, ms.length = ms'.length →
    (ms.flatMap (fun m => (bitsW (high64 m)).map BOp.input)).map BOp.erase =
      (ms'.flatMap (fun m => (bitsW (high64 m)).map BOp.input)).map BOp.erase := by
  intro ms
  induction ms with
  | nil =>
    intro ms' h
    rw [List.length_eq_zero_iff.mp h.symm]
  | cons m ms ih =>
    intro ms' h
    cases ms' with
    | nil => simp at h
    | cons m' ms' =>
      simp only [List.flatMap_cons, List.map_append]
      rw [ih (by simpa using h), inputs_erase' (l := bitsW (high64 m)) (l' := bitsW (high64 m')) (by simp [bitsW])]

section
variable {F : Type} [Field F] [BlockField F] {M : Kind → List Byte → List Byte → Prop} {ce ce' : ConvEnv F} {ne ne' : NetEnv F}

/-- States of the two provers: the same numbers. -/
structure CSame (s s' : CPrv F) : Prop where
  b : PSame s.b s'.b
  a : ASame s.a s'.a
  eda : s.eda = s'.eda
  cand : Shape s.cand s'.cand
  fp : s.fp.length = s'.fp.length

/-- Public bits: also for other values. -/
theorem pubs_alike (l : List Bool) : ∀ {l' : List Bool} {b b' : PrvSt F}, l.length = l'.length → PSame b b' →
    Alike M PSame (bopsS ne b (l.map BOp.pub)) (bopsS ne' b' (l'.map BOp.pub)) := by
  induction l with
  | nil =>
    intro l' b b' h hb
    rw [List.length_eq_zero_iff.mp h.symm]
    exact .done hb
  | cons x l ih =>
    intro l' b b' h hb
    cases l' with
    | nil => simp at h
    | cons x' l' =>
      have hl : l.length = l'.length := by simpa using h
      exact ih (l' := l') hl (hb.push _ _)

theorem PSame.setWires {b b' : PrvSt F} (h : PSame b b') {w w' : List F} (hw : w.length = w'.length) :
    PSame { b with wires := w } { b' with wires := w' } := ⟨hw, h.used, h.gates, h.polys, h.outs⟩

theorem circS_alike (hn : ne.Same ne') {b b' : PrvSt F} (h : PSame b b') (c : Circ62) {x x' y y' : List F} (hx : x.length = x'.length)
    (hy : y.length = y'.length) :
    Alike M (fun r r' => PSame r.1 r'.1 ∧ r.2.length = r'.2.length) (circS ne b c x y) (circS ne' b' c x' y') :=
  (bopsS_alike hn rfl (h.setWires (by simp [hx, hy]))).bind (fun r r' hr => (Alike.opt (pick_orel hr.wires c.out)).bind (fun o o' ho =>
    .done ⟨hr.setWires h.wires, ho.1.trans ho.2.symm⟩))

theorem sumsS_alike (hn : ne.Same ne') (c : Circ62) {cand cand' : List (List F)} (hc : Shape cand cand') (ps : List (Nat × Nat)) :
    ∀ {b b' : PrvSt F}, PSame b b' → Alike M (fun r r' => PSame r.1 r'.1) (sumsS ne c cand b ps) (sumsS ne' c cand' b' ps) := by
  induction ps with
  | nil => intro b b' h; exact .done h
  | cons p ps ih =>
    intro b b' h
    exact (Alike.opt (hc.get p.1)).bind (fun x x' hx => (Alike.opt (hc.get p.2)).bind (fun y y' hy => (circS_alike hn h c hx hy).bind
      (fun r r' hr => (ih hr.1).bind (fun q q' hq => .done hq))))

variable {s s' : CPrv F}

theorem openS_alike (h : CSame s s') {ms ms' : List U128} (hm : ms.length = ms'.length) (ls ls' : List (List F)) :
    Alike M CSame (openS s ms ls) (openS s' ms' ls') :=
  sendS_alike (by rw [encWs_len, encWs_len]; simp [hm]) (.done ⟨h.b, h.a, h.eda, h.cand, h.fp⟩)

/-- The two points agree, or both leave room for the opened candidates. -/
def PtRel (c : EdaCfg) (a b : Nat) : Prop := a = b ∨ (0 < c.N ∧ 0 < c.C ∧ a + c.C ≤ c.ellF ∧ b + c.C ≤ c.ellF)

/-- Related messages of four bytes are such points. -/
def PtOk (c : EdaCfg) (M : Kind → List Byte → List Byte → Prop) : Prop := ∀ x y, M (.back 4) x y → PtRel c (leVal x) (leVal y)

/-- All candidates are there, with 62 labels each. -/
structure Stocked (c : EdaCfg) (s : CPrv F) : Prop where
  fp : s.eda.npPt + c.ell ≤ s.fp.length
  cand : s.cand.length = c.ell
  bits : ∀ l ∈ s.cand, l.length = 62

theorem get_two {α β : Type} {l : List α} {l' : List β} (h : l.length = l'.length) {i i' : Nat} (hi : i = i' ∨ (i < l.length ∧ i' < l.length)) :
    ORel (fun _ _ => True) l[i]? l'[i']? := by
  rcases hi with rfl | ⟨h1, h2⟩
  · exact get_orel h i
  · rw [List.getElem?_eq_getElem h1, List.getElem?_eq_getElem (h ▸ h2)]
    exact .some trivial

theorem cand_two {l l' : List (List F)} (h : Shape l l') {i i' : Nat} (hi : i = i' ∨ (i < l.length ∧ i' < l.length ∧ ∀ x ∈ l, x.length = 62)) :
    ORel (fun a b => a.length = b.length) l[i]? l'[i']? := by
  rcases hi with rfl | ⟨h1, h2, h3⟩
  · exact h.get i
  · have h2' : i' < l'.length := h.len ▸ h2
    rw [List.getElem?_eq_getElem h1, List.getElem?_eq_getElem h2']
    rcases h.get i' with ⟨_, e⟩ | ⟨a, b, e1, e2, e3⟩
    · rw [List.getElem?_eq_getElem h2'] at e; cases e
    · rw [List.getElem?_eq_getElem h2] at e1
      rw [List.getElem?_eq_getElem h2'] at e2
      cases e1
      cases e2
      refine .some ?_
      rw [← e3, h3 _ (List.getElem_mem h1), h3 _ (List.getElem_mem h2)]

theorem pick_two {α β : Type} {l : List α} {l' : List β} (h : l.length = l'.length) {is js : List Nat} (hn : is.length = js.length)
    (hi : is = js ∨ ((∀ i ∈ is, i < l.length) ∧ ∀ i ∈ js, i < l.length)) : ORel (fun a b => a.length = b.length) (pick l is) (pick l' js) := by
  rcases hi with rfl | ⟨h1, h2⟩
  · exact Or.imp_right (fun ⟨x, y, e1, e2, e3⟩ => ⟨x, y, e1, e2, e3.1.trans e3.2.symm⟩) (pick_orel h is)
  · obtain ⟨x, hx⟩ := pick_some l is h1
    obtain ⟨y, hy⟩ := pick_some l' js (fun i hi => h ▸ h2 i hi)
    rw [hx.1, hy.1]
    exact .some (by rw [hx.2.1, hy.2.1, hn])

theorem sumsS_two (hn : ne.Same ne') (c : Circ62) {cand cand' : List (List F)} (hc : Shape cand cand') {f f' : Nat → Nat}
    (hf : ∀ i, f i = f' i ∨ (f i < cand.length ∧ f' i < cand.length ∧ ∀ x ∈ cand, x.length = 62)) (is : List Nat) :
    ∀ {b b' : PrvSt F}, PSame b b' → Alike M (fun r r' => PSame r.1 r'.1) (sumsS ne c cand b (is.map (fun i => (i, f i))))
      (sumsS ne' c cand' b' (is.map (fun i => (i, f' i)))) := by
  induction is with
  | nil => intro b b' h; exact .done h
  | cons p ps ih =>
    intro b b' h
    exact (Alike.opt (hc.get p)).bind (fun x x' hx => (Alike.opt (cand_two hc (hf p))).bind (fun y y' hy => (circS_alike hn h c hx hy).bind
      (fun r r' hr => (ih hr.1).bind (fun q q' hq => .done hq))))

/-- The two provers with their points. -/
def AtPts (c : EdaCfg) (rp rp' : Nat) (s s' : CPrv F) : Prop := CSame s s' ∧ PtRel c rp rp' ∧ (rp ≠ rp' → Stocked c s)

theorem openS_two {rp rp' : Nat} {c : EdaCfg} (h : AtPts c rp rp' s s') {ms ms' : List U128} (hm : ms.length = ms'.length) (ls ls' : List (List F)) :
    Alike M (AtPts c rp rp') (openS s ms ls) (openS s' ms' ls') :=
  sendS_alike (by rw [encWs_len, encWs_len]; simp [hm]) (.done ⟨⟨h.1.b, h.1.a, h.1.eda, h.1.cand, h.1.fp⟩, h.2.1,
    fun hne => ⟨(h.2.2 hne).fp, (h.2.2 hne).cand, (h.2.2 hne).bits⟩⟩)

theorem partners_two {c : EdaCfg} {rp rp' j : Nat} (hj : j < c.bm1) (h : PtRel c rp rp') (i : Nat) :
    partnerF2 c rp j i = partnerF2 c rp' j i ∨ (rp ≠ rp' ∧ partnerF2 c rp j i < c.ell ∧ partnerF2 c rp' j i < c.ell) := by
  by_cases hne : rp = rp'
  · exact .inl (by rw [hne])
  · rcases h with h | ⟨h1, h2, h3, h4⟩
    · exact absurd h hne
    · exact .inr ⟨hne, partner_lt h1 (by omega) hj, partner_lt h1 (by omega) hj⟩

theorem passS_alike (hc : ce.Same ce') {rp rp' : Nat} (h : AtPts ce'.cfg rp rp' s s') {j : Nat} (hj : j < ce'.cfg.bm1) :
    Alike M (AtPts ce'.cfg rp rp') (passS ce rp s j) (passS ce' rp' s' j) := by
  have hp := partners_two hj h.2.1
  unfold passS
  rw [h.1.eda, hc.cfg, hc.sum]
  refine (Alike.opt (R := fun a b => a.length = b.length) ?_).bind (fun ms ms' hms => (sumsS_two hc.ne ce'.sum h.1.cand
    (f := fun i => partnerF2 ce'.cfg rp j i) (f' := fun i => partnerF2 ce'.cfg rp' j i) (fun i => ?_) _ h.1.b).bind
    (fun r r' hr => .call rfl (fun _ _ _ => openS_two (by exact ⟨⟨hr, h.1.a, rfl, h.1.cand, h.1.fp⟩, h.2.1,
      fun hne => ⟨h.1.eda ▸ (h.2.2 hne).fp, (h.2.2 hne).cand, (h.2.2 hne).bits⟩⟩) hms _ _)))
  · generalize List.range ce'.cfg.N = is
    induction is with
    | nil => exact .some rfl
    | cons i is ih =>
      rw [List.mapM_cons, List.mapM_cons]
      refine ORel.bind (R := fun _ _ => True) ((get_orel h.1.fp _).bind (fun _ _ _ => (get_two h.1.fp ?_).bind (fun _ _ _ => .some trivial)))
        (fun _ _ _ => ORel.bind ih (fun _ _ hab => .some (by simp [hab])))
      rw [partnerFp_eq, partnerFp_eq]
      rcases hp i with e | ⟨hne, e1, e2⟩
      · exact .inl (by rw [e])
      · have := (h.2.2 hne).fp
        rw [h.1.eda] at this
        exact .inr ⟨by omega, by omega⟩
  · rcases hp i with e | ⟨hne, e1, e2⟩
    · exact .inl e
    · have := (h.2.2 hne).cand
      exact .inr ⟨by omega, by omega, (h.2.2 hne).bits⟩

theorem passesS_alike (hc : ce.Same ce') {rp rp' : Nat} (js : List Nat) (hj : ∀ j ∈ js, j < ce'.cfg.bm1) : ∀ {s s' : CPrv F},
    AtPts ce'.cfg rp rp' s s' → Alike M CSame (passesS ce rp s js) (passesS ce' rp' s' js) := by
  induction js with
  | nil => intro s s' h; exact .done h.1
  | cons j js ih => intro s s' h; exact (passS_alike hc h (hj j (by simp))).bind (fun _ _ hr => ih (fun x hx => hj x (by simp [hx])) hr)

theorem tripleS_alike (hc : ce.Same ce') (h : CSame s s') : Alike M CSame (tripleS ce s) (tripleS ce' s') :=
  .call (kind_data (by rw [hc.dig, hc.dig'])) (fun _ _ _ => .done ⟨h.b, h.a, h.eda, h.cand, h.fp⟩)

theorem refillS_alike (hc : ce.Same ce') (h : CSame s s') : Alike M CSame (refillS ce s) (refillS ce' s') := by
  unfold refillS
  rw [h.eda, hc.cfg, hc.npSz, h.a.used]
  split
  · exact (Alike.calls (hc.ed _ _)).bind (fun _ _ _ => .done ⟨h.b, h.a, rfl, h.cand, hc.cand _⟩)
  · exact .done h

theorem inputsS_alike (hn : ne.Same ne') : ∀ {x x' : List Bool} {b b' : PrvSt F}, x.length = x'.length → PSame b b' →
    Alike M (fun r r' => PSame r r' ∧ r.wires.length = b.wires.length + x.length) (bopsS ne b (x.map BOp.input)) (bopsS ne' b' (x'.map BOp.input)) := by
  intro x
  induction x with
  | nil =>
    intro x' b b' hx h
    cases x' with
    | nil => exact .done ⟨h, rfl⟩
    | cons => simp at hx
  | cons a x ih =>
    intro x' b b' hx h
    cases x' with
    | nil => simp at hx
    | cons a' x' =>
      have h1 : Alike M (fun r r' => PSame r r' ∧ r.wires.length = b.wires.length + 1) (bopS ne b (.input a)) (bopS ne' b' (.input a')) := by
        simp only [bopS]
        rw [h.used]
        refine (rcot_alike hn _ _).bind (fun _ _ _ => (Alike.opt (R := fun r r' => PSame r.1 r'.1 ∧ r.1.wires.length = b.wires.length + 1)
          (.some ?_)).bind (fun a b hab => .call rfl (fun _ _ _ => .done hab)))
        exact ⟨⟨by simp [h.wires], by simp [h.used], h.gates, h.polys, h.outs⟩, by simp⟩
      refine h1.bind (fun r r' hr => (ih (by simpa using hx) hr.1).mono (fun q q' hq => ⟨hq.1, ?_⟩))
      rw [hq.2, hr.2, List.length_cons]
      omega

theorem candBits_flat (ms : List U128) : ms.flatMap (fun m => (bitsW (high64 m)).map BOp.input) =
    (ms.flatMap (fun m => bitsW (high64 m))).map BOp.input := by
  rw [List.map_flatMap]

theorem candBits_len (ms : List U128) : (ms.flatMap (fun m => bitsW (high64 m))).length = 62 * ms.length := by
  induction ms with
  | nil => rfl
  | cons m ms ih => rw [List.flatMap_cons, List.length_append, ih, List.length_cons]; simp [bitsW]; omega

theorem chunk_bits {α : Type} {n : Nat} {l : List α} (h : l.length = 62 * n) : ∀ x ∈ chunk62 n l, x.length = 62 := by
  intro x hx
  simp only [chunk62, List.mem_map, List.mem_range] at hx
  obtain ⟨i, hi, rfl⟩ := hx
  rw [List.length_take, List.length_drop, h]
  omega

theorem pick_room {α : Type} {l : List α} : ∀ {g : List Nat} {es : List α}, pick l g = some es → ∀ i ∈ g, i < l.length := by
  intro g
  induction g with
  | nil => intro es _ i hi; simp at hi
  | cons k g ih =>
    intro es h i hi
    unfold pick at h
    rw [List.mapM_cons] at h
    cases hk : l[k]? with
    | none => rw [hk] at h; cases h
    | some x =>
      cases hg : g.mapM (fun i => l[i]?) with
      | none => rw [hk, hg] at h; cases h
      | some y =>
        rcases List.mem_cons.1 hi with rfl | hi
        · exact (List.getElem?_eq_some_iff.1 hk).1
        · exact ih hg i hi

theorem chooseS_alike (hc : ce.Same ce') (hM : PtOk ce'.cfg M) (h : CSame s s') :
    Alike M (fun r r' => AtPts ce'.cfg r.2 r'.2 r.1 r'.1) (chooseS ce s) (chooseS ce' s') := by
  unfold chooseS
  rw [h.eda, hc.cfg]
  rcases pick_orel h.fp ((List.range ce'.cfg.ell).map (s'.eda.npPt + ·)) with ⟨e1, e2⟩ | ⟨ms, ms', e1, e2, hms⟩
  · rw [e1, e2]; exact .fail
  rw [e1, e2]
  have hroom : s'.eda.npPt + ce'.cfg.ell ≤ s.fp.length ∨ ce'.cfg.ell = 0 := by
    rcases Nat.eq_zero_or_pos ce'.cfg.ell with h0 | h0
    · exact .inr h0
    · have := pick_room e1 (s'.eda.npPt + (ce'.cfg.ell - 1)) (List.mem_map.2 ⟨_, List.mem_range.2 (by omega), rfl⟩)
      exact .inl (by omega)
  simp only [List.length_map, List.length_range] at hms
  show Alike M _ (SProg.bind (bopsS _ _ _) _) (SProg.bind (bopsS _ _ _) _)
  rw [candBits_flat, candBits_flat]
  refine (inputsS_alike hc.ne (by rw [candBits_len, candBits_len, hms.1, hms.2]) h.b).bind
    (fun b1 b1' hb => .call rfl (fun _ _ _ => .call rfl (fun d d' hd => ?_)))
  have hpt := hM _ _ (hd trivial)
  rw [candBits_len, hms.1] at hb
  have hl : (b1.wires.drop s.b.wires.length).length = (b1'.wires.drop s'.b.wires.length).length := by simp [hb.1.wires, h.b.wires]
  have hl62 : (b1.wires.drop s.b.wires.length).length = 62 * ce'.cfg.ell := by rw [List.length_drop, hb.2]; omega
  have hcl : (chunk62 ce'.cfg.ell (b1.wires.drop s.b.wires.length)).length = ce'.cfg.ell := by simp [chunk62]
  have hne : leVal d ≠ leVal d' → 0 < ce'.cfg.N ∧ leVal d + ce'.cfg.C ≤ ce'.cfg.ellF ∧ leVal d' + ce'.cfg.C ≤ ce'.cfg.ellF ∧
      s'.eda.npPt + ce'.cfg.ell ≤ s.fp.length := by
    intro hh
    rcases hpt with e | ⟨k1, k2, k3, k4⟩
    · exact absurd e hh
    · refine ⟨k1, k3, k4, hroom.resolve_right ?_⟩
      have : ce'.cfg.ellF ≤ ce'.cfg.ell := Nat.sub_le _ _
      omega
  have hin : ∀ r, leVal d ≠ leVal d' → r + ce'.cfg.C ≤ ce'.cfg.ellF → ∀ i ∈ openedIdx ce'.cfg r, i < ce'.cfg.ell := by
    intro r hh hr i hi
    obtain ⟨k1, -⟩ := hne hh
    simp only [openedIdx, List.mem_map, List.mem_range] at hi
    obtain ⟨k, hk, rfl⟩ := hi
    unfold EdaCfg.ellF at hr
    omega
  refine (Alike.opt (pick_two (chunk_shape _ hl).len (by simp [openedIdx]) ?_)).bind (fun ls ls' _ => (Alike.opt (pick_two h.fp
    (by simp [openedIdx]) ?_)).bind (fun mo mo' hmo => (openS_two (by exact ⟨⟨hb.1.setWires h.b.wires, h.a, rfl, chunk_shape _ hl, h.fp⟩, hpt,
      fun hh => ⟨(hne hh).2.2.2, hcl, chunk_bits hl62⟩⟩) hmo _ _).bind (fun _ _ hr => .done hr)))
  · by_cases hh : leVal d = leVal d'
    · exact .inl (by rw [hh])
    · rw [hcl]
      exact .inr ⟨hin _ hh (hne hh).2.1, hin _ hh (hne hh).2.2.1⟩
  · by_cases hh : leVal d = leVal d'
    · exact .inl (by rw [hh])
    · refine .inr ⟨?_, ?_⟩ <;> intro i hi <;> obtain ⟨k, hk, rfl⟩ := List.mem_map.1 hi
      · have := hin _ hh (hne hh).2.1 k hk
        have := (hne hh).2.2.2
        show s'.eda.npPt + k < _
        omega
      · have := hin _ hh (hne hh).2.2.1 k hk
        have := (hne hh).2.2.2
        show s'.eda.npPt + k < _
        omega

theorem CSame.setEda (h : CSame s s') {e e' : EdaState} (he : e = e') : CSame { s with eda := e } { s' with eda := e' } :=
  ⟨h.b, h.a, he, h.cand, h.fp⟩

theorem CSame.setB (h : CSame s s') {b b' : PrvSt F} (hb : PSame b b') : CSame { s with b := b } { s' with b := b' } :=
  ⟨hb, h.a, h.eda, h.cand, h.fp⟩

theorem genS_alike (hc : ce.Same ce') (hM : PtOk ce'.cfg M) (h : CSame s s') : Alike M CSame (genS ce s) (genS ce' s') := by
  refine (refillS_alike hc h).bind (fun s1 s1' h1 => (chooseS_alike hc hM (h1.setEda (by rw [h1.eda, hc.cfg, hc.npSz]))).bind (fun r r' hr => ?_))
  rw [hc.cfg]
  exact (passesS_alike hc _ (fun j hj => List.mem_range.1 hj) hr).bind (fun _ _ hq => tripleS_alike hc hq)

theorem nextS_alike (hc : ce.Same ce') (hM : PtOk ce'.cfg M) (h : CSame s s') :
    Alike M (fun r r' => CSame r.1 r'.1 ∧ r.2.1.length = r'.2.1.length ∧ r.2.2 = r'.2.2) (nextS ce s) (nextS ce' s') := by
  unfold nextS
  refine Alike.bind (R := CSame) ?_ (fun s1 s1' h1 => ?_)
  · rw [h.eda]
    split
    · exact genS_alike hc hM (h.setEda rfl)
    · exact .done h
  · rw [h1.eda]
    exact (Alike.opt (h1.cand.get _)).bind (fun l l' hl => .done ⟨h1.setEda rfl, hl, rfl⟩)

theorem revealS_alike (hn : ne.Same ne') {b b' : PrvSt F} (h : PSame b b') {x x' : List F} (hx : x.length = x'.length) :
    Alike M (fun r r' => PSame r.1 r'.1) (revealS ne b x) (revealS ne' b' x') := by
  unfold revealS
  rw [hx]
  exact (bopsS_alike hn rfl (h.setWires hx)).bind (fun _ _ hr => .done (hr.setWires h.wires))

/-- Differences: labels of the same lengths, the same indices. -/
theorem b2aDiffS_alike (hc : ce.Same ce') (hM : PtOk ce'.cfg M) : ∀ {xs xs' : List (List F)} {s s' : CPrv F}, Shape xs xs' → CSame s s' →
    Alike M (fun r r' => CSame r.1 r'.1 ∧ r.2.map (fun q => (q.1.length, q.2)) = r'.2.map (fun q => (q.1.length, q.2))) (b2aDiffS ce s xs)
      (b2aDiffS ce' s' xs') := by
  intro xs
  induction xs with
  | nil =>
    intro xs' s s' hx h
    rw [List.length_eq_zero_iff.mp hx.len.symm]
    exact .done ⟨h, rfl⟩
  | cons x xs ih =>
    intro xs' s s' hx h
    cases xs' with
    | nil => cases hx.len
    | cons x' xs' =>
      refine (nextS_alike hc hM h).bind (fun n n' hn => ?_)
      rw [hc.diff]
      exact (circS_alike hc.ne hn.1.b ce'.diff hx.tail.1 hn.2.1).bind (fun r r' hr => (ih hx.tail.2 (hn.1.setB hr.1)).bind
        (fun q q' hq => .done ⟨hq.1, by simp only [List.map_cons, hq.2, hr.2, hn.2.2]⟩))

theorem b2aOpenS_alike (hn : ne.Same ne') : ∀ {ds ds' : List (List F × Nat)} {b b' : PrvSt F},
    ds.map (fun q => (q.1.length, q.2)) = ds'.map (fun q => (q.1.length, q.2)) → PSame b b' →
    Alike M (fun r r' => PSame r.1 r'.1 ∧ r.2.map Prod.fst = r'.2.map Prod.fst) (b2aOpenS ne b ds) (b2aOpenS ne' b' ds') := by
  intro ds
  induction ds with
  | nil =>
    intro ds' b b' hd h
    cases ds' with
    | nil => exact .done ⟨h, rfl⟩
    | cons => simp at hd
  | cons d ds ih =>
    intro ds' b b' hd h
    cases ds' with
    | nil => simp at hd
    | cons d' ds' =>
      simp only [List.map_cons, List.cons.injEq, Prod.mk.injEq] at hd
      exact (revealS_alike hn h hd.1.1).bind (fun r r' hr => (ih hd.2 hr).bind (fun q q' hq => .done ⟨hq.1, by
        simp only [List.map_cons, hq.2, hd.1.2]⟩))

theorem b2aOutA_orel {fp fp' : List U128} (h : fp.length = fp'.length) : ∀ {l l' : List (Nat × W)}, l.map Prod.fst = l'.map Prod.fst →
    ORel (fun a b => a.length = b.length) (b2aOutA fp l) (b2aOutA fp' l') := by
  intro l
  induction l with
  | nil =>
    intro l' hl
    cases l' with
    | nil => exact .some rfl
    | cons => simp at hl
  | cons q l ih =>
    intro l' hl
    cases l' with
    | nil => simp at hl
    | cons q' l' =>
      simp only [List.map_cons, List.cons.injEq] at hl
      unfold b2aOutA at ih ⊢
      rw [List.mapM_cons, List.mapM_cons, hl.1]
      exact ORel.bind (R := fun _ _ => True) ((get_orel h _).bind (fun _ _ _ => .some trivial)) (fun _ _ _ => ORel.bind (ih hl.2)
        (fun _ _ hab => .some (by simp [hab])))

theorem b2aRoundS_alike (hc : ce.Same ce') (hM : PtOk ce'.cfg M) (fl : Bool) (h : CSame s s') {xs xs' : List (List F)} (hx : Shape xs xs') :
    Alike M (fun r r' => CSame r.1 r'.1 ∧ r.2.length = r'.2.length) (b2aRoundS ce fl s xs) (b2aRoundS ce' fl s' xs') := by
  refine (b2aDiffS_alike hc hM hx h).bind (fun d d' hd => (b2aOpenS_alike hc.ne hd.2 hd.1.b).bind (fun q q' hq => ?_))
  have hr : Alike M (fun (r r' : CPrv F × List U128) => CSame r.1 r'.1 ∧ r.2.length = r'.2.length)
      ((SProg.ofOpt (b2aOutA d.1.fp q.2)).bind (fun o => .done ({ d.1 with b := q.1 }, o)))
      ((SProg.ofOpt (b2aOutA d'.1.fp q'.2)).bind (fun o => .done ({ d'.1 with b := q'.1 }, o))) :=
    (Alike.opt (b2aOutA_orel hd.1.fp hq.2)).bind (fun o o' ho => .done ⟨hd.1.setB hq.1, ho⟩)
  cases fl with
  | true => exact .call rfl (fun _ _ _ => hr)
  | false => exact hr

theorem b2aBulkS_alike (hc : ce.Same ce') (hM : PtOk ce'.cfg M) (ns : List Nat) : ∀ {xs xs' : List (List F)} {s s' : CPrv F}, Shape xs xs' → CSame s s' →
    Alike M (fun r r' => CSame r.1 r'.1 ∧ r.2.length = r'.2.length) (b2aBulkS ce s ns xs) (b2aBulkS ce' s' ns xs') := by
  induction ns with
  | nil => intro xs xs' s s' hx h; exact .done ⟨h, rfl⟩
  | cons n ns ih =>
    intro xs xs' s s' hx h
    unfold b2aBulkS
    rw [hx.len]
    split
    · exact (b2aRoundS_alike hc hM true h (hx.take n)).bind (fun r r' hr => (ih (hx.drop n) hr.1).bind (fun q q' hq =>
        .done ⟨hq.1, by simp [hr.2, hq.2]⟩))
    · exact .fail

theorem a2bSumS_alike (hc : ce.Same ce') (hM : PtOk ce'.cfg M) : ∀ {xs xs' : List U128} {s s' : CPrv F}, xs.length = xs'.length → CSame s s' →
    Alike M (fun r r' => CSame r.1 r'.1 ∧ r.2.map (fun q => q.2.length) = r'.2.map (fun q => q.2.length)) (a2bSumS ce s xs)
      (a2bSumS ce' s' xs') := by
  intro xs
  induction xs with
  | nil =>
    intro xs' s s' hx h
    rw [List.length_eq_zero_iff.mp hx.symm]
    exact .done ⟨h, rfl⟩
  | cons x xs ih =>
    intro xs' s s' hx h
    cases xs' with
    | nil => cases hx
    | cons x' xs' =>
      refine (nextS_alike hc hM h).bind (fun n n' hn => ?_)
      rw [hn.2.2]
      exact (Alike.opt (get_orel hn.1.fp _)).bind (fun m m' _ => (ih (by simpa using hx) hn.1).bind (fun q q' hq => .done ⟨hq.1, by
        simp only [List.map_cons, hq.2, hn.2.1]⟩))

theorem a2bOutS_alike (hn : ne.Same ne') (c : Circ62) : ∀ {ds ds' : List (W × List F)} {b b' : PrvSt F},
    ds.map (fun q => q.2.length) = ds'.map (fun q => q.2.length) → PSame b b' →
    Alike M (fun r r' => PSame r.1 r'.1 ∧ Shape r.2 r'.2) (a2bOutS ne c b ds) (a2bOutS ne' c b' ds') := by
  intro ds
  induction ds with
  | nil =>
    intro ds' b b' hd h
    cases ds' with
    | nil => exact .done ⟨h, rfl⟩
    | cons => simp at hd
  | cons d ds ih =>
    intro ds' b b' hd h
    cases ds' with
    | nil => simp at hd
    | cons d' ds' =>
      simp only [List.map_cons, List.cons.injEq] at hd
      exact (pubs_alike (bitsW d.1) (l' := bitsW d'.1) (by simp [bitsW]) (h.setWires rfl)).bind (fun b1 b1' hb =>
        (circS_alike hn (hb.setWires h.wires) c hb.wires hd.1).bind (fun r r' hr => (ih hd.2 hr.1).bind (fun q q' hq =>
          .done ⟨hq.1, hq.2.cons hr.2⟩)))

theorem a2bRoundS_alike (hc : ce.Same ce') (hM : PtOk ce'.cfg M) (fl : Bool) (h : CSame s s') {xs xs' : List U128} (hx : xs.length = xs'.length) :
    Alike M (fun r r' => CSame r.1 r'.1 ∧ Shape r.2 r'.2) (a2bRoundS ce fl s xs) (a2bRoundS ce' fl s' xs') := by
  refine (a2bSumS_alike hc hM hx h).bind (fun d d' hd => sendS_alike ?_ ?_)
  · have := congrArg List.length hd.2
    rw [encWs_len, encWs_len]
    simpa using this
  · rw [hc.diff]
    have e : (d.2.map (fun q => (high64 q.1, q.2))).map (fun q => q.2.length) = (d'.2.map (fun q => (high64 q.1, q.2))).map
        (fun q => q.2.length) := by
      rw [List.map_map, List.map_map]
      exact hd.2
    cases fl with
    | true =>
      exact .call rfl (fun _ _ _ => (a2bOutS_alike hc.ne ce'.diff e hd.1.b).bind (fun r r' hr =>
        .done ⟨⟨hr.1, hd.1.a, hd.1.eda, hd.1.cand, hd.1.fp⟩, hr.2⟩))
    | false =>
      exact (a2bOutS_alike hc.ne ce'.diff e hd.1.b).bind (fun r r' hr => .done ⟨⟨hr.1, hd.1.a, hd.1.eda, hd.1.cand, hd.1.fp⟩, hr.2⟩)

theorem a2bBulkS_alike (hc : ce.Same ce') (hM : PtOk ce'.cfg M) (ns : List Nat) : ∀ {xs xs' : List U128} {s s' : CPrv F}, xs.length = xs'.length → CSame s s' →
    Alike M (fun r r' => CSame r.1 r'.1 ∧ Shape r.2 r'.2) (a2bBulkS ce s ns xs) (a2bBulkS ce' s' ns xs') := by
  induction ns with
  | nil => intro xs xs' s s' hx h; exact .done ⟨h, rfl⟩
  | cons n ns ih =>
    intro xs xs' s s' hx h
    unfold a2bBulkS
    rw [hx]
    split
    · exact (a2bRoundS_alike hc hM true h (by simp [hx])).bind (fun r r' hr => (ih (by simp [hx]) hr.1).bind (fun q q' hq =>
        .done ⟨hq.1, hr.2.append hq.2⟩))
    · exact .fail

theorem putA_same {r r' : CPrv F × List U128} (h : CSame r.1 r'.1 ∧ r.2.length = r'.2.length) : CSame (putA r) (putA r') :=
  ⟨h.1.b, ⟨by simp [putA, h.1.a.wires, h.2], h.1.a.used, h.1.a.gates, h.1.a.polys⟩, h.1.eda, h.1.cand, h.1.fp⟩

theorem putB_same {r r' : CPrv F × List (List F)} (h : CSame r.1 r'.1 ∧ Shape r.2 r'.2) : CSame (putB r) (putB r') :=
  h.1.setB (h.1.b.setWires (by rw [List.length_append, List.length_append, h.1.b.wires, h.2.flat]))

theorem picks_orel {α β : Type} {l : List α} {l' : List β} (h : l.length = l'.length) (wss : List (List Nat)) :
    ORel (fun a b => Shape a b) (wss.mapM (fun ws => pick l ws)) (wss.mapM (fun ws => pick l' ws)) := by
  induction wss with
  | nil => exact .some rfl
  | cons ws wss ih =>
    rw [List.mapM_cons, List.mapM_cons]
    exact ORel.bind (pick_orel h ws) (fun _ _ hab => ORel.bind ih (fun _ _ hxy => .some (hxy.cons (hab.1.trans hab.2.symm))))

theorem copS_alike (hc : ce.Same ce') (hM : PtOk ce'.cfg M) (h : CSame s s') {o o' : COp} (ho : o.erase = o'.erase) : Alike M CSame (copS ce s o) (copS ce' s' o') := by
  cases o with
  | bool o =>
    cases o' <;> simp only [COp.erase, reduceCtorEq, COp.bool.injEq] at ho
    exact (bopS_alike hc.ne h.b ho).bind (fun b b' hb => .done ⟨hb, h.a, h.eda, h.cand, h.fp⟩)
  | arith o =>
    cases o' <;> simp only [COp.erase, reduceCtorEq, COp.arith.injEq] at ho
    unfold copS
    rw [h.eda]
    exact (aopS_alike hc _ h.a ho).bind (fun a a' ha => .done ⟨h.b, ha, rfl, h.cand, h.fp⟩)
  | b2a ws =>
    cases o' <;> simp only [COp.erase, reduceCtorEq, COp.b2a.injEq] at ho
    subst ho
    exact (Alike.opt (pick_orel h.b.wires ws)).bind (fun x x' hx => (b2aRoundS_alike hc hM false h (by
      simp only [Shape, List.map_cons, List.map_nil, hx.1, hx.2])).bind (fun _ _ hr => .done (putA_same hr)))
  | a2b i =>
    cases o' <;> simp only [COp.erase, reduceCtorEq, COp.a2b.injEq] at ho
    subst ho
    exact (Alike.opt (get_orel h.a.wires i)).bind (fun x x' _ => (a2bRoundS_alike hc hM false h (xs := [x]) (xs' := [x']) rfl).bind (fun _ _ hr => .done (putB_same hr)))
  | b2aN wss =>
    cases o' <;> simp only [COp.erase, reduceCtorEq, COp.b2aN.injEq] at ho
    subst ho
    refine (Alike.opt (picks_orel h.b.wires wss)).bind (fun x x' hx => ?_)
    rw [hx.len, h.eda, hc.cfg]
    exact (b2aBulkS_alike hc hM _ hx h).bind (fun _ _ hr => .done (putA_same hr))
  | a2bN is =>
    cases o' <;> simp only [COp.erase, reduceCtorEq, COp.a2bN.injEq] at ho
    subst ho
    refine (Alike.opt (pick_orel h.a.wires is)).bind (fun x x' hx => ?_)
    rw [hx.1, hx.2, h.eda, hc.cfg]
    exact (a2bBulkS_alike hc hM _ (hx.1.trans hx.2.symm) h).bind (fun _ _ hr => .done (putB_same hr))
  | sync =>
    cases o' <;> simp only [COp.erase, reduceCtorEq] at ho
    exact .call rfl (fun _ _ _ => .done h)

theorem copsS_alike (hc : ce.Same ce') (hM : PtOk ce'.cfg M) : ∀ {ops ops' : List COp} {s s' : CPrv F}, ops.map COp.erase = ops'.map COp.erase → CSame s s' →
    Alike M CSame (copsS ce s ops) (copsS ce' s' ops') := by
  intro ops
  induction ops with
  | nil =>
    intro ops' s s' ho h
    cases ops' with
    | nil => exact .done h
    | cons => simp at ho
  | cons o ops ih =>
    intro ops' s s' ho h
    cases ops' with
    | nil => simp at ho
    | cons o' ops' =>
      simp only [List.map_cons, List.cons.injEq] at ho
      exact (copS_alike hc hM h ho.1).bind (fun a b hab => ih ho.2 hab)

theorem cfinS_alike (hc : ce.Same ce') (h : CSame s s') : Alike M CSame (cfinS ce s) (cfinS ce' s') := by
  refine (bfinS_alike hc.ne h.b).bind (fun b b' hb => (tripleS_alike hc (h.setB hb)).bind (fun s1 s1' h1 => ?_))
  rw [h1.eda]
  exact (afinS_alike hc _ h1.a).bind (fun a a' ha => .done ⟨h1.b, ha, rfl, h1.cand, h1.fp⟩)

/-- Whole provers. -/
theorem convProver_alike (hc : ce.Same ce') (hM : PtOk ce'.cfg M) {ops ops' : List COp} (ho : ops.map COp.erase = ops'.map COp.erase) :
    Alike M CSame (convProver ce ops) (convProver ce' ops') := by
  have h0 : CSame (F := F) ⟨PrvSt.init, APrv.init, edaInit, [], ce.candA 0, [], []⟩ ⟨PrvSt.init, APrv.init, edaInit, [], ce'.candA 0, [], []⟩ :=
    ⟨init_same, ⟨rfl, rfl, rfl, rfl⟩, rfl, rfl, hc.cand 0⟩
  unfold convProver convS
  refine Alike.bind (R := CSame) ?_ (fun a b hab => .call rfl (fun _ _ _ => .done hab))
  exact (rcot_alike hc.ne 0 1).bind (fun _ _ _ => (extAS_alike hc rfl rfl).bind (fun _ _ _ => (Alike.calls (hc.ed 0 1)).bind (fun _ _ _ =>
    (copsS_alike hc hM ho h0).bind (fun _ _ hs => cfinS_alike hc hs))))

end

end EmpZk
