/-
The verifier of a program with bits, field elements and conversions makes the same calls with the same bytes, whatever its secrets.
-/
import Verif.Lemmas.VerSilent
import Verif.Lemmas.ConvTraffic

namespace EmpZk

/-! ### arithmetic part -/

/-- States of the two verifiers: the same numbers and the same opened words. -/
structure AVSame (Z : Prop) (s s' : AVer) : Prop where
  wires : s.wires.length = s'.wires.length
  used : s.used = s'.used
  gates : s.gates.length = s'.gates.length
  polys : s.polys.length = s'.polys.length
  mb : s.mulBatches = s'.mulBatches
  pb : s.polyBatches = s'.polyBatches
  outs : Z → s.outs = s'.outs

theorem taskB_orel {l l' : List AGate} (h : l.length = l'.length) (d d' : W) (a b : U128) :
    ORel (fun _ _ => True) (taskB d l a) (taskB d' l' b) := by
  unfold taskB
  rw [h]
  exact ORel.bind (coeff_orel _ _ _) (fun _ _ _ => .some trivial)

theorem tasksB_orel {l l' : List AGate} (h : l.length = l'.length) (d d' : W) (sd sd' : Nat → U128) (ts : List (Nat × Nat)) : ∀ i acc acc',
    ORel (fun _ _ => True) (tasksB d l sd ts i acc) (tasksB d' l' sd' ts i acc') := by
  induction ts with
  | nil => intro i acc acc'; exact .some trivial
  | cons t ts ih =>
    intro i acc acc'
    exact ORel.bind (taskB_orel (by simp [taskSlice, h]) _ _ _ _) (fun _ _ _ => ih _ _ _)

theorem mulCheckB_orel {l l' : List AGate} (h : l.length = l'.length) {n n' : Nat} (hn : n = n') (d d' : W) (sd sd' : Nat → U128) (o o' : U128)
    (a a' : W × W) : ORel (fun _ _ => True) (mulCheckB d l n sd o a) (mulCheckB d' l' n' sd' o' a') := by
  refine ORel.bind (R := fun _ _ => True) ?_ (fun _ _ _ => .some trivial)
  unfold mulSumsB
  rw [h, hn]
  split
  · exact taskB_orel h _ _ _ _
  · cases splitTasks l'.length n' with
    | none => exact .none
    | some ts => exact tasksB_orel h _ _ _ _ ts _ _ _

theorem apolyCheckB_orel {l l' : List W} (h : l.length = l'.length) (d d' a b : W) (o o' : U128) (x x' : W × W) :
    ORel (fun _ _ => True) (apolyCheckB d l a o x) (apolyCheckB d' l' b o' x') := by
  unfold apolyCheckB
  rw [h]
  exact ORel.bind (coeff_orel _ _ _) (fun _ _ _ => .some trivial)

section
variable {F : Type} [Field F] [BlockField F] {ce ce' : ConvEnv F} {s s' : AVer} {Z : Prop}

theorem extAR_alike (hc : ce.SameV ce') {k k' n n' : Nat} (hk : k = k') (hn : n = n') :
    RAlike Z True (fun _ _ => True) (extAR ce k n) (extAR ce' k' n') := by
  subst hk
  subst hn
  unfold extAR
  rw [hc.av]
  exact RAlike.calls _

theorem averMulCheck_orel (e e' : AEnv) (ht : e.threads = e'.threads) (h : AVSame Z s s') (a a' : W × W) :
    ORel (AVSame Z) (averMulCheck e s a) (averMulCheck e' s' a') := by
  refine ORel.bind (mulCheckB_orel h.gates ht _ _ _ _ _ _ _ _) (fun _ _ _ => .some ?_)
  exact ⟨h.wires, congrArg (· + 1) h.used, rfl, h.polys, congrArg (· + 1) h.mb, h.pb, h.outs⟩

theorem averPolyCheck_orel (e e' : AEnv) (h : AVSame Z s s') (a a' : W × W) :
    ORel (AVSame Z) (averPolyCheck e s a) (averPolyCheck e' s' a') := by
  refine ORel.bind (apolyCheckB_orel h.polys _ _ _ _ _ _ _ _) (fun _ _ _ => .some ?_)
  exact ⟨h.wires, congrArg (· + 1) h.used, h.gates, rfl, h.mb, congrArg (· + 1) h.pb, h.outs⟩

theorem amulCheckR_alike (hc : ce.SameV ce') (k : Nat) (h : AVSame Z s s') : RAlike Z True (AVSame Z) (amulCheckR ce k s) (amulCheckR ce' k s') := by
  unfold amulCheckR
  rw [h.mb, hc.seed0]
  exact .call (fun _ _ _ _ _ => .call (fun _ _ _ _ _ => .call (fun _ _ _ _ _ => (extAR_alike hc rfl h.used).bind (fun _ _ _ => .call (fun _ bs _ _ _ =>
    (RAlike.opt (averMulCheck_orel ce.env ce'.env hc.threads h _ _)).bind (fun _ _ hr => .call (fun _ _ _ _ _ => .done hr)))))))

theorem apolyCheckR_alike (hc : ce.SameV ce') (k : Nat) (h : AVSame Z s s') : RAlike Z True (AVSame Z) (apolyCheckR ce k s) (apolyCheckR ce' k s') := by
  unfold apolyCheckR
  rw [h.pb, hc.polySeed]
  exact .call (fun _ _ _ _ _ => .call (fun _ _ _ _ _ => (extAR_alike hc rfl h.used).bind (fun _ _ _ => .call (fun _ bs _ _ _ =>
    RAlike.opt (averPolyCheck_orel ce.env ce'.env h _ _)))))

theorem amulRoomR_alike (hc : ce.SameV ce') (k : Nat) (h : AVSame Z s s') : RAlike Z True (AVSame Z) (amulRoomR ce k s) (amulRoomR ce' k s') := by
  unfold amulRoomR
  rw [h.gates, hc.checkSz]
  split
  · exact amulCheckR_alike hc k h
  · exact .done h

theorem apolyRoomR_alike (hc : ce.SameV ce') (k : Nat) (h : AVSame Z s s') : RAlike Z True (AVSame Z) (apolyRoomR ce k s) (apolyRoomR ce' k s') := by
  unfold apolyRoomR
  simp only [ne_eq, h.polys, hc.polySz, nil_iff_len h.polys]
  split
  · exact apolyCheckR_alike hc k h
  · exact .done h

theorem AVSame.push (h : AVSame Z s s') (a a' : U128) : AVSame Z { s with wires := s.wires ++ [a] } { s' with wires := s'.wires ++ [a'] } :=
  ⟨by simp [h.wires], h.used, h.gates, h.polys, h.mb, h.pb, h.outs⟩

theorem aopR_alike (hc : ce.SameV ce') (k : Nat) (h : AVSame Z s s') {o o' : AOp} (ho : o.erase = o'.erase) :
    RAlike Z True (AVSame Z) (aopR ce k s o) (aopR ce' k s' o') := by
  cases o with
  | input w =>
    cases o' <;> simp only [AOp.erase, reduceCtorEq] at ho
    refine (extAR_alike hc rfl h.used).bind (fun _ _ _ => .call (fun _ bs _ _ _ => RAlike.opt (.some ?_)))
    exact ⟨by simp [h.wires], by simp [h.used], h.gates, h.polys, h.mb, h.pb, h.outs⟩
  | pub w =>
    cases o' <;> simp only [AOp.erase, reduceCtorEq, AOp.pub.injEq] at ho
    exact .done (h.push _ _)
  | add i j =>
    cases o' <;> simp only [AOp.erase, reduceCtorEq, AOp.add.injEq] at ho
    obtain ⟨rfl, rfl⟩ := ho
    exact RAlike.opt ((get_orel h.wires i).bind (fun _ _ _ => (get_orel h.wires j).bind (fun _ _ _ => .some (h.push _ _))))
  | mul i j =>
    cases o' <;> simp only [AOp.erase, reduceCtorEq, AOp.mul.injEq] at ho
    obtain ⟨rfl, rfl⟩ := ho
    refine (RAlike.opt (get_orel h.wires i)).bind (fun a a' _ => (RAlike.opt (get_orel h.wires j)).bind (fun b b' _ =>
      (amulRoomR_alike hc k h).bind (fun r r' hr => (extAR_alike hc rfl hr.used).bind (fun _ _ _ => .call (fun _ bs _ _ _ => RAlike.opt ?_)))))
    have e : (r.gates.length < ce.env.checkSz) = (r'.gates.length < ce'.env.checkSz) := by
      show (r.gates.length < ce.base.checkSz) = (r'.gates.length < ce'.base.checkSz)
      rw [hr.gates, hc.checkSz]
    unfold averMulPush
    by_cases hlt : r'.gates.length < ce'.env.checkSz
    · rw [if_pos hlt, if_pos (e ▸ hlt)]
      exact .some ⟨by simp [hr.wires], by simp [hr.used], by simp [hr.gates], hr.polys, hr.mb, hr.pb, hr.outs⟩
    · rw [if_neg hlt, if_neg (e ▸ hlt)]
      exact .none
  | mulc i c =>
    cases o' <;> simp only [AOp.erase, reduceCtorEq, AOp.mulc.injEq] at ho
    obtain ⟨rfl, rfl⟩ := ho
    exact RAlike.opt ((get_orel h.wires i).bind (fun _ _ _ => .some (h.push _ _)))
  | reveal i =>
    cases o' <;> simp only [AOp.erase, reduceCtorEq, AOp.reveal.injEq] at ho
    subst ho
    exact .call (fun _ bs _ _ hd => RAlike.opt ((get_orel h.wires i).bind (fun _ _ _ => .some
      ⟨h.wires, h.used, h.gates, h.polys, h.mb, h.pb, fun z => by simp [h.outs z, (hd z).2]⟩)))
  | revealCheck i x =>
    cases o' <;> simp only [AOp.erase, reduceCtorEq, AOp.revealCheck.injEq] at ho
    obtain ⟨rfl, rfl⟩ := ho
    exact .call (fun _ bs _ _ _ => RAlike.opt ((get_orel h.wires i).bind (fun _ _ _ => .some
      ⟨h.wires, h.used, h.gates, h.polys, h.mb, h.pb, h.outs⟩)))
  | revealZero i =>
    cases o' <;> simp only [AOp.erase, reduceCtorEq, AOp.revealZero.injEq] at ho
    subst ho
    exact RAlike.opt ((get_orel h.wires i).bind (fun _ _ _ => .some ⟨h.wires, h.used, h.gates, h.polys, h.mb, h.pb, h.outs⟩))
  | poly st =>
    cases o' <;> simp only [AOp.erase, reduceCtorEq, AOp.poly.injEq] at ho
    subst ho
    refine (RAlike.opt (alookup_orel h.wires st)).bind (fun a a' _ => (apolyRoomR_alike hc k h).bind (fun r r' hr => RAlike.opt ?_))
    have e : (r.polys.length < ce.env.polySz) = (r'.polys.length < ce'.env.polySz) := by
      show (r.polys.length < ce.base.polySz) = (r'.polys.length < ce'.base.polySz)
      rw [hr.polys, hc.polySz]
    unfold averPolyPush
    by_cases hlt : r'.polys.length < ce'.env.polySz
    · rw [if_pos hlt, if_pos (e ▸ hlt)]
      exact .some ⟨hr.wires, hr.used, hr.gates, by simp [hr.polys], hr.mb, hr.pb, hr.outs⟩
    · rw [if_neg hlt, if_neg (e ▸ hlt)]
      exact .none

theorem afinR_alike (hc : ce.SameV ce') (k : Nat) (h : AVSame Z s s') : RAlike Z True (AVSame Z) (afinR ce k s) (afinR ce' k s') := by
  unfold afinR
  refine RAlike.bind (R := AVSame Z) ?_ (fun a b hab => RAlike.bind (R := AVSame Z) ?_ (fun c d hcd => ?_))
  · simp only [ne_eq, nil_iff_len h.polys]
    split
    · exact apolyCheckR_alike hc k h
    · exact .done h
  · simp only [ne_eq, nil_iff_len hab.gates]
    split
    · exact amulCheckR_alike hc k hab
    · exact .done hab
  · exact .call (fun _ bs _ _ _ => .done ⟨hcd.wires, hcd.used, hcd.gates, hcd.polys, hcd.mb, hcd.pb, hcd.outs⟩)

end

/-! ### edaBits and conversions -/

theorem recvR_alike {γ δ : Type} {E : Prop} {R : γ → δ → Prop} {n n' : Nat} (hn : n = n') {k : List Byte → RProg γ} {k' : List Byte → RProg δ}
    (hk : ∀ bs bs', RAlike Z E R (k bs) (k' bs')) : RAlike Z E R (recvR n k) (recvR n' k') := by
  subst hn
  unfold recvR
  split
  · exact .call (fun _ _ _ _ _ => hk _ _)
  · exact .call (fun _ bs _ bs' _ => hk bs bs')

section
variable {F : Type} [Field F] [BlockField F] [DecidableEq F] {ce ce' : ConvEnv F} {ne ne' : NetEnv F} {Z : Prop}

/-- States of the two verifiers: the same numbers and the same opened values. -/
structure CVSame (Z : Prop) (s s' : CVer F) : Prop where
  b : BVSame Z s.b s'.b
  a : AVSame Z s.a s'.a
  eda : s.eda = s'.eda
  cand : Shape s.cand s'.cand
  fp : s.fp.length = s'.fp.length
  outs : Z → s.outs = s'.outs

theorem BVSame.setWires {b b' : VerSt F} (h : BVSame Z b b') {w w' : List F} (hw : w.length = w'.length) :
    BVSame Z { b with wires := w } { b' with wires := w' } := ⟨hw, h.used, h.gates, h.polys, h.pb, h.outs⟩

theorem circR_alike (hn : ne.SameV ne') {b b' : VerSt F} (h : BVSame Z b b') (c : Circ62) {x x' y y' : List F} (hx : x.length = x'.length)
    (hy : y.length = y'.length) :
    RAlike Z True (fun r r' => BVSame Z r.1 r'.1 ∧ r.2.length = r'.2.length) (circR ne b c x y) (circR ne' b' c x' y') :=
  (bopsR_alike hn rfl (h.setWires (by simp [hx, hy]))).bind (fun r r' hr => (RAlike.opt (pick_orel hr.wires c.out)).bind (fun o o' ho =>
    .done ⟨hr.setWires h.wires, ho.1.trans ho.2.symm⟩))

theorem sumsR_alike (hn : ne.SameV ne') (c : Circ62) {cand cand' : List (List F)} (hc : Shape cand cand') (ps : List (Nat × Nat)) :
    ∀ {b b' : VerSt F}, BVSame Z b b' → RAlike Z True (fun r r' => BVSame Z r.1 r'.1) (sumsR ne c cand b ps) (sumsR ne' c cand' b' ps) := by
  induction ps with
  | nil => intro b b' h; exact .done h
  | cons p ps ih =>
    intro b b' h
    exact (RAlike.opt (hc.get p.1)).bind (fun x x' hx => (RAlike.opt (hc.get p.2)).bind (fun y y' hy => (circR_alike hn h c hx hy).bind
      (fun r r' hr => (ih hr.1).bind (fun q q' hq => .done hq))))

variable {s s' : CVer F}

theorem openR_alike (h : CVSame Z s s') {ks ks' : List U128} (hm : ks.length = ks'.length) (ls ls' : List (List F)) :
    RAlike Z True (CVSame Z) (openR ce s ks ls) (openR ce' s' ks' ls') :=
  recvR_alike (by rw [hm]) (fun _ _ => .done ⟨h.b, h.a, h.eda, h.cand, h.fp, h.outs⟩)

theorem passR_alike (hc : ce.SameV ce') (rp : Nat) (h : CVSame Z s s') (j : Nat) : RAlike Z True (CVSame Z) (passR ce rp s j) (passR ce' rp s' j) := by
  unfold passR
  rw [h.eda, hc.cfg, hc.sum]
  refine (RAlike.opt (R := fun a b => a.length = b.length) ?_).bind (fun ms ms' hms => (sumsR_alike hc.ne ce'.sum h.cand _ h.b).bind
    (fun r r' hr => .call (fun _ _ _ _ _ => openR_alike (CVSame.mk hr h.a rfl h.cand h.fp h.outs : CVSame Z (F := F) ⟨_, _, s'.eda, _, _, _, _⟩
      ⟨_, _, s'.eda, _, _, _, _⟩) hms _ _)))
  generalize List.range ce'.cfg.N = is
  induction is with
  | nil => exact .some rfl
  | cons i is ih =>
    rw [List.mapM_cons, List.mapM_cons]
    refine ORel.bind (R := fun _ _ => True) ((get_orel h.fp _).bind (fun _ _ _ => (get_orel h.fp _).bind (fun _ _ _ => .some trivial)))
      (fun _ _ _ => ORel.bind ih (fun _ _ hab => .some (by simp [hab])))

theorem passesR_alike (hc : ce.SameV ce') (rp : Nat) (js : List Nat) : ∀ {s s' : CVer F}, CVSame Z s s' →
    RAlike Z True (CVSame Z) (passesR ce rp s js) (passesR ce' rp s' js) := by
  induction js with
  | nil => intro s s' h; exact .done h
  | cons j js ih => intro s s' h; exact (passR_alike hc rp h j).bind (fun _ _ hr => ih hr)

/-- A wrong digest stops one of the two, or both. -/
theorem tripleR_alike (h : CVSame Z s s') : RAlike Z True (CVSame Z) (tripleR ce s) (tripleR ce' s') := by
  refine .call (fun _ bs _ bs' _ => ?_)
  by_cases h1 : bs = ce.dig s.hashed
  · by_cases h2 : bs' = ce'.dig s'.hashed
    · rw [if_pos h1, if_pos h2]
      exact .done ⟨h.b, h.a, h.eda, h.cand, h.fp, h.outs⟩
    · rw [if_neg h2]
      exact .stopR trivial
  · rw [if_neg h1]
    exact .stopL trivial

theorem refillR_alike (hc : ce.SameV ce') (h : CVSame Z s s') : RAlike Z True (CVSame Z) (refillR ce s) (refillR ce' s') := by
  unfold refillR
  rw [h.eda, hc.cfg, hc.npSz, h.a.used, hc.ed]
  split
  · exact (RAlike.calls _).bind (fun _ _ _ => .done ⟨h.b, h.a, rfl, h.cand, hc.cand _, h.outs⟩)
  · exact .done h

theorem chooseR_alike (hc : ce.SameV ce') (h : CVSame Z s s') :
    RAlike Z True (fun r r' => CVSame Z r.1 r'.1 ∧ r.2 = r'.2) (chooseR ce s) (chooseR ce' s') := by
  unfold chooseR
  rw [h.eda, hc.cfg, hc.rp]
  refine (bopsR_alike hc.ne rfl h.b).bind (fun b1 b1' hb => .call (fun _ _ _ _ _ => .call (fun _ _ _ _ _ => ?_)))
  have hl : (b1.wires.drop s.b.wires.length).length = (b1'.wires.drop s'.b.wires.length).length := by simp [hb.wires, h.b.wires]
  refine (RAlike.opt (pick_orel (chunk_shape _ hl).len _)).bind (fun ls ls' _ => (RAlike.opt (pick_orel h.fp _)).bind (fun mo mo' hmo =>
    (openR_alike ?_ (hmo.1.trans hmo.2.symm) _ _).bind (fun _ _ hr => .done ⟨hr, rfl⟩)))
  exact ⟨hb.setWires h.b.wires, h.a, rfl, chunk_shape _ hl, h.fp, h.outs⟩

theorem CVSame.setEda (h : CVSame Z s s') {e e' : EdaState} (he : e = e') : CVSame Z { s with eda := e } { s' with eda := e' } :=
  ⟨h.b, h.a, he, h.cand, h.fp, h.outs⟩

theorem CVSame.setB (h : CVSame Z s s') {b b' : VerSt F} (hb : BVSame Z b b') : CVSame Z { s with b := b } { s' with b := b' } :=
  ⟨hb, h.a, h.eda, h.cand, h.fp, h.outs⟩

theorem genR_alike (hc : ce.SameV ce') (h : CVSame Z s s') : RAlike Z True (CVSame Z) (genR ce s) (genR ce' s') := by
  refine (refillR_alike hc h).bind (fun s1 s1' h1 => (chooseR_alike hc (h1.setEda (by rw [h1.eda, hc.cfg, hc.npSz]))).bind (fun r r' hr => ?_))
  rw [hr.2, hc.cfg]
  exact (passesR_alike hc _ _ hr.1).bind (fun _ _ hq => tripleR_alike hq)

theorem nextR_alike (hc : ce.SameV ce') (h : CVSame Z s s') :
    RAlike Z True (fun r r' => CVSame Z r.1 r'.1 ∧ r.2.1.length = r'.2.1.length ∧ r.2.2 = r'.2.2) (nextR ce s) (nextR ce' s') := by
  unfold nextR
  refine RAlike.bind (R := CVSame Z) ?_ (fun s1 s1' h1 => ?_)
  · rw [h.eda]
    split
    · exact genR_alike hc (h.setEda rfl)
    · exact .done h
  · rw [h1.eda]
    exact (RAlike.opt (h1.cand.get _)).bind (fun l l' hl => .done ⟨h1.setEda rfl, hl, rfl⟩)

theorem revealR_alike (hn : ne.SameV ne') {b b' : VerSt F} (h : BVSame Z b b') {x x' : List F} (hx : x.length = x'.length) :
    RAlike Z True (fun r r' => BVSame Z r.1 r'.1) (revealR ne b x) (revealR ne' b' x') := by
  unfold revealR
  rw [hx]
  exact (bopsR_alike hn rfl (h.setWires hx)).bind (fun _ _ hr => .done (hr.setWires h.wires))

theorem b2aDiffR_alike (hc : ce.SameV ce') : ∀ {xs xs' : List (List F)} {s s' : CVer F}, Shape xs xs' → CVSame Z s s' →
    RAlike Z True (fun r r' => CVSame Z r.1 r'.1 ∧ r.2.map (fun q => (q.1.length, q.2)) = r'.2.map (fun q => (q.1.length, q.2))) (b2aDiffR ce s xs)
      (b2aDiffR ce' s' xs') := by
  intro xs
  induction xs with
  | nil =>
    intro xs' s s' hx h
    rw [List.length_eq_zero_iff.mp hx.len.symm]
    exact .done ⟨h, rfl⟩
  | cons x xs ih =>
    intro xs' s s' hx h
    cases xs' with
    | nil => cases hx.len
    | cons x' xs' =>
      refine (nextR_alike hc h).bind (fun n n' hn => ?_)
      rw [hc.diff]
      exact (circR_alike hc.ne hn.1.b ce'.diff hx.tail.1 hn.2.1).bind (fun r r' hr => (ih hx.tail.2 (hn.1.setB hr.1)).bind
        (fun q q' hq => .done ⟨hq.1, by simp only [List.map_cons, hq.2, hr.2, hn.2.2]⟩))

theorem b2aOpenR_alike (hn : ne.SameV ne') : ∀ {ds ds' : List (List F × Nat)} {b b' : VerSt F},
    ds.map (fun q => (q.1.length, q.2)) = ds'.map (fun q => (q.1.length, q.2)) → BVSame Z b b' →
    RAlike Z True (fun r r' => BVSame Z r.1 r'.1 ∧ r.2.map Prod.fst = r'.2.map Prod.fst) (b2aOpenR ne b ds) (b2aOpenR ne' b' ds') := by
  intro ds
  induction ds with
  | nil =>
    intro ds' b b' hd h
    cases ds' with
    | nil => exact .done ⟨h, rfl⟩
    | cons => simp at hd
  | cons d ds ih =>
    intro ds' b b' hd h
    cases ds' with
    | nil => simp at hd
    | cons d' ds' =>
      simp only [List.map_cons, List.cons.injEq, Prod.mk.injEq] at hd
      exact (revealR_alike hn h hd.1.1).bind (fun r r' hr => (ih hd.2 hr).bind (fun q q' hq => .done ⟨hq.1, by
        simp only [List.map_cons, hq.2, hd.1.2]⟩))

theorem b2aOutB_orel {fp fp' : List U128} (h : fp.length = fp'.length) (d d' : W) : ∀ {l l' : List (Nat × W)}, l.map Prod.fst = l'.map Prod.fst →
    ORel (fun a b => a.length = b.length) (b2aOutB d fp l) (b2aOutB d' fp' l') := by
  intro l
  induction l with
  | nil =>
    intro l' hl
    cases l' with
    | nil => exact .some rfl
    | cons => simp at hl
  | cons q l ih =>
    intro l' hl
    cases l' with
    | nil => simp at hl
    | cons q' l' =>
      simp only [List.map_cons, List.cons.injEq] at hl
      have ih := ih hl.2
      unfold b2aOutB at ih ⊢
      rw [List.mapM_cons, List.mapM_cons, hl.1]
      exact ORel.bind (R := fun _ _ => True) ((get_orel h _).bind (fun _ _ _ => .some trivial)) (fun _ _ _ => ORel.bind ih
        (fun _ _ hab => .some (by simp [hab])))

theorem b2aRoundR_alike (hc : ce.SameV ce') (fl : Bool) (h : CVSame Z s s') {xs xs' : List (List F)} (hx : Shape xs xs') :
    RAlike Z True (fun r r' => CVSame Z r.1 r'.1 ∧ r.2.length = r'.2.length) (b2aRoundR ce fl s xs) (b2aRoundR ce' fl s' xs') := by
  refine (b2aDiffR_alike hc hx h).bind (fun d d' hd => (b2aOpenR_alike hc.ne hd.2 hd.1.b).bind (fun q q' hq => ?_))
  have hr : RAlike Z True (fun (r r' : CVer F × List U128) => CVSame Z r.1 r'.1 ∧ r.2.length = r'.2.length)
      ((RProg.ofOpt (b2aOutB ce.base.delta d.1.fp q.2)).bind (fun o => .done ({ d.1 with b := q.1 }, o)))
      ((RProg.ofOpt (b2aOutB ce'.base.delta d'.1.fp q'.2)).bind (fun o => .done ({ d'.1 with b := q'.1 }, o))) :=
    (RAlike.opt (b2aOutB_orel hd.1.fp _ _ hq.2)).bind (fun o o' ho => .done ⟨hd.1.setB hq.1, ho⟩)
  cases fl with
  | true => exact .call (fun _ _ _ _ _ => hr)
  | false => exact hr

theorem b2aBulkR_alike (hc : ce.SameV ce') (ns : List Nat) : ∀ {xs xs' : List (List F)} {s s' : CVer F}, Shape xs xs' → CVSame Z s s' →
    RAlike Z True (fun r r' => CVSame Z r.1 r'.1 ∧ r.2.length = r'.2.length) (b2aBulkR ce s ns xs) (b2aBulkR ce' s' ns xs') := by
  induction ns with
  | nil => intro xs xs' s s' hx h; exact .done ⟨h, rfl⟩
  | cons n ns ih =>
    intro xs xs' s s' hx h
    unfold b2aBulkR
    rw [hx.len]
    split
    · exact (b2aRoundR_alike hc true h (hx.take n)).bind (fun r r' hr => (ih (hx.drop n) hr.1).bind (fun q q' hq =>
        .done ⟨hq.1, by simp [hr.2, hq.2]⟩))
    · exact .fail

theorem a2bSumR_alike (hc : ce.SameV ce') : ∀ {xs xs' : List U128} {s s' : CVer F}, xs.length = xs'.length → CVSame Z s s' →
    RAlike Z True (fun r r' => CVSame Z r.1 r'.1 ∧ r.2.map (fun q => q.2.length) = r'.2.map (fun q => q.2.length)) (a2bSumR ce s xs)
      (a2bSumR ce' s' xs') := by
  intro xs
  induction xs with
  | nil =>
    intro xs' s s' hx h
    rw [List.length_eq_zero_iff.mp hx.symm]
    exact .done ⟨h, rfl⟩
  | cons x xs ih =>
    intro xs' s s' hx h
    cases xs' with
    | nil => cases hx
    | cons x' xs' =>
      refine (nextR_alike hc h).bind (fun n n' hn => ?_)
      rw [hn.2.2]
      exact (RAlike.opt (get_orel hn.1.fp _)).bind (fun m m' _ => (ih (by simpa using hx) hn.1).bind (fun q q' hq => .done ⟨hq.1, by
        simp only [List.map_cons, hq.2, hn.2.1]⟩))

theorem pubsR_alike (hn : ne.SameV ne') : ∀ {x x' : List Bool} {b b' : VerSt F}, x.length = x'.length → BVSame Z b b' →
    RAlike Z True (BVSame Z) (bopsR ne b (x.map BOp.pub)) (bopsR ne' b' (x'.map BOp.pub)) := by
  intro x
  induction x with
  | nil =>
    intro x' b b' hx h
    cases x' with
    | nil => exact .done h
    | cons => simp at hx
  | cons a x ih =>
    intro x' b b' hx h
    cases x' with
    | nil => simp at hx
    | cons a' x' =>
      have h1 : RAlike Z True (BVSame Z) (bopR ne b (.pub a)) (bopR ne' b' (.pub a')) := .done (h.push _ _)
      exact h1.bind (fun _ _ hr => ih (by simpa using hx) hr)

theorem a2bOutR_alike (hn : ne.SameV ne') (c : Circ62) : ∀ {ds ds' : List (W × List F)} {b b' : VerSt F},
    ds.map (fun q => q.2.length) = ds'.map (fun q => q.2.length) → BVSame Z b b' →
    RAlike Z True (fun r r' => BVSame Z r.1 r'.1 ∧ Shape r.2 r'.2) (a2bOutR ne c b ds) (a2bOutR ne' c b' ds') := by
  intro ds
  induction ds with
  | nil =>
    intro ds' b b' hd h
    cases ds' with
    | nil => exact .done ⟨h, rfl⟩
    | cons => simp at hd
  | cons d ds ih =>
    intro ds' b b' hd h
    cases ds' with
    | nil => simp at hd
    | cons d' ds' =>
      simp only [List.map_cons, List.cons.injEq, Prod.mk.injEq] at hd
      exact (pubsR_alike hn (by simp [bitsW]) (h.setWires rfl)).bind (fun b1 b1' hb =>
        (circR_alike hn (hb.setWires h.wires) c hb.wires hd.1).bind (fun r r' hr => (ih hd.2 hr.1).bind (fun q q' hq =>
          .done ⟨hq.1, hq.2.cons hr.2⟩)))

theorem zip_shape {α : Type} : ∀ {ws ws' : List W} {l l' : List (α × List F)}, ws.length = ws'.length →
    l.map (fun q => q.2.length) = l'.map (fun q => q.2.length) →
    (List.zipWith (fun v q => (v, q.2)) ws l).map (fun q => q.2.length) =
      (List.zipWith (fun v q => (v, q.2)) ws' l').map (fun q => q.2.length) := by
  intro ws
  induction ws with
  | nil => intro ws' l l' hw _; cases ws' <;> simp_all
  | cons w ws ih =>
    intro ws' l l' hw h
    cases ws' with
    | nil => simp at hw
    | cons w' ws' =>
      cases l <;> cases l' <;> simp only [List.map_cons, List.map_nil, List.cons.injEq, reduceCtorEq] at h
      · rfl
      · simp only [List.zipWith_cons_cons, List.map_cons, h.1, ih (by simpa using hw) h.2]

theorem decWs_len : ∀ (n : Nat) (bs : List Byte), (decWs n bs).length = n
  | 0, _ => rfl
  | n + 1, bs => congrArg (· + 1) (decWs_len n (bs.drop 8))

theorem a2bRoundR_alike (hc : ce.SameV ce') (fl : Bool) (h : CVSame Z s s') {xs xs' : List U128} (hx : xs.length = xs'.length) :
    RAlike Z True (fun r r' => CVSame Z r.1 r'.1 ∧ Shape r.2 r'.2) (a2bRoundR ce fl s xs) (a2bRoundR ce' fl s' xs') := by
  refine (a2bSumR_alike hc hx h).bind (fun d d' hd => ?_)
  have hl : d.2.length = d'.2.length := by
    have := congrArg List.length hd.2
    simpa using this
  refine recvR_alike (by rw [hl]) (fun bs bs' => ?_)
  rw [hc.diff, hl]
  have e := zip_shape (ws := decWs d'.2.length bs) (ws' := decWs d'.2.length bs') (by rw [decWs_len, decWs_len]) hd.2
  cases fl with
  | true =>
    exact .call (fun _ _ _ _ _ => (a2bOutR_alike hc.ne ce'.diff e hd.1.b).bind (fun r r' hr =>
      .done ⟨⟨hr.1, hd.1.a, hd.1.eda, hd.1.cand, hd.1.fp, hd.1.outs⟩, hr.2⟩))
  | false =>
    exact (a2bOutR_alike hc.ne ce'.diff e hd.1.b).bind (fun r r' hr =>
      .done ⟨⟨hr.1, hd.1.a, hd.1.eda, hd.1.cand, hd.1.fp, hd.1.outs⟩, hr.2⟩)

theorem a2bBulkR_alike (hc : ce.SameV ce') (ns : List Nat) : ∀ {xs xs' : List U128} {s s' : CVer F}, xs.length = xs'.length → CVSame Z s s' →
    RAlike Z True (fun r r' => CVSame Z r.1 r'.1 ∧ Shape r.2 r'.2) (a2bBulkR ce s ns xs) (a2bBulkR ce' s' ns xs') := by
  induction ns with
  | nil => intro xs xs' s s' hx h; exact .done ⟨h, rfl⟩
  | cons n ns ih =>
    intro xs xs' s s' hx h
    unfold a2bBulkR
    rw [hx]
    split
    · exact (a2bRoundR_alike hc true h (by simp [hx])).bind (fun r r' hr => (ih (by simp [hx]) hr.1).bind (fun q q' hq =>
        .done ⟨hq.1, hr.2.append hq.2⟩))
    · exact .fail

theorem putAV_same {r r' : CVer F × List U128} (h : CVSame Z r.1 r'.1 ∧ r.2.length = r'.2.length) : CVSame Z (putAV r) (putAV r') :=
  ⟨h.1.b, ⟨by simp [putAV, h.1.a.wires, h.2], h.1.a.used, h.1.a.gates, h.1.a.polys, h.1.a.mb, h.1.a.pb, h.1.a.outs⟩, h.1.eda, h.1.cand, h.1.fp,
    h.1.outs⟩

theorem putBV_same {r r' : CVer F × List (List F)} (h : CVSame Z r.1 r'.1 ∧ Shape r.2 r'.2) : CVSame Z (putBV r) (putBV r') :=
  h.1.setB (h.1.b.setWires (by rw [List.length_append, List.length_append, h.1.b.wires, h.2.flat]))

theorem copR_alike (hc : ce.SameV ce') (h : CVSame Z s s') {o o' : COp} (ho : o.erase = o'.erase) :
    RAlike Z True (CVSame Z) (copR ce s o) (copR ce' s' o') := by
  cases o with
  | bool o =>
    cases o' <;> simp only [COp.erase, reduceCtorEq, COp.bool.injEq] at ho
    exact (bopR_alike hc.ne h.b ho).bind (fun b b' hb => .done ⟨hb, h.a, h.eda, h.cand, h.fp, fun z => by
      simp only [h.outs z, hb.outs z, h.b.outs z]⟩)
  | arith o =>
    cases o' <;> simp only [COp.erase, reduceCtorEq, COp.arith.injEq] at ho
    unfold copR
    rw [h.eda]
    exact (aopR_alike hc _ h.a ho).bind (fun a a' ha => .done ⟨h.b, ha, rfl, h.cand, h.fp, h.outs⟩)
  | b2a ws =>
    cases o' <;> simp only [COp.erase, reduceCtorEq, COp.b2a.injEq] at ho
    subst ho
    exact (RAlike.opt (pick_orel h.b.wires ws)).bind (fun x x' hx => (b2aRoundR_alike hc false h (by
      simp only [Shape, List.map_cons, List.map_nil, hx.1, hx.2])).bind (fun _ _ hr => .done (putAV_same hr)))
  | a2b i =>
    cases o' <;> simp only [COp.erase, reduceCtorEq, COp.a2b.injEq] at ho
    subst ho
    exact (RAlike.opt (get_orel h.a.wires i)).bind (fun x x' _ => (a2bRoundR_alike hc false h (xs := [x]) (xs' := [x']) rfl).bind
      (fun _ _ hr => .done (putBV_same hr)))
  | b2aN wss =>
    cases o' <;> simp only [COp.erase, reduceCtorEq, COp.b2aN.injEq] at ho
    subst ho
    refine (RAlike.opt (picks_orel h.b.wires wss)).bind (fun x x' hx => ?_)
    rw [hx.len, h.eda, hc.cfg]
    exact (b2aBulkR_alike hc _ hx h).bind (fun _ _ hr => .done (putAV_same hr))
  | a2bN is =>
    cases o' <;> simp only [COp.erase, reduceCtorEq, COp.a2bN.injEq] at ho
    subst ho
    refine (RAlike.opt (pick_orel h.a.wires is)).bind (fun x x' hx => ?_)
    rw [hx.1, hx.2, h.eda, hc.cfg]
    exact (a2bBulkR_alike hc _ (hx.1.trans hx.2.symm) h).bind (fun _ _ hr => .done (putBV_same hr))
  | sync =>
    cases o' <;> simp only [COp.erase, reduceCtorEq] at ho
    exact .call (fun _ _ _ _ _ => .done h)

theorem copsR_alike (hc : ce.SameV ce') : ∀ {ops ops' : List COp} {s s' : CVer F}, ops.map COp.erase = ops'.map COp.erase → CVSame Z s s' →
    RAlike Z True (CVSame Z) (copsR ce s ops) (copsR ce' s' ops') := by
  intro ops
  induction ops with
  | nil =>
    intro ops' s s' ho h
    cases ops' with
    | nil => exact .done h
    | cons => simp at ho
  | cons o ops ih =>
    intro ops' s s' ho h
    cases ops' with
    | nil => simp at ho
    | cons o' ops' =>
      simp only [List.map_cons, List.cons.injEq] at ho
      exact (copR_alike hc h ho.1).bind (fun a b hab => ih ho.2 hab)

theorem cfinR_alike (hc : ce.SameV ce') (h : CVSame Z s s') : RAlike Z True (CVSame Z) (cfinR ce s) (cfinR ce' s') := by
  refine (bfinR_alike hc.ne h.b).bind (fun b b' hb => (tripleR_alike (h.setB hb)).bind (fun s1 s1' h1 => ?_))
  rw [h1.eda]
  exact (afinR_alike hc _ h1.a).bind (fun a a' ha => .done ⟨h1.b, ha, rfl, h1.cand, h1.fp, h1.outs⟩)

/-- Whole verifiers. -/
theorem convVerifier_alike (hc : ce.SameV ce') {ops ops' : List COp} (ho : ops.map COp.erase = ops'.map COp.erase) :
    RAlike Z True (CVSame Z) (convVerifier ce ops) (convVerifier ce' ops') := by
  have h0 : CVSame Z (F := F) ⟨VerSt.init, AVer.init, edaInit, [], ce.candB 0, [], []⟩ ⟨VerSt.init, AVer.init, edaInit, [], ce'.candB 0, [], []⟩ :=
    ⟨⟨rfl, rfl, rfl, rfl, rfl, fun _ => rfl⟩, ⟨rfl, rfl, rfl, rfl, rfl, rfl, fun _ => rfl⟩, rfl, rfl, hc.cand 0, fun _ => rfl⟩
  unfold convVerifier convR
  rw [hc.ed]
  refine RAlike.bind (R := CVSame Z) ?_ (fun a b hab => .call (fun _ _ _ _ _ => .done hab))
  exact (rcotR_alike hc.ne 0 1).bind (fun _ _ _ => (extAR_alike hc rfl rfl).bind (fun _ _ _ => (RAlike.calls _).bind (fun _ _ _ =>
    (copsR_alike hc ho h0).bind (fun _ _ hs => cfinR_alike hc hs))))

end
end EmpZk
