/-
The provers of two sessions of the same program with different secrets make calls of the same kinds.
-/
import Verif.Lemmas.Traffic
import Verif.Spec.MixTraffic
import Verif.Lemmas.BoolSession

namespace EmpZk

section
variable {α β : Type}

/-- Lists of the same length. -/
def LRel (l : List α) (l' : List β) : Prop := l.length = l'.length

theorem get_orel {l : List α} {l' : List β} (h : l.length = l'.length) (i : Nat) : ORel (fun _ _ => True) l[i]? l'[i]? := by
  by_cases hi : i < l.length
  · rw [List.getElem?_eq_getElem hi, List.getElem?_eq_getElem (h ▸ hi)]
    exact .some trivial
  · rw [List.getElem?_eq_none (by omega), List.getElem?_eq_none (by omega)]
    exact .none

theorem mapM_orel {γ : Type} {f : γ → Option α} {g : γ → Option β} {R : α → β → Prop} (h : ∀ x, ORel R (f x) (g x)) (l : List γ) :
    ORel (List.Forall₂ R) (l.mapM f) (l.mapM g) := by
  induction l with
  | nil => exact .some .nil
  | cons x l ih =>
    rw [List.mapM_cons, List.mapM_cons]
    refine ORel.bind (h x) (fun a b hab => ORel.bind ih (fun as bs h => ?_))
    exact .some (.cons hab h)

theorem pick_orel {l : List α} {l' : List β} (h : l.length = l'.length) (is : List Nat) :
    ORel (fun a b => a.length = is.length ∧ b.length = is.length) (pick l is) (pick l' is) := by
  induction is with
  | nil => exact .some ⟨rfl, rfl⟩
  | cons i is ih =>
    unfold pick at ih ⊢
    rw [List.mapM_cons, List.mapM_cons]
    refine ORel.bind (get_orel h i) (fun a b _ => ORel.bind ih (fun as bs h => ?_))
    exact .some ⟨by simp [h.1], by simp [h.2]⟩

end

section
variable {F : Type} [Field F] [BlockField F] {W : Kind → List Byte → List Byte → Prop}

/-- States of the two provers: the same numbers. -/
structure PSame (s s' : PrvSt F) : Prop where
  wires : s.wires.length = s'.wires.length
  used : s.used = s'.used
  gates : s.gates.length = s'.gates.length
  polys : s.polys.length = s'.polys.length
  outs : s.outs.length = s'.outs.length

variable {ne ne' : NetEnv F} {s s' : PrvSt F}

omit [BlockField F] in
theorem enc2_len (ne : NetEnv F) (h : ∀ x, (ne.enc x).length = 16) (a : F × F) : (ne.enc2 a).length = 32 := by
  simp [NetEnv.enc2, h]

omit [BlockField F] in
theorem rcot_alike [BlockField F] (hn : ne.Same ne') (u k : Nat) : Alike W (fun _ _ => True) (rcotS ne u k) (rcotS ne' u k) := Alike.calls (hn.ext u k)

theorem andCheck_orel (e e' : BEnv F) (ht : e.threads = e'.threads) (h : PSame s s') :
    ORel (fun r r' => PSame r.1 r'.1) (prvAndCheck e s) (prvAndCheck e' s') := by
  unfold prvAndCheck andCheckPrv
  rw [h.gates, ht]
  cases splitTasks s'.gates.length e'.threads with
  | none => exact .none
  | some t => exact .some ⟨h.wires, by simp [h.used], rfl, h.polys, h.outs⟩

theorem andCheckS_alike (hn : ne.Same ne') (h : PSame s s') : Alike W PSame (andCheckS ne s) (andCheckS ne' s') := by
  refine .call rfl (fun x y _ => ?_)
  rw [h.used]
  refine (rcot_alike hn _ _).bind (fun _ _ _ => ?_)
  refine (Alike.opt (andCheck_orel (ne.env x 0) (ne'.env y 0) hn.threads h)).bind (fun a b hab => ?_)
  exact .call (by simp [SOp.kind, enc2_len, hn.enc, hn.enc']) (fun _ _ _ => .call rfl (fun _ _ _ => .done hab))

theorem polyCheckS_alike (hn : ne.Same ne') (h : PSame s s') : Alike W PSame (polyCheckS ne s) (polyCheckS ne' s') := by
  refine .call rfl (fun x y _ => ?_)
  rw [h.used]
  refine (rcot_alike hn _ _).bind (fun _ _ _ => ?_)
  exact .call (by simp [SOp.kind, enc2_len, hn.enc, hn.enc']) (fun _ _ _ => .done ⟨h.wires, by simp [prvPolyCheck, h.used], h.gates, rfl, h.outs⟩)

theorem nil_iff_len {α β : Type} {l : List α} {l' : List β} (h : l.length = l'.length) : l = [] ↔ l' = [] := by
  rw [← List.length_eq_zero_iff, ← List.length_eq_zero_iff, h]

theorem andRoomS_alike (hn : ne.Same ne') (h : PSame s s') : Alike W PSame (andRoomS ne s) (andRoomS ne' s') := by
  unfold andRoomS
  rw [h.gates, hn.checkSz]
  split
  · exact andCheckS_alike hn h
  · exact .done h

theorem polyRoomS_alike (hn : ne.Same ne') (h : PSame s s') : Alike W PSame (polyRoomS ne s) (polyRoomS ne' s') := by
  unfold polyRoomS
  simp only [ne_eq, h.polys, hn.polySz, nil_iff_len h.polys]
  split
  · exact polyCheckS_alike hn h
  · exact .done h

theorem PSame.push (h : PSame s s') (a a' : F) : PSame { s with wires := s.wires ++ [a] } { s' with wires := s'.wires ++ [a'] } :=
  ⟨by simp [h.wires], h.used, h.gates, h.polys, h.outs⟩

theorem lookup_orel {l l' : List F} (h : l.length = l'.length) (st : PolyStmt Nat) : ORel (fun _ _ => True) (st.lookup l) (st.lookup l') := by
  have e : l.map (fun _ => ()) = l'.map (fun _ => ()) := by
    rw [List.map_const', List.map_const', h]
  have e1 := congrArg st.lookup e
  rw [lookup_map, lookup_map] at e1
  cases h1 : st.lookup l <;> cases h2 : st.lookup l' <;> rw [h1, h2] at e1
  · exact .none
  · simp at e1
  · simp at e1
  · exact .some trivial

theorem bopS_alike (hn : ne.Same ne') (h : PSame s s') {o o' : BOp} (ho : o.erase = o'.erase) : Alike W PSame (bopS ne s o) (bopS ne' s' o') := by
  cases o with
  | input b =>
    cases o' <;> simp only [BOp.erase, reduceCtorEq] at ho
    simp only [bopS]
    rw [h.used]
    refine (rcot_alike hn _ _).bind (fun _ _ _ => (Alike.opt (R := fun r r' => PSame r.1 r'.1) (.some ?_)).bind (fun a b hab => .call rfl (fun _ _ _ => .done hab)))
    exact ⟨by simp [h.wires], by simp [h.used], h.gates, h.polys, h.outs⟩
  | pub b =>
    cases o' <;> simp only [BOp.erase, reduceCtorEq, BOp.pub.injEq] at ho
    exact .done (h.push _ _)
  | xor i j =>
    cases o' <;> simp only [BOp.erase, reduceCtorEq, BOp.xor.injEq] at ho
    obtain ⟨rfl, rfl⟩ := ho
    refine (Alike.opt (R := fun r r' => PSame r.1 r'.1) ?_).bind (fun a b hab => .done hab)
    exact (get_orel h.wires i).bind (fun a a' _ => (get_orel h.wires j).bind (fun b b' _ => .some (h.push _ _)))
  | not i =>
    cases o' <;> simp only [BOp.erase, reduceCtorEq, BOp.not.injEq] at ho
    subst ho
    refine (Alike.opt (R := fun r r' => PSame r.1 r'.1) ?_).bind (fun a b hab => .done hab)
    exact (get_orel h.wires i).bind (fun a a' _ => .some (h.push _ _))
  | and i j =>
    cases o' <;> simp only [BOp.erase, reduceCtorEq, BOp.and.injEq] at ho
    obtain ⟨rfl, rfl⟩ := ho
    refine (Alike.opt (get_orel h.wires i)).bind (fun a a' _ => (Alike.opt (get_orel h.wires j)).bind (fun b b' _ =>
      (andRoomS_alike hn h).bind (fun r r' hr => ?_)))
    rw [hr.used]
    refine (rcot_alike hn _ _).bind (fun _ _ _ => (Alike.opt (R := fun q q' => PSame q.1 q'.1) ?_).bind (fun a b hab => .call rfl (fun _ _ _ => .done hab)))
    unfold prvAndPush
    rw [hr.gates, hn.checkSz]
    split
    · exact .some ⟨by simp [hr.wires], by simp [hr.used], by simp [hr.gates], hr.polys, hr.outs⟩
    · exact .none
  | reveal i =>
    cases o' <;> simp only [BOp.erase, reduceCtorEq, BOp.reveal.injEq] at ho
    subst ho
    refine (Alike.opt (R := fun r r' => PSame r.1 r'.1) ?_).bind (fun a b hab => .call rfl (fun _ _ _ => .done hab))
    exact (get_orel h.wires i).bind (fun a a' _ => .some ⟨h.wires, h.used, h.gates, h.polys, by simp [h.outs]⟩)
  | poly st =>
    cases o' <;> simp only [BOp.erase, reduceCtorEq, BOp.poly.injEq] at ho
    subst ho
    refine (Alike.opt (lookup_orel h.wires st)).bind (fun a a' _ => (polyRoomS_alike hn h).bind (fun r r' hr => Alike.opt ?_))
    unfold prvPolyPush
    rw [hr.polys, hn.polySz]
    split
    · exact .some ⟨hr.wires, hr.used, hr.gates, by simp [hr.polys], hr.outs⟩
    · exact .none

theorem bopsS_alike (hn : ne.Same ne') : ∀ {ops ops' : List BOp} {s s' : PrvSt F}, ops.map BOp.erase = ops'.map BOp.erase → PSame s s' →
    Alike W PSame (bopsS ne s ops) (bopsS ne' s' ops') := by
  intro ops
  induction ops with
  | nil =>
    intro ops' s s' ho h
    cases ops' with
    | nil => exact .done h
    | cons => simp at ho
  | cons o ops ih =>
    intro ops' s s' ho h
    cases ops' with
    | nil => simp at ho
    | cons o' ops' =>
      simp only [List.map_cons, List.cons.injEq] at ho
      exact (bopS_alike hn h ho.1).bind (fun a b hab => ih ho.2 hab)

theorem bfinS_alike (hn : ne.Same ne') (h : PSame s s') : Alike W PSame (bfinS ne s) (bfinS ne' s') := by
  unfold bfinS
  refine Alike.bind (R := PSame) ?_ (fun a b hab => Alike.bind (R := PSame) ?_ (fun c d hcd => ?_))
  · simp only [ne_eq, nil_iff_len h.polys]
    split
    · exact polyCheckS_alike hn h
    · exact .done h
  · simp only [ne_eq, nil_iff_len hab.gates]
    split
    · exact andCheckS_alike hn hab
    · exact .done hab
  · exact .call (by simp [SOp.kind, hn.encD, hn.encD']) (fun _ _ _ => .done hcd)

/-! ### products over F_{2^128} -/

/-- States of the two provers of a mixed session: the same numbers. -/
structure MSame (s s' : MPrv F) : Prop where
  b : PSame s.b s'.b
  fw : s.fw.length = s'.fw.length
  left : s.buf.left.length = s'.buf.left.length
  rght : s.buf.rght.length = s'.buf.rght.length
  auth : s.buf.auth.length = s'.buf.auth.length
  cnt : s.buf.cnt = s'.buf.cnt
  fills : s.fills = s'.fills
  polys : s.polys.length = s'.polys.length
  rs : s.rs.length = s'.rs.length

variable {me me' : MixEnv F} {t t' : MPrv F}

theorem f2kNewS_alike (hm : me.Same me') (h : PSame s s') : Alike W MSame (f2kNewS me s) (f2kNewS me' s') := by
  refine (Alike.calls (hm.sv 0)).bind (fun _ _ _ => .done ⟨⟨h.wires, ?_, h.gates, h.polys, h.outs⟩, rfl, rfl, rfl, hm.auth 0, rfl, rfl, rfl, rfl⟩)
  show s.used + me.svN 0 = s'.used + me'.svN 0
  rw [h.used, hm.svN]

omit [Field F] [BlockField F] in
theorem batch_orel {b b' : F2kBuf (F × F)} (hl : b.left.length = b'.left.length) (hr : b.rght.length = b'.rght.length)
    (ha : b.auth.length = b'.auth.length) (hc : b.cnt = b'.cnt) : ORel (fun x y => x.length = y.length) b.batch b'.batch := by
  unfold F2kBuf.batch
  rw [hc, hl]
  split
  · exact .none
  · refine Or.imp_right ?_ (mapM_orel (R := fun _ _ => True) (fun i => ?_) (List.range b'.left.length))
    · rintro ⟨x, y, h1, h2, h3⟩
      exact ⟨x, y, h1, h2, h3.length_eq⟩
    · rcases get_orel hl i with ⟨h1, h2⟩ | ⟨a, a', h1, h2, -⟩
      · rw [h1, h2]; exact .none
      rcases get_orel hr i with ⟨h3, h4⟩ | ⟨c, c', h3, h4, -⟩
      · rw [h1, h2, h3, h4]; exact .none
      rcases get_orel ha (b'.cnt - b'.left.length + i) with ⟨h5, h6⟩ | ⟨d, d', h5, h6, -⟩
      · rw [h1, h2, h3, h4, h5, h6]; exact .none
      · rw [h1, h2, h3, h4, h5, h6]; exact .some trivial

omit [BlockField F] in
theorem taskSums_orel {α β : Type} {f : α → F} {g : β → F} {buf : List α} {buf' : List β} {sd sd' : Nat → F} (ts : List (Nat × Nat)) : ∀ i,
    ORel (fun _ _ => True) (taskSumsO f buf sd ts i) (taskSumsO g buf' sd' ts i) := by
  induction ts with
  | nil => intro i; exact .some trivial
  | cons t ts ih =>
    intro i
    simp only [taskSumsO, taskSumO]
    by_cases ht : t.2 = 0
    · rw [if_pos ht, if_pos ht]; exact .none
    · rw [if_neg ht, if_neg ht]
      exact ORel.bind (R := fun _ _ => True) (.some trivial) (fun _ _ _ => ORel.bind (ih (i + 1)) (fun _ _ _ => .some trivial))

theorem f2kCheck_orel {b b' : List ((F × F) × (F × F) × (F × F))} (h : b.length = b'.length) {n n' : Nat} (hn : n = n') (sd sd' o o' : Nat → F) :
    ORel (fun _ _ => True) (f2kCheckPrv b n sd o) (f2kCheckPrv b' n' sd' o') := by
  unfold f2kCheckPrv
  rw [h, hn]
  cases splitTasksF2k b'.length n' with
  | none => exact .none
  | some ts =>
    simp only [Option.bind_eq_bind, Option.bind_some]
    exact ORel.bind (taskSums_orel ts 0) (fun _ _ _ => ORel.bind (taskSums_orel ts 0) (fun _ _ _ => .some trivial))

theorem f2kCheckS_alike (hm : me.Same me') (h : MSame t t') : Alike W MSame (f2kCheckS me t) (f2kCheckS me' t') := by
  refine .call rfl (fun _ _ _ => .call rfl (fun x y _ => ?_))
  refine (Alike.opt (batch_orel h.left h.rght h.auth h.cnt)).bind (fun bt bt' hb => ?_)
  rw [h.b.used]
  refine (rcot_alike hm.ne _ _).bind (fun _ _ _ => (Alike.opt (f2kCheck_orel hb hm.ne.threads _ _ _ _)).bind (fun a b _ => ?_))
  refine .call (by simp [SOp.kind, enc2_len, hm.ne.enc, hm.ne.enc']) (fun _ _ _ => .call rfl (fun _ _ _ => .done ?_))
  exact ⟨⟨h.b.wires, by simp [h.b.used], h.b.gates, h.b.polys, h.b.outs⟩, h.fw, rfl, rfl, h.auth, h.cnt, h.fills, h.polys, h.rs⟩

theorem f2kRoomS_alike (hm : me.Same me') (h : MSame t t') : Alike W MSame (f2kRoomS me t) (f2kRoomS me' t') := by
  unfold f2kRoomS
  rw [h.left, hm.sz]
  split
  · exact f2kCheckS_alike hm h
  · exact .done h

theorem f2kFillS_alike (hm : me.Same me') (h : MSame t t') : Alike W MSame (f2kFillS me t) (f2kFillS me' t') := by
  unfold f2kFillS
  rw [h.cnt, hm.sz, h.fills]
  split
  · refine (Alike.calls (hm.sv _)).bind (fun _ _ _ => .done ?_)
    exact ⟨⟨h.b.wires, by simp [h.b.used, hm.svN], h.b.gates, h.b.polys, h.b.outs⟩, h.fw, h.left, h.rght, hm.auth _, rfl, rfl, h.polys, h.rs⟩
  · exact .done h

theorem f2kMulS_alike (hm : me.Same me') (h : MSame t t') (a b a' b' : F × F) : Alike W MSame (f2kMulS me t a b) (f2kMulS me' t' a' b') := by
  refine (f2kRoomS_alike hm h).bind (fun r r' hr => (f2kFillS_alike hm hr).bind (fun q q' hq =>
    (Alike.opt (R := fun _ _ => True) ?_).bind (fun au au' _ => ?_)))
  · rw [hq.left, hm.sz, hq.cnt]
    split
    · exact get_orel hq.auth _
    · exact .none
  · refine .call (by simp [SOp.kind, hm.ne.enc, hm.ne.enc']) (fun _ _ _ => .done ?_)
    exact ⟨hq.b, by simp [hq.fw], by simp [hq.left], by simp [hq.rght], by simp [hq.auth], by simp [hq.cnt], hq.fills, hq.polys, hq.rs⟩

theorem prdtCheckS_alike (hm : me.Same me') (h : MSame t t') : Alike W MSame (prdtCheckS me t) (prdtCheckS me' t') := by
  refine .call rfl (fun _ _ _ => .call rfl (fun x y _ => .call ?_ (fun _ _ _ => .done ?_)))
  · simp [SOp.kind, hm.ne.enc, hm.ne.enc']
  · exact ⟨h.b, h.fw, h.left, h.rght, h.auth, h.cnt, h.fills, rfl, h.rs⟩

theorem prdtRoomS_alike (hm : me.Same me') (h : MSame t t') : Alike W MSame (prdtRoomS me t) (prdtRoomS me' t') := by
  unfold prdtRoomS
  simp only [ne_eq, h.polys, hm.cap, nil_iff_len h.polys]
  split
  · exact prdtCheckS_alike hm h
  · exact .done h

theorem innBase_orel {l l' : List F} (h : l.length = l'.length) (off : Nat) {n n' : Nat} (hn : n = n') :
    ORel (fun _ _ => True) (innBase off l n) (innBase off l' n') := by
  unfold innBase
  rw [h, hn]
  split
  · exact .some trivial
  · exact .none

theorem mulLabel_orel {l l' : List F} (h : l.length = l'.length) : ORel (fun _ _ => True) (mulLabel l) (mulLabel l') := by
  unfold mulLabel
  exact ORel.bind (innBase_orel h 0 rfl) (fun _ _ _ => ORel.bind (innBase_orel (by simp [h]) 64 rfl) (fun _ _ _ => .some trivial))

omit [BlockField F] in
theorem polyPrv_orel {l l' : List (F × F)} (h : l.length = l'.length) (m m' : F) : ORel (fun _ _ => True) (polyPrv l m) (polyPrv l' m') := by
  match l, l', h with
  | [], [], _ => exact .none
  | [_], [_], _ => exact .none
  | [_, _], [_, _], _ => exact .none
  | [_, _, _], [_, _, _], _ => exact .some trivial
  | [_, _, _, _], [_, _, _, _], _ => exact .some trivial
  | [_, _, _, _, _], [_, _, _, _, _], _ => exact .some trivial
  | _ :: _ :: _ :: _ :: _ :: _ :: _, _ :: _ :: _ :: _ :: _ :: _ :: _, _ => exact .none

theorem f2kMulNS_alike (hm : me.Same me') (h : MSame t t') {xs xs' : List (F × F)} (hx : xs.length = xs'.length) :
    Alike W MSame (f2kMulNS me t xs) (f2kMulNS me' t' xs') := by
  have herase : ∀ l : List Bool, (l.map BOp.input).map BOp.erase = List.replicate l.length (.input false) := by
    intro l
    induction l with
    | nil => rfl
    | cons b l ih => simp only [List.map_cons, ih, List.length_cons, List.replicate_succ]; rfl
  unfold f2kMulNS
  refine (bopsS_alike hm.ne (by rw [herase, herase]; simp [hm.lo, hm.lo', hm.hi, hm.hi']) h.b).bind (fun b b' hb => ?_)
  refine (Alike.opt (mulLabel_orel (by simp [hb.wires, h.b.wires]))).bind (fun m m' _ => (Alike.opt (polyPrv_orel hx m m')).bind (fun e e' _ => ?_))
  refine (prdtRoomS_alike hm (t := { t with b := { b with wires := t.b.wires } }) (t' := { t' with b := { b' with wires := t'.b.wires } })
    ⟨⟨h.b.wires, hb.used, hb.gates, hb.polys, hb.outs⟩, h.fw, h.left, h.rght, h.auth, h.cnt, h.fills, h.polys, h.rs⟩).bind (fun r r' hr => ?_)
  rw [hr.polys, hm.cap]
  split
  · exact .done ⟨hr.b, by simp [hr.fw], hr.left, hr.rght, hr.auth, hr.cnt, hr.fills, by simp [hr.polys], hr.rs⟩
  · exact .fail

theorem packPieces_orel {l l' : List F} (h : l.length = l'.length) (ps : List (Nat × List Nat)) :
    ORel (fun _ _ => True) (packPieces l ps) (packPieces l' ps) := by
  induction ps with
  | nil => exact .some trivial
  | cons p ps ih =>
    exact ORel.bind (pick_orel h p.2) (fun a b hab => ORel.bind (innBase_orel (hab.1.trans hab.2.symm) p.1 (hab.1.trans hab.2.symm))
      (fun _ _ _ => ORel.bind ih (fun _ _ _ => .some trivial)))

omit [BlockField F] in
theorem linComb_orel {l l' k k' : List F} (h : l.length = l'.length) (hk : k.length = k'.length) (ps : List (Nat × Nat)) :
    ORel (fun _ _ => True) (linComb l k ps) (linComb l' k' ps) := by
  induction ps with
  | nil => exact .some trivial
  | cons p ps ih =>
    exact ORel.bind (get_orel h p.1) (fun _ _ _ => ORel.bind (get_orel hk p.2) (fun _ _ _ => ORel.bind ih (fun _ _ _ => .some trivial)))

theorem MSame.push (h : MSame t t') (a a' : F × F) : MSame { t with fw := t.fw ++ [a] } { t' with fw := t'.fw ++ [a'] } :=
  ⟨h.b, by simp [h.fw], h.left, h.rght, h.auth, h.cnt, h.fills, h.polys, h.rs⟩

theorem mopS_alike (hm : me.Same me') (h : MSame t t') {o o' : MOp} (ho : o.erase = o'.erase) : Alike W MSame (mopS me t o) (mopS me' t' o') := by
  cases o with
  | bool o =>
    cases o' <;> simp only [MOp.erase, reduceCtorEq, MOp.bool.injEq] at ho
    exact (bopS_alike hm.ne h.b ho).bind (fun b b' hb => .done ⟨hb, h.fw, h.left, h.rght, h.auth, h.cnt, h.fills, h.polys, h.rs⟩)
  | pack ws =>
    cases o' <;> simp only [MOp.erase, reduceCtorEq, MOp.pack.injEq] at ho
    subst ho
    exact (Alike.opt (pick_orel h.b.wires ws)).bind (fun l l' hl => (Alike.opt (innBase_orel (hl.1.trans hl.2.symm) 0 (hl.1.trans hl.2.symm))).bind
      (fun _ _ _ => .done (h.push _ _)))
  | chal =>
    cases o' <;> simp only [MOp.erase, reduceCtorEq] at ho
    exact .call rfl (fun _ _ _ => .done ⟨h.b, h.fw, h.left, h.rght, h.auth, h.cnt, h.fills, h.polys, by simp [h.rs]⟩)
  | addc i k =>
    cases o' <;> simp only [MOp.erase, reduceCtorEq, MOp.addc.injEq] at ho
    obtain ⟨rfl, rfl⟩ := ho
    exact (Alike.opt (get_orel h.fw i)).bind (fun _ _ _ => (Alike.opt (get_orel h.rs k)).bind (fun _ _ _ => .done (h.push _ _)))
  | mul i j =>
    cases o' <;> simp only [MOp.erase, reduceCtorEq, MOp.mul.injEq] at ho
    obtain ⟨rfl, rfl⟩ := ho
    exact (Alike.opt (get_orel h.fw i)).bind (fun _ _ _ => (Alike.opt (get_orel h.fw j)).bind (fun _ _ _ => f2kMulS_alike hm h _ _ _ _))
  | mulN is =>
    cases o' <;> simp only [MOp.erase, reduceCtorEq, MOp.mulN.injEq] at ho
    subst ho
    exact (Alike.opt (pick_orel h.fw is)).bind (fun l l' hl => f2kMulNS_alike hm h (hl.1.trans hl.2.symm))
  | eq i j =>
    cases o' <;> simp only [MOp.erase, reduceCtorEq, MOp.eq.injEq] at ho
    obtain ⟨rfl, rfl⟩ := ho
    exact (Alike.opt (get_orel h.fw i)).bind (fun _ _ _ => (Alike.opt (get_orel h.fw j)).bind (fun _ _ _ =>
      .call (by simp [SOp.kind, enc2_len, hm.ne.enc, hm.ne.enc']) (fun _ _ _ => .done h)))
  | sync =>
    cases o' <;> simp only [MOp.erase, reduceCtorEq] at ho
    exact .call rfl (fun _ _ _ => .done h)
  | packAt ps =>
    cases o' <;> simp only [MOp.erase, reduceCtorEq, MOp.packAt.injEq] at ho
    subst ho
    exact (Alike.opt (packPieces_orel h.b.wires ps)).bind (fun _ _ _ => (Alike.opt (packPieces_orel (by simp [h.b.wires]) ps)).bind
      (fun _ _ _ => .done (h.push _ _)))
  | chals n =>
    cases o' <;> simp only [MOp.erase, reduceCtorEq, MOp.chals.injEq] at ho
    subst ho
    exact .call rfl (fun _ _ _ => .done ⟨h.b, h.fw, h.left, h.rght, h.auth, h.cnt, h.fills, h.polys, by simp [h.rs]⟩)
  | lin l =>
    cases o' <;> simp only [MOp.erase, reduceCtorEq, MOp.lin.injEq] at ho
    subst ho
    exact (Alike.opt (linComb_orel h.rs (by simp [h.fw]) l)).bind (fun _ _ _ => (Alike.opt (linComb_orel h.rs (by simp [h.fw]) l)).bind
      (fun _ _ _ => .done (h.push _ _)))

theorem mopsS_alike (hm : me.Same me') : ∀ {ops ops' : List MOp} {t t' : MPrv F}, ops.map MOp.erase = ops'.map MOp.erase → MSame t t' →
    Alike W MSame (mopsS me t ops) (mopsS me' t' ops') := by
  intro ops
  induction ops with
  | nil =>
    intro ops' t t' ho h
    cases ops' with
    | nil => exact .done h
    | cons => simp at ho
  | cons o ops ih =>
    intro ops' t t' ho h
    cases ops' with
    | nil => simp at ho
    | cons o' ops' =>
      simp only [List.map_cons, List.cons.injEq] at ho
      exact (mopS_alike hm h ho.1).bind (fun a b hab => ih ho.2 hab)

theorem f2kDelS_alike (hm : me.Same me') (h : MSame t t') : Alike W MSame (f2kDelS me t) (f2kDelS me' t') := by
  unfold f2kDelS
  refine Alike.bind (R := MSame) ?_ (fun a b hab => ?_)
  · simp only [ne_eq, nil_iff_len h.polys]
    split
    · exact prdtCheckS_alike hm h
    · exact .done h
  · simp only [ne_eq, nil_iff_len hab.left]
    split
    · exact f2kCheckS_alike hm hab
    · exact .done hab

theorem init_same : PSame (PrvSt.init : PrvSt F) PrvSt.init := ⟨rfl, rfl, rfl, rfl, rfl⟩

/-- Whole provers. -/
theorem mixProver_alike (hm : me.Same me') {pre pre' post post' : List BOp} {ops ops' : List MOp} (h1 : pre.map BOp.erase = pre'.map BOp.erase)
    (h2 : ops.map MOp.erase = ops'.map MOp.erase) (h3 : post.map BOp.erase = post'.map BOp.erase) :
    Alike W MSame (mixProver me pre ops post) (mixProver me' pre' ops' post') := by
  unfold mixProver mixS
  refine Alike.bind (R := MSame) ?_ (fun a b hab => .call rfl (fun _ _ _ => .done hab))
  refine (rcot_alike hm.ne 0 1).bind (fun _ _ _ => (bopsS_alike hm.ne h1 init_same).bind (fun b b' hb => (f2kNewS_alike hm hb).bind (fun s s' hs =>
    (mopsS_alike hm h2 hs).bind (fun r r' hr => (f2kDelS_alike hm hr).bind (fun q q' hq => (bopsS_alike hm.ne h3 hq.b).bind (fun c c' hc =>
      (bfinS_alike hm.ne hc).bind (fun d d' hd => .done ?_)))))))
  exact ⟨hd, hq.fw, hq.left, hq.rght, hq.auth, hq.cnt, hq.fills, hq.polys, hq.rs⟩

end
end EmpZk
