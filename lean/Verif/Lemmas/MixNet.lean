/-
A mixed session: honest parties in lock step.
-/
import Verif.Lemmas.MixBool
import Verif.Lemmas.F2kChain
import Verif.Lemmas.ZkRam

namespace EmpZk

section
variable {F : Type} [Field F] [BlockField F]

/-! ### packing -/

theorem innFrom_append (a b : List F) : ∀ off, innFrom off (a ++ b) = innFrom off a + innFrom (off + a.length) b := by
  induction a with
  | nil => intro off; simp [innFrom]
  | cons x a ih =>
    intro off
    simp only [List.cons_append, innFrom, ih, List.length_cons]
    rw [show off + 1 + a.length = off + (a.length + 1) by omega]
    ring

theorem innFrom_sum (l : List F) : ∀ off, innFrom off l = ∑ i : Fin l.length, l[i] * gX ^ (off + (i : Nat)) := by
  induction l with
  | nil => intro off; simp [innFrom]
  | cons x l ih =>
    intro off
    rw [innFrom, ih]
    simp only [List.length_cons]
    rw [Fin.sum_univ_succ]
    congr 1
    apply Finset.sum_congr rfl
    intro i _
    simp only [Fin.getElem_fin, Fin.val_succ, List.getElem_cons_succ]
    rw [show off + 1 + (i : Nat) = off + ((i : Nat) + 1) by omega]

theorem packList_eq (bs : List Bool) : (packList bs : F) = innFrom 0 (bs.map bit) := by
  rw [innFrom_sum, packList]
  have : ∀ n (hn : n = bs.length), ∑ i : Fin bs.length, (bit bs[i] : F) * gX ^ (i : Nat) =
      ∑ i : Fin n, (bit (bs[i.1]'(hn ▸ i.2)) : F) * gX ^ (0 + (i : Nat)) := by
    intro n hn
    subst hn
    simp
  rw [this (bs.map (bit : Bool → F)).length (by simp)]
  apply Finset.sum_congr rfl
  intro i _
  simp

theorem innFrom_key (delta : F) (l : List F) : ∀ off, innFrom off (l.map (keyOf delta)) =
    innFrom off l + innFrom off (l.map (fun x => bit (lsb x))) * delta := by
  induction l with
  | nil => intro off; simp [innFrom]
  | cons x l ih =>
    intro off
    simp only [List.map_cons, innFrom, ih, keyOf]
    ring

/-- The label of a product: value and MAC. -/
theorem mulLabel_spec (delta : F) {ls : List F} {lo hi : List Bool} (h : ls.map lsb = lo ++ hi) (h1 : lo.length = 65) (h2 : hi.length = 65) :
    ∃ m, mulLabel ls = some m ∧ mulLabel (ls.map (keyOf delta)) = some (keyF delta (packList (lo.take 64 ++ hi.take 64), m)) := by
  have hl : ls.length = 130 := by
    have := congrArg List.length h
    simpa [h1, h2] using this
  have e1 : ∀ xs : List F, xs.length = 130 → mulLabel xs = some (innFrom 0 (xs.take 64 ++ (xs.drop 65).take 64)) := by
    intro xs hx
    rw [innFrom_append]
    simp only [mulLabel, innBase]
    rw [if_pos ⟨by omega, by omega⟩, if_pos ⟨by simp; omega, by omega⟩]
    simp [hx]
  refine ⟨_, e1 ls hl, ?_⟩
  rw [e1 _ (by simpa using hl), keyF]
  have e2 : (ls.map (keyOf delta)).take 64 ++ ((ls.map (keyOf delta)).drop 65).take 64 =
      (ls.take 64 ++ (ls.drop 65).take 64).map (keyOf delta) := by
    simp only [List.map_append, List.map_take, List.map_drop]
  have e3 : ((ls.take 64 ++ (ls.drop 65).take 64).map (fun x => (bit (lsb x) : F))) = (lo.take 64 ++ hi.take 64).map bit := by
    have : (fun x => (bit (lsb x) : F)) = bit ∘ (lsb : F → Bool) := rfl
    rw [this, ← List.map_map]
    congr 1
    simp only [List.map_append, List.map_take, List.map_drop, h]
    congr 1
    · rw [List.take_append_of_le_length (by omega)]
    · rw [← h1, List.drop_left]
  rw [e2, innFrom_key, packList_eq, e3]

/-- A packed word: value and MAC. -/
theorem pack_spec (delta : F) {ls : List F} (h : ls.length ≤ 128) :
    ∃ m, innBase 0 ls ls.length = some m ∧ innFrom 0 (ls.map (fun l => bit (lsb l))) = (packList (ls.map lsb) : F) ∧
      innBase 0 (ls.map (keyOf delta)) (ls.map (keyOf delta)).length = some (keyF delta (packList (ls.map lsb), m)) := by
  refine ⟨innFrom 0 ls, ?_, ?_, ?_⟩
  · rw [innBase, if_pos ⟨le_refl _, by omega⟩, List.take_length]
  · rw [packList_eq, List.map_map]; rfl
  · rw [innBase, if_pos ⟨le_refl _, by simpa using h⟩, List.take_length, innFrom_key, keyF, packList_eq, List.map_map]
    rfl

end

section
variable {F : Type} [Field F] [BlockField F] [DecidableEq F]

/-- The states of two honest parties of a mixed session with plain values `mp`. -/
structure MRel (me : MixEnv F) (P : MPrv F) (V : MVer F) (mp : MPlain F) : Prop where
  b : BRel me.ne P.b V.b mp.bp
  fw : V.fw = P.fw.map (keyF me.ne.e.delta)
  vals : P.fw.map Prod.fst = mp.fs
  buf : V.buf = P.buf.key me.ne.e.delta
  inv : P.buf.Inv me.sz
  pend : ∀ g ∈ P.buf.pending, MulOk g
  polys : V.polys = P.polys.map (entAt me.ne.e.delta)
  polyLen : P.polys.length ≤ me.cap
  fills : V.fills = P.fills
  rs : V.rs = P.rs ∧ P.rs = mp.rs
  warns : V.warns = 0

variable {me : MixEnv F} {P : MPrv F} {V : MVer F} {mp : MPlain F} {S : Nat}

/-- The check of the pending products in lock step. -/
theorem lock_f2kCheck (hg : me.Good) (hs : me.ne.Sane) (h : MRel me P V mp) (ht : me.ne.e.threads ≤ P.buf.left.length) :
    Lock S (f2kCheckS me P) (f2kCheckR me V) (fun P' V' => (∃ n, P' = { P with b := { P.b with used := n }, buf := { P.buf with left := [], rght := [] } } ∧
      V' = { V with b := { V.b with used := n }, buf := { V.buf with left := [], rght := [] } })) := by
  unfold f2kCheckS f2kCheckR
  refine Lock.flushC (Lock.hashC (fun d => ?_))
  rw [h.inv.batch_eq, h.buf, (h.inv.key me.ne.e.delta).batch_eq, pending_key, h.b.used]
  simp only [SProg.ofOpt, RProg.ofOpt, SProg.bind, RProg.bind]
  refine Lock.bind (lock_rcot hg.ne _ _) (fun _ _ _ => ?_)
  have hlen : P.buf.pending.length = P.buf.left.length := by
    obtain ⟨h1, h2, h3, h4⟩ := h.inv
    simp only [F2kBuf.pending, List.length_zip, List.length_take]
    omega
  obtain ⟨tasks, htk⟩ := Option.isSome_iff_exists.1 ((splitTasks_isSome P.buf.pending.length me.ne.e.threads).2 ⟨hs.threads, by rw [hlen]; exact ht⟩)
  have hpm := f2kCheckPrv_eq P.buf.pending (me.ne.seeds d) (fun i => me.ne.e.mac (P.b.used + i)) htk
  rw [hpm]
  simp only [SProg.bind]
  refine Lock.dataC (hg.ne.enc2_length _) (by decide) ?_
  rw [hg.ne.dec2_enc2]
  have hkey : (fun i => me.ne.e.key (P.b.used + i)) = fun i => keyOf me.ne.e.delta (me.ne.e.mac (P.b.used + i)) :=
    funext (fun i => hg.ne.e.key_eq _)
  have hz : taskSumF mulErrF P.buf.pending (me.ne.seeds d) tasks 0 = 0 := by
    apply taskSumF_zero
    intro t _ g hgm
    rw [mulErrF_eq_zero]
    apply h.pend
    unfold taskSlice at hgm
    exact List.mem_of_mem_drop (List.mem_of_mem_take hgm)
  rw [hkey, f2kCheckVer_key me.ne.e.delta P.buf.pending (me.ne.seeds d) _ _ htk, hz]
  have hok : ∀ a b : F, decide (b * me.ne.e.delta + a = a + b * me.ne.e.delta + 0 * (me.ne.e.delta * me.ne.e.delta)) = true := by
    intro a b
    rw [decide_eq_true_eq]; ring
  simp only [hok, if_true]
  refine Lock.flushC (Lock.pure ⟨P.b.used + 128, rfl, ?_⟩)
  simp only [h.buf, h.b.used, if_true]

/-- Before a product of two blocks: room in the buffers. -/
theorem lock_f2kMul (hg : me.Good) (hs : me.ne.Sane) (hts : me.ne.e.threads ≤ me.sz) (h : MRel me P V mp) {a b : F × F} :
    Lock S (f2kMulS me P a b) (f2kMulR me V (keyF me.ne.e.delta a) (keyF me.ne.e.delta b)) (fun P' V' =>
      MRel me P' V' { mp with fs := mp.fs ++ [a.1 * b.1] } ∧ P'.b.gates = P.b.gates ∧
        P'.buf.left.length = (if P.buf.left.length = me.sz then 0 else P.buf.left.length) + 1) := by
  unfold f2kMulS f2kMulR
  have hroom : Lock S ((f2kRoomS me P).bind (f2kFillS me)) ((f2kRoomR me V).bind (f2kFillR me)) (fun P' V' => MRel me P' V' mp ∧
      P'.b.gates = P.b.gates ∧ P'.buf.cnt < me.sz ∧ P'.buf.left.length = (if P.buf.left.length = me.sz then 0 else P.buf.left.length)) := by
    obtain ⟨h1, h2, h3, h4⟩ := h.inv
    have hvl : V.buf.left.length = P.buf.left.length := by rw [h.buf]; simp [F2kBuf.key]
    have hvc : V.buf.cnt = P.buf.cnt := by rw [h.buf]; rfl
    unfold f2kRoomS f2kRoomR
    rw [hvl]
    by_cases hf : P.buf.left.length = me.sz
    · rw [if_pos hf, if_pos hf, if_pos hf]
      refine Lock.bind (lock_f2kCheck hg hs h (by rw [hf]; exact hts)) ?_
      rintro P1 V1 ⟨n, rfl, rfl⟩
      unfold f2kFillS f2kFillR
      simp only
      rw [if_pos (by omega), if_pos (by omega), h.fills]
      refine Lock.bind (Lock.calls (hg.sv _)) (fun _ _ _ => Lock.pure ⟨?_, rfl, hg.sz, rfl⟩)
      refine ⟨(h.b.setUsed n).setUsed _, h.fw, h.vals, ?_, ?_, ?_, h.polys, h.polyLen, ?_, h.rs, h.warns⟩
      · simp only [F2kBuf.key, hg.keys, List.map_nil]
      · exact ⟨rfl, rfl, Nat.zero_le _, hg.room _⟩
      · intro g hgm
        simp [F2kBuf.pending] at hgm
      · rfl
    · rw [if_neg hf, if_neg hf, if_neg hf]
      simp only [SProg.bind, RProg.bind]
      unfold f2kFillS f2kFillR
      rw [if_neg (by omega), if_neg (by omega)]
      exact Lock.pure ⟨h, rfl, by omega, rfl⟩
  have hassocP : ∀ f : MPrv F → SProg (MPrv F), ((f2kRoomS me P).bind (fun s1 => (f2kFillS me s1).bind f)) =
      ((f2kRoomS me P).bind (f2kFillS me)).bind f := by
    intro f
    rw [SProg.bind_assoc]
  have hassocV : ∀ f : MVer F → RProg (MVer F), ((f2kRoomR me V).bind (fun s1 => (f2kFillR me s1).bind f)) =
      ((f2kRoomR me V).bind (f2kFillR me)).bind f := by
    intro f
    rw [RProg.bind_assoc]
  rw [hassocP, hassocV]
  refine Lock.bind hroom ?_
  rintro P1 V1 ⟨k1, k2, k3, k4⟩
  obtain ⟨h1, h2, h3, h4⟩ := k1.inv
  have hvl : V1.buf.left.length = P1.buf.left.length := by rw [k1.buf]; simp [F2kBuf.key]
  have hvc : V1.buf.cnt = P1.buf.cnt := by rw [k1.buf]; rfl
  obtain ⟨au, hau⟩ : ∃ au, P1.buf.auth[P1.buf.cnt]? = some au := ⟨_, List.getElem?_eq_getElem (by omega)⟩
  have hke : V1.buf.auth[V1.buf.cnt]? = some (keyF me.ne.e.delta au) := by
    rw [hvc, k1.buf]
    simp only [F2kBuf.key, List.getElem?_map, hau, Option.map_some]
  simp only [hvl]
  rw [if_pos (by omega), if_pos (by omega), hau, hke]
  simp only [SProg.ofOpt, RProg.ofOpt, SProg.bind, RProg.bind]
  refine Lock.dataC (hg.ne.enc_length _) (by decide) (Lock.pure ⟨?_, k2, ?_⟩)
  · rw [hg.ne.dec_enc, mul_key]
    refine ⟨k1.b, ?_, ?_, ?_, ?_, ?_, k1.polys, k1.polyLen, k1.fills, k1.rs, k1.warns⟩
    · simp only [k1.fw, List.map_append, List.map_cons, List.map_nil]
    · simp only [k1.vals, List.map_append, List.map_cons, List.map_nil, f2kMulPrv]
    · rw [k1.buf]
      simp only [F2kBuf.key, List.map_append, List.map_cons, List.map_nil, List.map_set]
    · exact ⟨by simp; omega, by simp; omega, by simp only; omega, by simpa using h4⟩
    · intro g hgm
      rw [pending_push k1.inv k3] at hgm
      rcases List.mem_append.1 hgm with hgm | hgm
      · exact k1.pend g hgm
      · rw [List.mem_singleton] at hgm
        subst hgm
        rfl
  · simp only [List.length_append, List.length_singleton, k4]

theorem entAt_batch (delta seed : F) (es : List (PolyEnt F)) :
    entAt delta (polyBatchPrv seed es) = chiSum seed (es.map (entAt delta)) := by
  simp only [polyBatchPrv, entAt, ← chiSum_mul, ← chiSum_add]
  rfl

theorem dec5_enc (hg : me.ne.Good) (e : PolyEnt F) :
    dec5 me.ne (me.ne.enc e.b0 ++ (me.ne.enc e.b1 ++ (me.ne.enc e.b2 ++ (me.ne.enc e.b3 ++ me.ne.enc e.b4)))) = e := by
  obtain ⟨b0, b1, b2, b3, b4⟩ := e
  have l := hg.enc_length
  have hd : ∀ (x : F) (t : List Byte) (n : Nat), (me.ne.enc x ++ t).drop (16 + n) = t.drop n := by
    intro x t n
    rw [← l x, List.drop_append, List.drop_eq_nil_of_le (by omega)]
    simp
  have ht : ∀ (x : F) (t : List Byte), (me.ne.enc x ++ t).take 16 = me.ne.enc x := by
    intro x t
    rw [← l x, List.take_left]
  simp only [dec5]
  rw [show (16 : Nat) = 16 + 0 from rfl, show (32 : Nat) = 16 + (16 + 0) from rfl, show (48 : Nat) = 16 + (16 + (16 + 0)) from rfl,
    show (64 : Nat) = 16 + (16 + (16 + (16 + 0))) from rfl]
  simp only [hd, List.drop_zero]
  simp only [Nat.add_zero, ht]
  rw [show me.ne.enc b4 = me.ne.enc b4 from rfl, hg.dec_enc, hg.dec_enc, hg.dec_enc, hg.dec_enc, hg.dec_enc]

/-- The batch check of longer products in lock step. -/
theorem lock_prdtCheck (hg : me.Good) (h : MRel me P V mp) :
    Lock S (prdtCheckS me P) (prdtCheckR me V) (fun P' V' => P' = { P with polys := [] } ∧ V' = { V with polys := [] }) := by
  unfold prdtCheckS prdtCheckR
  refine Lock.flushC (Lock.hashC (fun d => Lock.dataC (by simp [hg.ne.enc_length]) (by decide) ?_))
  rw [dec5_enc hg.ne, if_pos]
  · exact Lock.pure ⟨rfl, rfl⟩
  · rw [h.polys, polyBatchVer, decide_eq_true_eq, ← entAt_batch]
    rfl

/-- Room for one more longer product. -/
theorem lock_prdtRoom (hg : me.Good) (h : MRel me P V mp) :
    Lock S (prdtRoomS me P) (prdtRoomR me V) (fun P' V' => MRel me P' V' mp ∧ P'.polys.length < me.cap ∧ P'.b = P.b ∧ V'.b = V.b ∧
      P'.buf = P.buf) := by
  unfold prdtRoomS prdtRoomR
  have hl : V.polys.length = P.polys.length := by rw [h.polys]; simp
  have hn : V.polys ≠ [] ↔ P.polys ≠ [] := by
    rw [ne_eq, ne_eq, ← List.length_eq_zero_iff, ← List.length_eq_zero_iff, hl]
  have hiff : (V.polys.length ≥ me.cap ∧ V.polys ≠ []) ↔ (P.polys.length ≥ me.cap ∧ P.polys ≠ []) := by rw [hl, hn]
  by_cases hf : P.polys.length ≥ me.cap ∧ P.polys ≠ []
  · rw [if_pos hf, if_pos (hiff.2 hf)]
    refine (lock_prdtCheck hg h).mono ?_
    rintro _ _ ⟨rfl, rfl⟩
    exact ⟨⟨h.b, h.fw, h.vals, h.buf, h.inv, h.pend, rfl, Nat.zero_le _, h.fills, h.rs, h.warns⟩, hg.cap, rfl, rfl, rfl⟩
  · rw [if_neg hf, if_neg (fun h' => hf (hiff.1 h'))]
    refine Lock.pure ⟨h, ?_, rfl, rfl, rfl⟩
    by_contra hlt
    apply hf
    refine ⟨by omega, ?_⟩
    intro h0
    rw [h0] at hlt
    exact hlt hg.cap

/-- A product of three to five blocks in lock step. -/
theorem lock_f2kMulN (hg : me.Good) (hs : me.ne.Sane) (h : MRel me P V mp) {xs : List (F × F)} (h3 : 3 ≤ xs.length) (h5 : xs.length ≤ 5) :
    Lock S (f2kMulNS me P xs) (f2kMulNR me V (xs.map (keyF me.ne.e.delta))) (fun P' V' =>
      MRel me P' V' { mp with fs := mp.fs ++ [(xs.map Prod.fst).prod] } ∧ P'.b.gates = P.b.gates ∧ P'.buf = P.buf) := by
  unfold f2kMulNS f2kMulNR
  generalize hv : (xs.map Prod.fst).prod = v
  refine Lock.bind (lock_inputs hs (me.lo v ++ me.hi v) h.b (by simp [hg.lo, hg.hi])) ?_
  rintro b1 d1 ⟨k1, k2, ls, k3⟩
  have hls : ls.map lsb = me.lo v ++ me.hi v := by
    have := k1.plainWires
    simp only [k3, List.map_append, h.b.plainWires] at this
    exact (List.append_cancel_left this).symm
  obtain ⟨m, hm, hm'⟩ := mulLabel_spec me.ne.e.delta hls (hg.lo v) (hg.hi v)
  rw [hg.split v] at hm'
  have hdV : d1.wires.drop V.b.wires.length = ls.map (keyOf me.ne.e.delta) := by
    rw [k1.wires, h.b.wires, k3, List.map_append, List.drop_left]
  have hdP : b1.wires.drop P.b.wires.length = ls := by rw [k3, List.drop_left]
  have hp : (⟨xs, (v, m)⟩ : PGate F).Poly := by
    simp only [PGate.Poly]; omega
  obtain ⟨e, he, he'⟩ := poly_key me.ne.e.delta ⟨xs, (v, m)⟩ hp
  have herr : polyErr (⟨xs, (v, m)⟩ : PGate F) = 0 := by
    rw [polyErr_eq_zero]
    simp only [PGate.Ok, hv]
  rw [herr, zero_mul, add_zero] at he'
  simp only [PGate.keys] at he'
  simp only at he
  rw [hdP, hdV, hm, hm']
  simp only [SProg.ofOpt, RProg.ofOpt, SProg.bind, RProg.bind]
  rw [he, he']
  simp only [SProg.bind, RProg.bind]
  have hmid : MRel me { P with b := { b1 with wires := P.b.wires } } { V with b := { d1 with wires := V.b.wires } } mp := by
    refine ⟨?_, h.fw, h.vals, h.buf, h.inv, h.pend, h.polys, h.polyLen, h.fills, h.rs, h.warns⟩
    have := k1.setWires P.b.wires
    rw [← h.b.wires, ← h.b.plainWires] at this
    exact this
  refine Lock.bind (lock_prdtRoom hg hmid) ?_
  rintro P2 V2 ⟨l1, l2, l3, l4, l5⟩
  have hl2 : V2.polys.length < me.cap := by rw [l1.polys]; simpa using l2
  rw [if_pos l2, if_pos hl2]
  refine Lock.pure ⟨⟨l1.b, ?_, ?_, l1.buf, l1.inv, l1.pend, ?_, ?_, l1.fills, l1.rs, l1.warns⟩, ?_, l5⟩
  · simp only [l1.fw, List.map_append, List.map_cons, List.map_nil]
  · simp only [l1.vals, List.map_append, List.map_cons, List.map_nil]
  · simp only [l1.polys, List.map_append, List.map_cons, List.map_nil]
  · simp only [List.length_append, List.length_singleton]; omega
  · simp only [l3, k2]

omit [Field F] [BlockField F] [DecidableEq F] in
theorem pick_length {α : Type} {l : List α} {g : List Nat} {es : List α} (h : pick l g = some es) : es.length = g.length := by
  unfold pick at h
  induction g generalizing es with
  | nil => simp at h; subst h; rfl
  | cons i g ih =>
    rw [List.mapM_cons] at h
    simp only [Option.bind_eq_bind, Option.bind_eq_some_iff, Option.pure_def, Option.some.injEq] at h
    obtain ⟨a, _, r, hr, rfl⟩ := h
    simp [ih hr]

omit [Field F] [BlockField F] [DecidableEq F] in
theorem pick_lt {α : Type} {l : List α} {g : List Nat} {es : List α} (h : pick l g = some es) : ∀ i ∈ g, i < l.length := by
  unfold pick at h
  induction g generalizing es with
  | nil => intro i hi; simp at hi
  | cons j g ih =>
    rw [List.mapM_cons] at h
    simp only [Option.bind_eq_bind, Option.bind_eq_some_iff, Option.pure_def, Option.some.injEq] at h
    obtain ⟨a, ha, r, hr, _⟩ := h
    intro i hi
    rcases List.mem_cons.1 hi with rfl | hi
    · exact (List.getElem?_eq_some_iff.1 ha).1
    · exact ih hr i hi

omit [Field F] [BlockField F] [DecidableEq F] in
theorem pick_nil {α : Type} (l : List α) : pick l [] = some [] := rfl

omit [Field F] [BlockField F] [DecidableEq F] in
theorem pick_cons {α : Type} (l : List α) (i : Nat) (g : List Nat) :
    pick l (i :: g) = l[i]?.bind (fun a => (pick l g).map (fun r => a :: r)) := by
  unfold pick
  rw [List.mapM_cons]
  cases l[i]? with
  | none => rfl
  | some a => simp only [Option.bind_eq_bind, Option.bind_some]; cases List.mapM (fun i => l[i]?) g <;> rfl

omit [DecidableEq F] in
theorem innFrom_shift (off : Nat) (bs : List F) : innFrom off bs = gX ^ off * innFrom 0 bs := by
  induction bs using List.reverseRecOn with
  | nil => simp [innFrom]
  | append_singleton bs b ih =>
    rw [innFrom_append, innFrom_append, ih]
    simp only [innFrom, Nat.zero_add]
    ring

omit [DecidableEq F] in
/-- Packing from pieces: the label, the value, and the key. -/
theorem pieces_spec (delta : F) (W : List F) (ps : List (Nat × List Nat)) : ∀ {x : F}, piecesVal (W.map lsb) ps = some x →
    ∃ m, packPieces W ps = some m ∧ packPieces (W.map (fun l => bit (lsb l))) ps = some x ∧
      packPieces (W.map (keyOf delta)) ps = some (keyF delta (x, m)) := by
  induction ps with
  | nil =>
    intro x h
    simp only [piecesVal, Option.some.injEq] at h
    subst h
    exact ⟨0, rfl, rfl, by simp [packPieces, keyF]⟩
  | cons p ps ih =>
    intro x h
    obtain ⟨off, ws⟩ := p
    simp only [piecesVal, Option.bind_eq_bind, Option.bind_eq_some_iff] at h
    obtain ⟨bs, hb, r, hr, h⟩ := h
    split at h
    · rename_i hl
      rw [Option.some.injEq] at h
      subst h
      obtain ⟨m, k1, k2, k3⟩ := ih hr
      obtain ⟨ls, hls⟩ : ∃ ls, pick W ws = some ls := by
        have hlt : ∀ i ∈ ws, i < W.length := by
          intro i hi
          have := pick_lt hb i hi
          simpa using this
        obtain ⟨es, he, _⟩ := pick_some W ws hlt
        exact ⟨es, he⟩
      have hbs : bs = ls.map lsb := by
        have := pick_map lsb _ _ _ hls
        rw [hb, Option.some.injEq] at this
        exact this
      have hlsl : ls.length = ws.length := pick_length hls
      refine ⟨innFrom off ls + m, ?_, ?_, ?_⟩
      · simp only [packPieces, hls, k1, innBase, Option.bind_eq_bind, Option.bind_some]
        rw [if_pos ⟨le_refl _, by omega⟩, List.take_length]
        rfl
      · simp only [packPieces, pick_map _ _ _ _ hls, k2, innBase, Option.bind_eq_bind, Option.bind_some]
        rw [if_pos ⟨le_refl _, by simpa using by omega⟩, List.take_length, Option.bind_some, innFrom_shift, hbs, packList_eq, List.map_map]
        rfl
      · simp only [packPieces, pick_map _ _ _ _ hls, k3, innBase, Option.bind_eq_bind, Option.bind_some]
        rw [if_pos ⟨le_refl _, by simpa using by omega⟩, List.take_length, Option.bind_some, innFrom_key, hbs, packList_eq, List.map_map,
          Option.some.injEq]
        have := innFrom_shift off (ls.map (fun l => (bit (lsb l) : F)))
        simp only [keyF]
        have e : (bit ∘ lsb : F → F) = fun l => bit (lsb l) := rfl
        rw [e, ← this]
        ring
    · cases h

omit [BlockField F] [DecidableEq F] in
theorem linVal_eq (s : MPlain F) (l : List (Nat × Nat)) : linVal s l = linComb s.rs s.fs l := by
  induction l with
  | nil => simp [linVal, linComb, pick_nil]
  | cons p l ih =>
    obtain ⟨k, i⟩ := p
    simp only [linVal, linComb, List.map_cons, pick_cons, Option.bind_eq_bind] at ih ⊢
    rw [← ih]
    cases s.rs[k]? with
    | none => rfl
    | some r =>
      simp only [Option.bind_some]
      cases s.fs[i]? with
      | none => cases pick s.rs (l.map Prod.fst) <;> rfl
      | some x =>
        cases pick s.rs (l.map Prod.fst) with
        | none => rfl
        | some rs =>
          cases pick s.fs (l.map Prod.snd) with
          | none => rfl
          | some xs => simp

omit [BlockField F] [DecidableEq F] in
theorem linComb_spec (delta : F) (rs : List F) (fw : List (F × F)) (l : List (Nat × Nat)) : ∀ {x : F}, linComb rs (fw.map Prod.fst) l = some x →
    ∃ m, linComb rs (fw.map Prod.snd) l = some m ∧ linComb rs (fw.map (keyF delta)) l = some (keyF delta (x, m)) := by
  induction l with
  | nil => intro x h; simp only [linComb, Option.some.injEq] at h; subst h; exact ⟨0, rfl, by simp [linComb, keyF]⟩
  | cons p l ih =>
    intro x h
    obtain ⟨k, i⟩ := p
    simp only [linComb, Option.bind_eq_bind, Option.bind_eq_some_iff, Option.some.injEq, List.getElem?_map, Option.map_eq_some_iff] at h
    obtain ⟨r, hr, _, ⟨y, hy, rfl⟩, q, hq, rfl⟩ := h
    obtain ⟨m, k1, k2⟩ := ih hq
    refine ⟨r * y.2 + m, by simp [linComb, hr, hy, k1], ?_⟩
    simp only [linComb, hr, hy, k2, List.getElem?_map, Option.map_some, Option.bind_eq_bind, Option.bind_some, keyF, Option.some.injEq]
    ring

/-- One instruction in lock step. -/
theorem lock_mop (hg : me.Good) (hs : me.ne.Sane) (hts : me.ne.e.threads ≤ me.sz) (h : MRel me P V mp) {o : MOp}
    (ho : ∀ ch : Nat → F, (∀ k, k < mp.rs.length → mp.rs[k]? = some (ch k)) → (mplainStep ch mp o).isSome) :
    Lock S (mopS me P o) (mopR me V o) (fun P' V' => ∃ mp', (∀ ch : Nat → F, (∀ k, k < mp'.rs.length → mp'.rs[k]? = some (ch k)) →
        mplainStep ch mp o = some mp') ∧ mp.rs <+: mp'.rs ∧ MRel me P' V' mp' ∧
      P'.b.gates.length = nextBatch me.ne.e.checkSz P.b.gates.length o.isAnd ∧
      P'.buf.left.length = nextBatch me.sz P.buf.left.length o.isMul) := by
  obtain ⟨ch0, hch0⟩ : ∃ ch : Nat → F, ∀ k, k < mp.rs.length → mp.rs[k]? = some (ch k) :=
    ⟨fun k => mp.rs.getD k 0, fun k hk => by simp [List.getElem?_eq_getElem hk]⟩
  have h0 := ho ch0 hch0
  have hP : ∀ {i : Nat} {x : F}, mp.fs[i]? = some x → ∃ y, P.fw[i]? = some y ∧ y.1 = x ∧ V.fw[i]? = some (keyF me.ne.e.delta y) := by
    intro i x hx
    rw [← h.vals, List.getElem?_map, Option.map_eq_some_iff] at hx
    obtain ⟨y, hy, hyx⟩ := hx
    exact ⟨y, hy, hyx, by rw [h.fw, List.getElem?_map, hy]; rfl⟩
  cases o with
  | bool o =>
    simp only [mplainStep, Option.isSome_map] at h0
    obtain ⟨b', hb'⟩ := Option.isSome_iff_exists.1 h0
    simp only [mopS, mopR]
    refine Lock.bind (lock_bop hs h.b hb') ?_
    rintro p v ⟨k1, k2⟩
    refine Lock.pure ⟨{ mp with bp := b' }, fun ch _ => by simp only [mplainStep, hb', Option.map_some], List.prefix_rfl,
      ⟨k1, h.fw, h.vals, h.buf, h.inv, h.pend, h.polys, h.polyLen, h.fills, h.rs, h.warns⟩, k2, rfl⟩
  | pack ws =>
    simp only [mplainStep, Option.bind_eq_bind] at h0
    cases hb : pick mp.bp.wires ws with
    | none => rw [hb] at h0; simp at h0
    | some bs =>
      rw [hb, Option.bind_some] at h0
      have hlen : ws.length ≤ 128 := by
        by_contra hc
        rw [if_neg hc] at h0
        simp at h0
      obtain ⟨ls, hls⟩ : ∃ ls, pick P.b.wires ws = some ls := by
        have hlt : ∀ i ∈ ws, i < P.b.wires.length := by
          intro i hi
          have := pick_lt hb i hi
          rw [h.b.plainWires] at this
          simpa using this
        obtain ⟨es, he, _⟩ := pick_some P.b.wires ws hlt
        exact ⟨es, he⟩
      have hbs : bs = ls.map lsb := by
        have := pick_map lsb _ _ _ hls
        rw [← h.b.plainWires, hb, Option.some.injEq] at this
        exact this
      have hlsl : ls.length = ws.length := pick_length hls
      obtain ⟨m, k1, k2, k3⟩ := pack_spec me.ne.e.delta (ls := ls) (by omega)
      have hV : pick V.b.wires ws = some (ls.map (keyOf me.ne.e.delta)) := by rw [h.b.wires]; exact pick_map _ _ _ _ hls
      simp only [mopS, mopR, hls, hV, SProg.ofOpt, RProg.ofOpt, SProg.bind, RProg.bind, k1, k3, k2]
      refine Lock.pure ⟨{ mp with fs := mp.fs ++ [packList bs] }, ?_, List.prefix_rfl, ?_, rfl, rfl⟩
      · intro ch _
        simp only [mplainStep, hb, Option.bind_eq_bind, Option.bind_some, if_pos hlen]
      · refine ⟨h.b, ?_, ?_, h.buf, h.inv, h.pend, h.polys, h.polyLen, h.fills, h.rs, h.warns⟩
        · simp only [h.fw, List.map_append, List.map_cons, List.map_nil]
        · simp only [h.vals, List.map_append, List.map_cons, List.map_nil, hbs]
  | chal =>
    simp only [mopS, mopR]
    refine Lock.hashC (fun d => Lock.pure ⟨{ mp with rs := mp.rs ++ [me.blk d] }, ?_, List.prefix_append _ _, ?_, rfl, rfl⟩)
    · intro ch hch
      have := hch mp.rs.length (by simp)
      simp only [List.getElem?_concat_length, Option.some.injEq] at this
      simp only [mplainStep, this]
    · exact ⟨h.b, h.fw, h.vals, h.buf, h.inv, h.pend, h.polys, h.polyLen, h.fills, ⟨by simp only [h.rs.1], by simp only [h.rs.2]⟩, h.warns⟩
  | addc i k =>
    simp only [mplainStep, Option.bind_eq_bind] at h0
    cases hx : mp.fs[i]? with
    | none => rw [hx] at h0; simp at h0
    | some x =>
      cases hr : mp.rs[k]? with
      | none => rw [hx, hr] at h0; simp at h0
      | some r =>
        obtain ⟨y, hy, rfl, hyV⟩ := hP hx
        have hrP : P.rs[k]? = some r := by rw [h.rs.2]; exact hr
        have hrV : V.rs[k]? = some r := by rw [h.rs.1]; exact hrP
        simp only [mopS, mopR, hy, hyV, hrP, hrV, SProg.ofOpt, RProg.ofOpt, SProg.bind, RProg.bind, addConst_key]
        refine Lock.pure ⟨{ mp with fs := mp.fs ++ [y.1 + r] }, ?_, List.prefix_rfl, ?_, rfl, rfl⟩
        · intro ch _
          simp only [mplainStep, hx, hr, Option.bind_eq_bind, Option.bind_some]
        · refine ⟨h.b, ?_, ?_, h.buf, h.inv, h.pend, h.polys, h.polyLen, h.fills, h.rs, h.warns⟩
          · simp only [h.fw, List.map_append, List.map_cons, List.map_nil]
          · simp only [h.vals, List.map_append, List.map_cons, List.map_nil, f2kAddConstPrv]
  | mul i j =>
    simp only [mplainStep, Option.bind_eq_bind] at h0
    cases hx : mp.fs[i]? with
    | none => rw [hx] at h0; simp at h0
    | some x =>
      cases hy : mp.fs[j]? with
      | none => rw [hx, hy] at h0; simp at h0
      | some y =>
        obtain ⟨a, ha, rfl, haV⟩ := hP hx
        obtain ⟨b, hb, rfl, hbV⟩ := hP hy
        simp only [mopS, mopR, ha, haV, hb, hbV, SProg.ofOpt, RProg.ofOpt, SProg.bind, RProg.bind]
        refine (lock_f2kMul hg hs hts h).mono ?_
        rintro P' V' ⟨k1, k2, k3⟩
        refine ⟨{ mp with fs := mp.fs ++ [a.1 * b.1] }, ?_, List.prefix_rfl, k1, by rw [k2]; rfl, k3⟩
        intro ch _
        simp only [mplainStep, hx, hy, Option.bind_eq_bind, Option.bind_some]
  | mulN is =>
    simp only [mplainStep, Option.bind_eq_bind] at h0
    cases hb : pick mp.fs is with
    | none => rw [hb] at h0; simp at h0
    | some vs =>
      rw [hb, Option.bind_some] at h0
      have hlen : 3 ≤ is.length ∧ is.length ≤ 5 := by
        by_contra hc
        rw [if_neg hc] at h0
        simp at h0
      obtain ⟨xs, hxs⟩ : ∃ xs, pick P.fw is = some xs := by
        have hlt : ∀ i ∈ is, i < P.fw.length := by
          intro i hi
          have := pick_lt hb i hi
          rw [← h.vals] at this
          simpa using this
        obtain ⟨es, he, _⟩ := pick_some P.fw is hlt
        exact ⟨es, he⟩
      have hvs : vs = xs.map Prod.fst := by
        have := pick_map Prod.fst _ _ _ hxs
        rw [h.vals, hb, Option.some.injEq] at this
        exact this
      have hxl : xs.length = is.length := pick_length hxs
      have hV : pick V.fw is = some (xs.map (keyF me.ne.e.delta)) := by rw [h.fw]; exact pick_map _ _ _ _ hxs
      simp only [mopS, mopR, hxs, hV, SProg.ofOpt, RProg.ofOpt, SProg.bind, RProg.bind]
      refine (lock_f2kMulN hg hs h (by omega) (by omega)).mono ?_
      rintro P' V' ⟨k1, k2, k3⟩
      refine ⟨{ mp with fs := mp.fs ++ [(xs.map Prod.fst).prod] }, ?_, List.prefix_rfl, k1, by rw [k2]; rfl, by rw [k3]; rfl⟩
      intro ch _
      simp only [mplainStep, hb, Option.bind_eq_bind, Option.bind_some, if_pos hlen, hvs]
  | eq i j =>
    simp only [mplainStep, Option.bind_eq_bind] at h0
    cases hx : mp.fs[i]? with
    | none => rw [hx] at h0; simp at h0
    | some x =>
      cases hy : mp.fs[j]? with
      | none => rw [hx, hy] at h0; simp at h0
      | some y =>
        rw [hx, hy] at h0
        simp only [Option.bind_some] at h0
        have hxy : x = y := by
          by_contra hc
          rw [if_neg hc] at h0
          simp at h0
        obtain ⟨a, ha, hax, haV⟩ := hP hx
        obtain ⟨b, hb, hby, hbV⟩ := hP hy
        simp only [mopS, mopR, ha, haV, hb, hbV, SProg.ofOpt, RProg.ofOpt, SProg.bind, RProg.bind]
        refine Lock.dataC (hg.ne.enc2_length _) (by decide) ?_
        rw [hg.ne.dec2_enc2, if_pos]
        · refine Lock.pure ⟨mp, ?_, List.prefix_rfl, h, rfl, rfl⟩
          intro ch _
          simp only [mplainStep, hx, hy, Option.bind_eq_bind, Option.bind_some, if_pos hxy]
        · have e1 := addSelf a.2
          have e2 := addSelf b.2
          unfold setEqVer
          rw [decide_eq_true_eq]
          simp only [keyF]
          rw [hax, hby, hxy]
          linear_combination e1 - e2
  | sync =>
    simp only [mopS, mopR]
    exact Lock.flushC (Lock.pure ⟨mp, fun _ _ => rfl, List.prefix_rfl, h, rfl, rfl⟩)
  | packAt ps =>
    simp only [mplainStep, Option.bind_eq_bind] at h0
    cases hb : (piecesVal mp.bp.wires ps : Option F) with
    | none => rw [hb] at h0; simp at h0
    | some x =>
      obtain ⟨m, k1, k2, k3⟩ := pieces_spec me.ne.e.delta P.b.wires ps (x := x) (by rw [← h.b.plainWires]; exact hb)
      simp only [mopS, mopR, k1, k2, h.b.wires, k3, SProg.ofOpt, RProg.ofOpt, SProg.bind, RProg.bind]
      refine Lock.pure ⟨{ mp with fs := mp.fs ++ [x] }, ?_, List.prefix_rfl, ?_, rfl, rfl⟩
      · intro ch _
        simp only [mplainStep, hb, Option.bind_eq_bind, Option.bind_some]
      · refine ⟨h.b, ?_, ?_, h.buf, h.inv, h.pend, h.polys, h.polyLen, h.fills, h.rs, h.warns⟩
        · simp only [h.fw, List.map_append, List.map_cons, List.map_nil]
        · simp only [h.vals, List.map_append, List.map_cons, List.map_nil]
  | chals n =>
    simp only [mopS, mopR]
    refine Lock.hashC (fun d => Lock.pure ⟨{ mp with rs := mp.rs ++ (List.range n).map (me.prg (me.blk d)) }, ?_, List.prefix_append _ _, ?_, rfl, rfl⟩)
    · intro ch hch
      have : (List.range n).map (fun i => ch (mp.rs.length + i)) = (List.range n).map (me.prg (me.blk d)) := by
        apply List.map_congr_left
        intro i hi
        rw [List.mem_range] at hi
        have := hch (mp.rs.length + i) (by simp [hi])
        simp only at this
        rw [List.getElem?_append_right (by omega), Nat.add_sub_cancel_left, List.getElem?_map, List.getElem?_range hi, Option.map_some,
          Option.some.injEq] at this
        exact this.symm
      simp only [mplainStep, this]
    · exact ⟨h.b, h.fw, h.vals, h.buf, h.inv, h.pend, h.polys, h.polyLen, h.fills, ⟨by simp only [h.rs.1], by simp only [h.rs.2]⟩, h.warns⟩
  | lin l =>
    simp only [mplainStep, Option.bind_eq_bind] at h0
    cases hb : linVal mp l with
    | none => rw [hb] at h0; simp at h0
    | some x =>
      have hbl := hb
      rw [linVal_eq] at hbl
      obtain ⟨m, k1, k2⟩ := linComb_spec me.ne.e.delta mp.rs P.fw l (x := x) (by rw [h.vals]; exact hbl)
      simp only [mopS, mopR, h.vals, h.rs.1, h.rs.2, hbl, k1, h.fw, k2, SProg.ofOpt, RProg.ofOpt, SProg.bind, RProg.bind]
      refine Lock.pure ⟨{ mp with fs := mp.fs ++ [x] }, ?_, List.prefix_rfl, ?_, rfl, rfl⟩
      · intro ch _
        simp only [mplainStep, hb, Option.bind_eq_bind, Option.bind_some]
      · refine ⟨h.b, ?_, ?_, h.buf, h.inv, h.pend, h.polys, h.polyLen, h.fills, ⟨by first | exact h.rs.1 | (simp only [h.rs.1]), by first | exact h.rs.2 | rfl⟩, h.warns⟩
        · simp only [h.fw, List.map_append, List.map_cons, List.map_nil]
        · simp only [h.vals, List.map_append, List.map_cons, List.map_nil]

theorem mplainOps_cons (ch : Nat → F) (s : MPlain F) (o : MOp) (os : List MOp) :
    mplainOps ch s (o :: os) = (mplainStep ch s o).bind (fun s1 => mplainOps ch s1 os) := by
  simp only [mplainOps, List.foldlM_cons]; rfl

/-- Instructions in lock step. -/
theorem lock_mops (hg : me.Good) (hs : me.ne.Sane) (hts : me.ne.e.threads ≤ me.sz) (ops : List MOp) :
    ∀ {P : MPrv F} {V : MVer F} {mp : MPlain F}, MRel me P V mp →
    (∀ ch : Nat → F, (∀ k, k < mp.rs.length → mp.rs[k]? = some (ch k)) → (mplainOps ch mp ops).isSome) →
    Lock S (mopsS me P ops) (mopsR me V ops) (fun P' V' => ∃ mp', (∀ ch : Nat → F, (∀ k, k < mp'.rs.length → mp'.rs[k]? = some (ch k)) →
        mplainOps ch mp ops = some mp') ∧ mp.rs <+: mp'.rs ∧ MRel me P' V' mp' ∧
      P'.b.gates.length = nextBatches me.ne.e.checkSz P.b.gates.length (ops.map MOp.isAnd) ∧
      P'.buf.left.length = nextBatches me.sz P.buf.left.length (ops.map MOp.isMul)) := by
  induction ops with
  | nil =>
    intro P V mp h _
    exact Lock.pure ⟨mp, fun _ _ => rfl, List.prefix_rfl, h, rfl, rfl⟩
  | cons o os ih =>
    intro P V mp h ho
    simp only [mopsS, mopsR]
    refine Lock.bind (lock_mop hg hs hts h (o := o) ?_) ?_
    · intro ch hch
      have := ho ch hch
      rw [mplainOps_cons] at this
      cases hm : mplainStep ch mp o with
      | none => rw [hm] at this; simp at this
      | some _ => rfl
    · rintro P1 V1 ⟨mp1, k1, k2, k3, k4, k5⟩
      have hpre : ∀ (l l' : List F) (ch : Nat → F), l <+: l' → (∀ k, k < l'.length → l'[k]? = some (ch k)) →
          ∀ k, k < l.length → l[k]? = some (ch k) := by
        rintro l _ ch ⟨t, rfl⟩ hk k hkl
        have := hk k (by rw [List.length_append]; omega)
        rw [List.getElem?_append_left hkl] at this
        exact this
      refine (ih k3 ?_).mono ?_
      · intro ch hch
        have := ho ch (hpre _ _ ch k2 hch)
        rw [mplainOps_cons, k1 ch hch] at this
        exact this
      · rintro P2 V2 ⟨mp2, l1, l2, l3, l4, l5⟩
        refine ⟨mp2, ?_, k2.trans l2, l3, ?_, ?_⟩
        · intro ch hch
          rw [mplainOps_cons, k1 ch (hpre _ _ ch l2 hch), Option.bind_some]
          exact l1 ch hch
        · rw [l4, k4]; rfl
        · rw [l5, k5]; rfl

/-- The destructor in lock step. -/
theorem lock_f2kDel (hg : me.Good) (hs : me.ne.Sane) (h : MRel me P V mp)
    (hl : P.buf.left.length = 0 ∨ me.ne.e.threads ≤ P.buf.left.length) :
    Lock S (f2kDelS me P) (f2kDelR me V) (fun P' V' => BRel me.ne P'.b V'.b mp.bp ∧ P'.b.gates = P.b.gates ∧
      V'.warns = 0 ∧ P'.fw.map Prod.fst = mp.fs ∧ V'.fw = P'.fw.map (keyF me.ne.e.delta) ∧ P'.rs = mp.rs ∧ V'.rs = mp.rs) := by
  unfold f2kDelS f2kDelR
  have hpl : V.polys ≠ [] ↔ P.polys ≠ [] := by
    rw [h.polys]; simp
  have h1 : Lock S (if P.polys ≠ [] then prdtCheckS me P else SProg.done P) (if V.polys ≠ [] then prdtCheckR me V else RProg.done V)
      (fun P' V' => MRel me P' V' mp ∧ P'.b = P.b ∧ P'.buf = P.buf) := by
    by_cases hf : P.polys ≠ []
    · rw [if_pos hf, if_pos (hpl.2 hf)]
      refine (lock_prdtCheck hg h).mono ?_
      rintro _ _ ⟨rfl, rfl⟩
      exact ⟨⟨h.b, h.fw, h.vals, h.buf, h.inv, h.pend, rfl, Nat.zero_le _, h.fills, h.rs, h.warns⟩, rfl, rfl⟩
    · rw [if_neg hf, if_neg (fun h' => hf (hpl.1 h'))]
      exact Lock.pure ⟨h, rfl, rfl⟩
  refine Lock.bind h1 ?_
  rintro P1 V1 ⟨k1, k2, k3⟩
  have hvl : V1.buf.left ≠ [] ↔ P1.buf.left ≠ [] := by rw [k1.buf]; simp [F2kBuf.key]
  by_cases hf : P1.buf.left ≠ []
  · rw [if_pos hf, if_pos (hvl.2 hf)]
    refine (lock_f2kCheck hg hs k1 ?_).mono ?_
    · rw [k3] at hf ⊢
      rcases hl with hl | hl
      · exact absurd (List.length_eq_zero_iff.1 hl) hf
      · exact hl
    · rintro _ _ ⟨n, rfl, rfl⟩
      exact ⟨k1.b.setUsed n, by rw [← k2], k1.warns, k1.vals, k1.fw, k1.rs.2, k1.rs.1.trans k1.rs.2⟩
  · rw [if_neg hf, if_neg (fun h' => hf (hvl.1 h'))]
    exact Lock.pure ⟨k1.b, by rw [← k2], k1.warns, k1.vals, k1.fw, k1.rs.2, k1.rs.1.trans k1.rs.2⟩

/-- A whole session in lock step. -/
theorem lock_mix (hg : me.Good) (hs : me.ne.Sane) (hts : me.ne.e.threads ≤ me.sz) {pre : List BOp} {ops : List MOp} {post : List BOp}
    (hrun : ∀ ch : Nat → F, ∃ mp, mplainRun ch pre ops post = some mp ∧ ∀ b ∈ mp.bp.claims, b = false)
    (ha : lastBatch (mixAnds pre ops post) me.ne.e.checkSz = 0 ∨ me.ne.e.threads ≤ lastBatch (mixAnds pre ops post) me.ne.e.checkSz)
    (hm : lastBatch (mixMuls ops) me.sz = 0 ∨ me.ne.e.threads ≤ lastBatch (mixMuls ops) me.sz) :
    Lock S (mixS me pre ops post) (mixR me pre ops post) (fun P V => ∃ ch mp, mplainRun ch pre ops post = some mp ∧ P.b.outs = mp.bp.outs ∧
      V.b.outs = mp.bp.outs ∧ V.b.cheats = [] ∧ V.warns = 0 ∧ P.fw.map Prod.fst = mp.fs ∧ V.fw = P.fw.map (keyF me.ne.e.delta) ∧
      P.rs = mp.rs ∧ V.rs = mp.rs) := by
  have hcz : 0 < me.ne.e.checkSz := Nat.lt_of_lt_of_le hs.threads hs.fits
  have hpre : (plainRun pre).isSome := by
    obtain ⟨mp, h1, _⟩ := hrun (fun _ => 0)
    cases hp : plainRun pre with
    | none => simp [mplainRun, hp] at h1
    | some _ => rfl
  obtain ⟨pb, hpb⟩ := Option.isSome_iff_exists.1 hpre
  unfold mixS mixR
  refine Lock.bind (lock_rcot hg.ne 0 1) (fun _ _ _ => ?_)
  refine Lock.bind (lock_bops hs pre (BRel.init me.ne) hpb) ?_
  rintro p1 v1 ⟨k1, k2⟩
  have hnew : Lock S (f2kNewS me p1) (f2kNewR me v1) (fun P V => MRel me P V ⟨pb, [], []⟩ ∧ P.b.gates = p1.gates ∧ P.buf.left = []) := by
    unfold f2kNewS f2kNewR
    refine Lock.bind (Lock.calls (hg.sv 0)) (fun _ _ _ => Lock.pure ⟨⟨?_, rfl, rfl, ?_, ?_, ?_, rfl, Nat.zero_le _, rfl, ⟨rfl, rfl⟩, rfl⟩, rfl, rfl⟩)
    · rw [k1.used]; exact k1.setUsed _
    · simp only [F2kBuf.key, hg.keys, List.map_nil]
    · exact ⟨rfl, rfl, Nat.zero_le _, hg.room 0⟩
    · intro g hgm
      simp [F2kBuf.pending] at hgm
  refine Lock.bind hnew ?_
  rintro P2 V2 ⟨k3, k4, k5⟩
  refine Lock.bind (lock_mops hg hs hts ops k3 ?_) ?_
  · intro ch _
    obtain ⟨mp, h1, _⟩ := hrun ch
    cases hp : mplainOps ch ⟨pb, [], []⟩ ops with
    | none => simp [mplainRun, hpb, hp] at h1
    | some _ => rfl
  rintro P3 V3 ⟨mp, l1, l2, l3, l4, l5⟩
  obtain ⟨ch, hch⟩ : ∃ ch : Nat → F, ∀ k, k < mp.rs.length → mp.rs[k]? = some (ch k) :=
    ⟨fun k => mp.rs.getD k 0, fun k hk => by simp [List.getElem?_eq_getElem hk]⟩
  have hops := l1 ch hch
  obtain ⟨mpF, hF, hcl⟩ := hrun ch
  simp only [mplainRun, hpb, hops, Option.bind_eq_bind, Option.bind_some, Option.bind_eq_some_iff, Option.some.injEq] at hF
  obtain ⟨b2, hb2, rfl⟩ := hF
  have e0 : (0 : Nat) = lastBatch 0 me.ne.e.checkSz := rfl
  have e0' : (0 : Nat) = lastBatch 0 me.sz := rfl
  have hcount : ∀ {α : Type} (f : α → Bool) (l : List α), (l.map f).countP id = l.countP f := by
    intro α f l
    rw [List.countP_map]; rfl
  have hmul : P3.buf.left.length = lastBatch (mixMuls ops) me.sz := by
    rw [l5, k5, List.length_nil, e0', nextBatches_eq hg.sz, hcount, Nat.zero_add]; rfl
  refine Lock.bind (lock_f2kDel hg hs l3 (by rw [hmul]; exact hm)) ?_
  rintro P4 V4 ⟨m1, m2, m3, m4, m5, m6, m7⟩
  refine Lock.bind (lock_bops hs post m1 hb2) ?_
  rintro p5 v5 ⟨n1, n2⟩
  have hand : p5.gates.length = lastBatch (mixAnds pre ops post) me.ne.e.checkSz := by
    rw [n2, m2, l4, k4, k2, show (PrvSt.init : PrvSt F).gates.length = 0 from rfl, e0, nextBatches_eq hcz, nextBatches_eq hcz, nextBatches_eq hcz,
      hcount, hcount, hcount, Nat.zero_add]
    rfl
  refine Lock.bind (lock_bfin hs n1 (by rw [hand]; exact ha) hcl) ?_
  rintro p6 v6 ⟨o1, o2, o3⟩
  refine Lock.pure ⟨ch, { mp with bp := b2 }, ?_, o1, o2, o3, m3, m4, m5, m6, m7⟩
  simp only [mplainRun, hpb, hops, hb2, Option.bind_eq_bind, Option.bind_some]

end
end EmpZk
