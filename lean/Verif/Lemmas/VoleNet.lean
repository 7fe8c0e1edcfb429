/-
Requests for correlations over the network: both parties complete them, with the results of the message-free model.
-/
import Verif.Lemmas.ExtendNetRun
import Verif.Lemmas.VoleTriple
import Verif.Model.ArithFull

namespace EmpZk

theorem CoPar.bindE {T : Nat} {α β γ δ : Type} {P : Par T (Option α)} {Q : Par T (Option β)} {a : α} {b : β}
    {f : α → Par T (Option γ)} {g : β → Par T (Option δ)} {x : Option γ} {y : Option δ}
    (h : CoPar P Q (some a) (some b)) (h' : CoPar (f a) (g b) x y) : CoPar (P.bindE f) (Q.bindE g) x y :=
  CoPar.bind h h'

theorem CoPar.optSome {T : Nat} {α β : Type} {o : Option α} {o' : Option β} {x : α} {y : β} (h : o = some x) (h' : o' = some y) :
    CoPar (T := T) ((Par.ofOpt o).bind fun r => .done (some r)) ((Par.ofOpt o').bind fun r => .done (some r)) (some x) (some y) := by
  subst h; subst h'; exact CoPar.done _ _

theorem extendBuf_inv {α : Type} {c : VCfg α} {L : Nat} (hc : c.Ok L) (pre0 : List α) (h0 : pre0.length = c.M) {s : VState α}
    (hs : s.pre = seedOf c.gen L pre0 s.round) {data : List α} {off : Int} {x : VState α × List α} (h : extendBuf c s data off = some x) :
    x.1.pre = seedOf c.gen L pre0 x.1.round ∧ x.1.round = s.round + 1 ∧ x.1.otUsed = s.otUsed := by
  have hb := batch_len hc pre0 h0 s.round
  have h' := h
  simp only [extendBuf, Option.bind_eq_bind, Option.bind_eq_some_iff] at h'
  obtain ⟨d, hd, _⟩ := h'
  have hw : 0 ≤ off ∧ off + (c.gen s.round s.pre).length ≤ data.length := by
    by_contra hn
    rw [wr, if_neg hn] at hd
    cases hd
  obtain ⟨o, rfl⟩ : ∃ o : Nat, off = o := ⟨off.toNat, (Int.toNat_of_nonneg hw.1).symm⟩
  have hlen : (c.gen s.round s.pre).length = c.n := by rw [hs]; exact hb
  obtain ⟨d', e, _⟩ := extendBuf_ok hc pre0 h0 s hs data o (by omega)
  rw [e] at h
  cases h
  exact ⟨rfl, rfl, rfl⟩

/-- The parts of `extendMany`. -/
def stockP {α : Type} (c : VCfg α) (s : VState α) (data : List α) : Option (List α × Int) :=
  if 0 < silentLeft c s then do
    let xs ← rd s.triples s.otUsed (silentLeft c s)
    let data ← wr data 0 xs
    some (data, silentLeft c s)
  else some (data, 0)

def copyP {α : Type} (c : VCfg α) (s : VState α) (data : List α) (pt len : Int) : Option (VState α × List α) := do
  let x ← extendBuf c s s.triples 0
  let xs ← rd x.2 0 len
  let data ← wr data pt xs
  some ({ x.1 with triples := x.2, otUsed := len }, data)

def restP {α : Type} (c : VCfg α) (last : Int) (x : VState α × List α × Int) : Option (VState α × List α) :=
  if last > c.limit then do
    let y ← copyP c x.1 x.2.1 x.2.2 c.limit
    if 0 < last - c.limit then copyP c y.1 y.2 (x.2.2 + c.limit) (last - c.limit) else some y
  else if 0 < last then copyP c x.1 x.2.1 x.2.2 last
  else some (x.1, x.2.1)

theorem extendMany_eq {α : Type} (c : VCfg α) (s : VState α) (data : List α) (num : Int) :
    extendMany c s data num =
      (if num ≤ silentLeft c s then do
        let xs ← rd s.triples s.otUsed num
        let data ← wr data 0 xs
        some ({ s with otUsed := s.otUsed + num }, data)
      else do
        let d ← stockP c s data
        let x ← inplaceRounds c (Int.tdiv (num - silentLeft c s - c.M) c.limit).toNat (s, d.1, d.2)
        restP c (num - silentLeft c s - Int.tdiv (num - silentLeft c s - c.M) c.limit * c.limit) x) := by
  unfold extendMany
  by_cases h : num ≤ silentLeft c s
  · rw [if_pos h, if_pos h]
  · rw [if_neg h, if_neg h]
    unfold stockP
    simp only [Option.bind_eq_bind]
    congr 1
    funext d
    congr 1
    funext x
    unfold restP
    generalize num - silentLeft c s - Int.tdiv (num - silentLeft c s - c.M) c.limit * c.limit = last
    by_cases hl : last > c.limit
    · rw [if_pos hl]
      simp only [decide_eq_true hl, if_true, copyP, Option.bind_eq_bind, Option.bind_assoc, Option.bind_some]
    · rw [if_neg hl]
      simp only [decide_eq_false hl, Bool.false_eq_true, if_false, copyP, Option.bind_eq_bind, Option.bind_some]

section lock

variable {T L : Nat} {cs cr : VCfg U128} {nS nR : VNet T} {ps pr : List U128}

/-- The two parties' extensions are two protocols that complete together, with the batches of the model. -/
structure VLock (cs cr : VCfg U128) (L : Nat) (ps pr : List U128) (nS nR : VNet T) : Prop where
  okS : cs.Ok L
  okR : cr.Ok L
  lenS : ps.length = cs.M
  lenR : pr.length = cr.M
  n : cs.n = cr.n
  M : cs.M = cr.M
  sizeS : nS.n = cs.n ∧ nS.M = cs.M
  sizeR : nR.n = cr.n ∧ nR.M = cr.M
  gen : ∀ r, CoPar (nS.gen r (seedOf cs.gen L ps r)) (nR.gen r (seedOf cr.gen L pr r))
    (some (cs.gen r (seedOf cs.gen L ps r))) (some (cr.gen r (seedOf cr.gen L pr r)))

/-- The parties are at the same point. -/
structure SamePt (cs cr : VCfg U128) (L : Nat) (ps pr : List U128) (s s' : VState U128) : Prop where
  pre : s.pre = seedOf cs.gen L ps s.round
  pre' : s'.pre = seedOf cr.gen L pr s'.round
  round : s.round = s'.round
  used : s.otUsed = s'.otUsed

theorem VLock.limS (H : VLock cs cr L ps pr nS nR) : nS.limit = cs.limit := by
  unfold VNet.limit VCfg.limit; rw [H.sizeS.1, H.sizeS.2]
theorem VLock.limR (H : VLock cs cr L ps pr nS nR) : nR.limit = cr.limit := by
  unfold VNet.limit VCfg.limit; rw [H.sizeR.1, H.sizeR.2]
theorem VLock.lim (H : VLock cs cr L ps pr nS nR) : cr.limit = cs.limit := by
  unfold VCfg.limit; rw [H.n, H.M]

theorem coPar_extendBuf (H : VLock cs cr L ps pr nS nR) {s s' : VState U128} (hs : SamePt cs cr L ps pr s s') {data data' : List U128}
    {off : Int} {x x' : VState U128 × List U128} (h : extendBuf cs s data off = some x) (h' : extendBuf cr s' data' off = some x') :
    CoPar (extendBufN nS s data off) (extendBufN nR s' data' off) (some x) (some x') ∧ SamePt cs cr L ps pr x.1 x'.1 := by
  obtain ⟨a1, a2, a3⟩ := extendBuf_inv H.okS ps H.lenS hs.pre h
  obtain ⟨b1, b2, b3⟩ := extendBuf_inv H.okR pr H.lenR hs.pre' h'
  refine ⟨?_, ⟨a1, b1, by rw [a2, b2, hs.round], by rw [a3, b3, hs.used]⟩⟩
  unfold extendBufN
  refine CoPar.bindE (a := cs.gen s.round s.pre) (b := cr.gen s'.round s'.pre) ?_ ?_
  · rw [hs.pre, hs.pre', ← hs.round]
    exact H.gen s.round
  · refine CoPar.optSome ?_ ?_
    · rw [H.limS, H.sizeS.2]; exact h
    · rw [H.limR, H.sizeR.2]; exact h'

theorem SamePt.withUsed {s s' : VState U128} (hs : SamePt cs cr L ps pr s s') (u : Int) (t t' : List U128) :
    SamePt cs cr L ps pr { s with otUsed := u, triples := t } { s' with otUsed := u, triples := t' } := ⟨hs.pre, hs.pre', hs.round, rfl⟩

theorem coPar_inplace (H : VLock cs cr L ps pr nS nR) (r : Nat) : ∀ {s s' : VState U128}, SamePt cs cr L ps pr s s' →
    ∀ {data data' : List U128} {pt : Int} {x x' : VState U128 × List U128 × Int}, inplaceRounds cs r (s, data, pt) = some x →
    inplaceRounds cr r (s', data', pt) = some x' →
    CoPar (inplaceRoundsN nS r (s, data, pt)) (inplaceRoundsN nR r (s', data', pt)) (some x) (some x') ∧ SamePt cs cr L ps pr x.1 x'.1 ∧
      x.2.2 = x'.2.2 := by
  induction r with
  | zero =>
    intro s s' hs data data' pt x x' h h'
    cases h; cases h'
    exact ⟨CoPar.done _ _, hs, rfl⟩
  | succ r ih =>
    intro s s' hs data data' pt x x' h h'
    simp only [inplaceRounds, Option.bind_eq_bind, Option.bind_eq_some_iff] at h h'
    obtain ⟨y, hy, h⟩ := h
    obtain ⟨y', hy', h'⟩ := h'
    obtain ⟨k1, k2⟩ := coPar_extendBuf H hs hy hy'
    rw [H.lim] at h'
    obtain ⟨g1, g2⟩ := ih (k2.withUsed cs.limit y.1.triples y'.1.triples) h h'
    refine ⟨?_, g2⟩
    simp only [inplaceRoundsN]
    refine CoPar.bindE k1 ?_
    rw [H.limS, H.limR, H.lim]
    exact g1

theorem coPar_copy (H : VLock cs cr L ps pr nS nR) {s s' : VState U128} (hs : SamePt cs cr L ps pr s s') {data data' : List U128}
    {pt len : Int} {x x' : VState U128 × List U128} (h : copyP cs s data pt len = some x) (h' : copyP cr s' data' pt len = some x') :
    CoPar (extendCopyN nS s data pt len) (extendCopyN nR s' data' pt len) (some x) (some x') ∧ SamePt cs cr L ps pr x.1 x'.1 := by
  simp only [copyP, Option.bind_eq_bind, Option.bind_eq_some_iff, Option.some.injEq] at h h'
  obtain ⟨y, h, xs, h1, d, h2, rfl⟩ := h
  obtain ⟨y', h', xs', h1', d', h2', rfl⟩ := h'
  obtain ⟨k1, k2⟩ := coPar_extendBuf H hs h h'
  refine ⟨?_, k2.withUsed _ _ _⟩
  unfold extendCopyN
  refine CoPar.bindE k1 (CoPar.optSome ?_ ?_)
  · rw [h1]; simp only [Option.bind_eq_bind, Option.bind_some]; rw [h2]; rfl
  · rw [h1']; simp only [Option.bind_eq_bind, Option.bind_some]; rw [h2']; rfl

theorem coPar_rest (H : VLock cs cr L ps pr nS nR) (last : Int) {y y' : VState U128 × List U128 × Int} (hs : SamePt cs cr L ps pr y.1 y'.1)
    (hp : y.2.2 = y'.2.2) {x x' : VState U128 × List U128} (h : restP cs last y = some x) (h' : restP cr last y' = some x') :
    CoPar (extendRestN nS last y) (extendRestN nR last y') (some x) (some x') ∧ SamePt cs cr L ps pr x.1 x'.1 := by
  unfold restP at h h'
  unfold extendRestN
  rw [H.lim, ← hp] at h'
  rw [H.limS, H.limR, H.lim, ← hp]
  by_cases hl : last > cs.limit
  · rw [if_pos hl] at h h'
    rw [if_pos hl, if_pos hl]
    simp only [Option.bind_eq_bind, Option.bind_eq_some_iff] at h h'
    obtain ⟨z, hz, h⟩ := h
    obtain ⟨z', hz', h'⟩ := h'
    obtain ⟨k1, k2⟩ := coPar_copy H hs hz hz'
    by_cases h0 : 0 < last - cs.limit
    · rw [if_pos h0] at h h'
      obtain ⟨k3, k4⟩ := coPar_copy H k2 h h'
      refine ⟨CoPar.bindE k1 ?_, k4⟩
      rw [if_pos h0, if_pos h0]
      exact k3
    · rw [if_neg h0] at h h'
      cases h; cases h'
      refine ⟨CoPar.bindE k1 ?_, k2⟩
      rw [if_neg h0, if_neg h0]
      exact CoPar.done _ _
  · rw [if_neg hl] at h h'
    rw [if_neg hl, if_neg hl]
    by_cases h0 : 0 < last
    · rw [if_pos h0] at h h'
      rw [if_pos h0, if_pos h0]
      exact coPar_copy H hs h h'
    · rw [if_neg h0] at h h'
      rw [if_neg h0, if_neg h0]
      cases h; cases h'
      exact ⟨CoPar.done _ _, hs⟩

theorem coPar_stock {c : VCfg U128} {N : VNet T} (hl : N.limit = c.limit) (s : VState U128) (data : List U128) :
    deliverStock N s data = stockP c s data := by
  unfold deliverStock stockP silentLeft
  rw [hl]

/-- A request of any size. -/
theorem coPar_extendMany (H : VLock cs cr L ps pr nS nR) {s s' : VState U128} (hs : SamePt cs cr L ps pr s s') {data data' : List U128}
    {num : Int} {x x' : VState U128 × List U128} (h : extendMany cs s data num = some x) (h' : extendMany cr s' data' num = some x') :
    CoPar (extendManyN nS s data num) (extendManyN nR s' data' num) (some x) (some x') ∧ SamePt cs cr L ps pr x.1 x'.1 := by
  rw [extendMany_eq] at h h'
  have e' : silentLeft cr s' = silentLeft cs s := by unfold silentLeft; rw [H.lim, hs.used]
  have el : nS.limit - s.otUsed = silentLeft cs s := by unfold silentLeft; rw [H.limS]
  have el' : nR.limit - s'.otUsed = silentLeft cs s := by rw [← e']; unfold silentLeft; rw [H.limR]
  rw [e', H.lim, ← H.M] at h'
  unfold extendManyN
  rw [el, el']
  by_cases hc : num ≤ silentLeft cs s
  · rw [if_pos hc] at h h'
    rw [if_pos hc, if_pos hc]
    refine ⟨CoPar.optSome h h', ?_⟩
    simp only [Option.bind_eq_bind, Option.bind_eq_some_iff, Option.some.injEq] at h h'
    obtain ⟨_, _, _, _, rfl⟩ := h
    obtain ⟨_, _, _, _, rfl⟩ := h'
    exact ⟨hs.pre, hs.pre', hs.round, congrArg (· + num) hs.used⟩
  · rw [if_neg hc] at h h'
    rw [if_neg hc, if_neg hc, coPar_stock H.limS, coPar_stock H.limR]
    simp only [Option.bind_eq_bind, Option.bind_eq_some_iff] at h h'
    obtain ⟨d, hd, y, hy, h⟩ := h
    obtain ⟨d', hd', y', hy', h'⟩ := h'
    have hdd : d.2 = d'.2 := by
      unfold stockP at hd hd'
      rw [e'] at hd'
      by_cases h0 : 0 < silentLeft cs s
      · rw [if_pos h0] at hd hd'
        simp only [Option.bind_eq_bind, Option.bind_eq_some_iff, Option.some.injEq] at hd hd'
        obtain ⟨_, _, _, _, rfl⟩ := hd
        obtain ⟨_, _, _, _, rfl⟩ := hd'
        rfl
      · rw [if_neg h0] at hd hd'
        cases hd; cases hd'; rfl
    rw [← hdd] at hy'
    obtain ⟨k1, k2, k3⟩ := coPar_inplace H _ hs hy hy'
    obtain ⟨k4, k5⟩ := coPar_rest H _ k2 k3 h h'
    refine ⟨?_, k5⟩
    refine CoPar.bind (CoPar.opt hd hd') ?_
    simp only [H.limS, H.limR, H.lim, H.sizeS.2, H.sizeR.2, ← H.M]
    rw [← hdd]
    exact CoPar.bindE k1 k4

/-- `extend(&x, 1)`: the two parties obtain the elements of their streams at the same place. -/
def VSync (cs cr : VCfg U128) (L : Nat) (ps pr : List U128) (i : Nat) (s s' : VState U128) : Prop :=
  ∃ u, Inv cs L ps s u ∧ Inv cr L pr s' u ∧ s.round = s'.round ∧ s.round * L + u = L + i

theorem VSync.start (H : VLock cs cr L ps pr nS nR) (ts tr : List U128) (hts : ts.length = cs.n) (htr : tr.length = cr.n) :
    VSync cs cr L ps pr 0 (afterSetup cs ps ts) (afterSetup cr pr tr) := by
  refine ⟨L, ⟨rfl, H.okS.limit, Nat.le_refl _, hts, fun h => absurd h (Nat.lt_irrefl _)⟩,
    ⟨rfl, H.okR.limit, Nat.le_refl _, htr, fun h => absurd h (Nat.lt_irrefl _)⟩, rfl, ?_⟩
  simp [afterSetup]

theorem coPar_one (H : VLock cs cr L ps pr nS nR) (j j' : U128) {i : Nat} {s s' : VState U128} (hs : VSync cs cr L ps pr i s s') :
    ∃ k m t t', streamAt cs.gen L ps i = some k ∧ streamAt cr.gen L pr i = some m ∧ VSync cs cr L ps pr (i + 1) t t' ∧
      CoPar (oneCorN nS j s) (oneCorN nR j' s') (some (k, t)) (some (m, t')) := by
  obtain ⟨u, h1, h2, h3, h4⟩ := hs
  obtain ⟨t, u1, d, a1, a2, a3, a4, a5⟩ := extendMany_ok H.okS ps H.lenS s u h1 [j]
  obtain ⟨t', u2, d', b1, b2, b3, b4, b5⟩ := extendMany_ok H.okR pr H.lenR s' u h2 [j']
  have hs0 : SamePt cs cr L ps pr s s' := ⟨h1.pre, h2.pre, h3, by rw [h1.used, h2.used]⟩
  obtain ⟨c1, c2⟩ := coPar_extendMany H hs0 a1 b1
  have hu : u1 = u2 := by
    have := c2.used
    rw [a2.used, b2.used] at this
    exact_mod_cast this
  subst hu
  have e0 := a5 0 (by simp)
  have e0' := b5 0 (by simp)
  rw [Nat.add_zero, h4, Nat.add_sub_cancel_left] at e0
  rw [Nat.add_zero, ← h3, h4, Nat.add_sub_cancel_left] at e0'
  have hk : d[0]? = some (d[0]'(by rw [a3]; simp)) := List.getElem?_eq_getElem _
  have hm : d'[0]? = some (d'[0]'(by rw [b3]; simp)) := List.getElem?_eq_getElem _
  refine ⟨_, _, t, t', e0.symm.trans hk, e0'.symm.trans hm, ⟨u1, a2, b2, c2.round, ?_⟩, ?_⟩
  · rw [a4, h4]; rfl
  · unfold oneCorN
    refine CoPar.bindE c1 ?_
    simp only [hk, hm]
    exact CoPar.done _ _

end lock

end EmpZk
