import Verif.Model.LowMC
import Mathlib.Data.List.Forall2
import Mathlib.Tactic.Ring
/-!
Two executions of the LowMC functions over different types of bits run in parallel.
-/
namespace EmpZk

/-- Worlds relating two states and two types of bits. -/
structure RSem (σ₁ σ₂ T₁ T₂ W : Type) where
  inv : W → σ₁ → σ₂ → Prop
  le : W → W → Prop
  val : W → T₁ → T₂ → Prop
  refl : ∀ w, le w w
  trans : ∀ a b c, le a b → le b c → le a c
  mono : ∀ w w' x y, le w w' → val w x y → val w' x y

section
variable {σ₁ σ₂ T₁ T₂ W : Type} (S : RSem σ₁ σ₂ T₁ T₂ W)

/-- If the first computation is defined, so is the second, and their results are related. -/
def Rl {α β : Type} (w : W) (R : W → α → β → Prop) (p₁ : StateT σ₁ Option α) (p₂ : StateT σ₂ Option β) : Prop :=
  ∀ s₁ s₂, S.inv w s₁ s₂ → ∀ a s₁', p₁ s₁ = some (a, s₁') →
    ∃ b s₂' w', p₂ s₂ = some (b, s₂') ∧ S.inv w' s₁' s₂' ∧ S.le w w' ∧ R w' a b

/-- Related arrays. -/
def RSem.Vec (w : W) (as : List T₁) (bs : List T₂) : Prop := List.Forall₂ (S.val w) as bs

variable {S}

theorem RSem.Vec.mono {w w' : W} {as : List T₁} {bs : List T₂} (h : S.Vec w as bs) (hl : S.le w w') : S.Vec w' as bs :=
  List.Forall₂.imp (fun _ _ hv => S.mono _ _ _ _ hl hv) h

theorem Rl.pure {α β : Type} {w : W} {R : W → α → β → Prop} {a : α} {b : β} (h : R w a b) :
    Rl S w R (pure a) (pure b) := by
  intro s₁ s₂ hi a' s₁' ha
  have : a = a' ∧ s₁ = s₁' := by
    have h1 : some (a, s₁) = some (a', s₁') := ha
    simpa using h1
  obtain ⟨rfl, rfl⟩ := this
  exact ⟨b, s₂, w, rfl, hi, S.refl w, h⟩

theorem Rl.bind {α β α' β' : Type} {w : W} {R : W → α → β → Prop} {R' : W → α' → β' → Prop} {p₁ : StateT σ₁ Option α}
    {p₂ : StateT σ₂ Option β} {f₁ : α → StateT σ₁ Option α'} {f₂ : β → StateT σ₂ Option β'} (h : Rl S w R p₁ p₂)
    (hf : ∀ w' a b, S.le w w' → R w' a b → Rl S w' R' (f₁ a) (f₂ b)) : Rl S w R' (p₁ >>= f₁) (p₂ >>= f₂) := by
  intro s₁ s₂ hi a s₁' ha
  have h1 : (p₁ s₁).bind (fun q => f₁ q.1 q.2) = some (a, s₁') := ha
  rw [Option.bind_eq_some_iff] at h1
  obtain ⟨⟨x, t₁⟩, hx, h1⟩ := h1
  obtain ⟨y, t₂, w', k1, k2, k3, k4⟩ := h s₁ s₂ hi x t₁ hx
  obtain ⟨b, s₂', w'', m1, m2, m3, m4⟩ := hf w' x y k3 k4 t₁ t₂ k2 a s₁' h1
  refine ⟨b, s₂', w'', ?_, m2, S.trans _ _ _ k3 m3, m4⟩
  show (p₂ s₂).bind (fun q => f₂ q.1 q.2) = _
  rw [k1]
  exact m1

theorem Rl.imp {α β : Type} {w : W} {R R' : W → α → β → Prop} {p₁ : StateT σ₁ Option α} {p₂ : StateT σ₂ Option β}
    (h : Rl S w R p₁ p₂) (hR : ∀ w' a b, S.le w w' → R w' a b → R' w' a b) : Rl S w R' p₁ p₂ := by
  intro s₁ s₂ hi a s₁' ha
  obtain ⟨b, s₂', w', k1, k2, k3, k4⟩ := h s₁ s₂ hi a s₁' ha
  exact ⟨b, s₂', w', k1, k2, k3, hR _ _ _ k3 k4⟩

theorem Rl.arr {w : W} {as : List T₁} {bs : List T₂} (h : S.Vec w as bs) (i : Nat) :
    Rl S w S.val (arr as i) (arr bs i) := by
  intro s₁ s₂ hi a s₁' ha
  simp only [EmpZk.arr, Option.map_eq_some_iff, Prod.mk.injEq] at ha
  obtain ⟨x, hx, rfl, rfl⟩ := ha
  obtain ⟨hlt, hx'⟩ := List.getElem?_eq_some_iff.1 hx
  have hlt' : i < bs.length := by rw [← h.length_eq]; exact hlt
  refine ⟨bs[i], s₂, w, ?_, hi, S.refl w, ?_⟩
  · simp [EmpZk.arr, List.getElem?_eq_getElem hlt']
  · rw [← hx']
    exact List.forall₂_iff_get.1 h |>.2 i hlt hlt'

/-- The same array of public bits. -/
theorem Rl.arrEq {T : Type} {w : W} (l : List T) (i : Nat) :
    Rl S w (fun _ a b => a = b) (EmpZk.arr l i) (EmpZk.arr l i) := by
  intro s₁ s₂ hi a s₁' ha
  simp only [EmpZk.arr, Option.map_eq_some_iff, Prod.mk.injEq] at ha
  obtain ⟨x, hx, rfl, rfl⟩ := ha
  exact ⟨x, s₂, w, by simp [EmpZk.arr, hx], hi, S.refl w, rfl⟩

theorem Rl.mapM {α β : Type} {R : W → α → β → Prop} (hR : ∀ w w' a b, S.le w w' → R w a b → R w' a b)
    {f₁ : Nat → StateT σ₁ Option α} {f₂ : Nat → StateT σ₂ Option β} :
    ∀ (l : List Nat) (w : W), (∀ w' i, S.le w w' → i ∈ l → Rl S w' R (f₁ i) (f₂ i)) →
      Rl S w (fun w' as bs => List.Forall₂ (R w') as bs) (l.mapM f₁) (l.mapM f₂)
  | [], w, _ => by
    rw [List.mapM_nil, List.mapM_nil]
    exact Rl.pure List.Forall₂.nil
  | i :: l, w, h => by
    rw [List.mapM_cons, List.mapM_cons]
    refine Rl.bind (h w i (S.refl w) (by simp)) ?_
    intro w1 a b hl1 hab
    refine Rl.bind (Rl.mapM hR l w1 (fun w' j hl' hj => h w' j (S.trans _ _ _ hl1 hl') (by simp [hj]))) ?_
    intro w2 as bs hl2 hh
    exact Rl.pure (List.Forall₂.cons (hR _ _ _ _ hl2 hab) hh)

theorem Rl.foldlM {α β : Type} {R : W → α → β → Prop} {f₁ : α → Nat → StateT σ₁ Option α}
    {f₂ : β → Nat → StateT σ₂ Option β} :
    ∀ (l : List Nat) (w : W) (a : α) (b : β), R w a b →
      (∀ w' i a b, S.le w w' → i ∈ l → R w' a b → Rl S w' R (f₁ a i) (f₂ b i)) →
      Rl S w R (l.foldlM f₁ a) (l.foldlM f₂ b)
  | [], w, a, b, hab, _ => by
    rw [List.foldlM_nil, List.foldlM_nil]
    exact Rl.pure hab
  | i :: l, w, a, b, hab, h => by
    rw [List.foldlM_cons, List.foldlM_cons]
    refine Rl.bind (h w i a b (S.refl w) (by simp) hab) ?_
    intro w1 a' b' hl1 hab'
    exact Rl.foldlM l w1 a' b' hab' (fun w' j a b hl' hj => h w' j a b (S.trans _ _ _ hl1 hl') (by simp [hj]))

/-- Operations that preserve the relation. -/
structure OpsRel (S : RSem σ₁ σ₂ T₁ T₂ W) (o₁ : BitOps σ₁ T₁) (o₂ : BitOps σ₂ T₂) (w₀ : W) : Prop where
  xor : ∀ w a b x y, S.le w₀ w → S.val w a x → S.val w b y → Rl S w S.val (o₁.xor a b) (o₂.xor x y)
  and : ∀ w a b x y, S.le w₀ w → S.val w a x → S.val w b y → Rl S w S.val (o₁.and a b) (o₂.and x y)
  sel : ∀ w m a x, S.le w₀ w → S.val w a x → S.val w (o₁.sel m a) (o₂.sel m x)

variable {o₁ : BitOps σ₁ T₁} {o₂ : BitOps σ₂ T₂} {w₀ : W}

theorem lmXor_rel (ho : OpsRel S o₁ o₂ w₀) {w : W} (hw : S.le w₀ w) {a b : List T₁} {a' b' : List T₂} (ha : S.Vec w a a')
    (hb : S.Vec w b b') (oa ob len : Nat) : Rl S w S.Vec (lmXor o₁ a oa b ob len) (lmXor o₂ a' oa b' ob len) := by
  refine Rl.mapM (R := S.val) (fun _ _ _ _ hl hv => S.mono _ _ _ _ hl hv) _ w ?_
  intro w1 i hl1 _
  refine Rl.bind (Rl.arr (ha.mono hl1) _) ?_
  intro w2 x x' hl2 hx
  refine Rl.bind (Rl.arr ((hb.mono hl1).mono hl2) _) ?_
  intro w3 y y' hl3 hy
  exact ho.xor _ _ _ _ _ (S.trans _ _ _ (S.trans _ _ _ (S.trans _ _ _ hw hl1) hl2) hl3) (S.mono _ _ _ _ hl3 hx) hy

theorem lmBox_rel (ho : OpsRel S o₁ o₂ w₀) {w : W} (hw : S.le w₀ w) {a : List T₁} {a' : List T₂} (ha : S.Vec w a a') (i : Nat) :
    Rl S w S.Vec (lmBox o₁ a i) (lmBox o₂ a' i) := by
  unfold lmBox
  refine Rl.bind (Rl.arr ha _) ?_
  intro w1 x0 y0 l1 v0
  refine Rl.bind (Rl.arr (ha.mono l1) _) ?_
  intro w2 x1 y1 l2 v1
  refine Rl.bind (Rl.arr ((ha.mono l1).mono l2) _) ?_
  intro w3 x2 y2 l3 v2
  have hw3 := S.trans _ _ _ (S.trans _ _ _ (S.trans _ _ _ hw l1) l2) l3
  replace v1 := S.mono _ _ _ _ l3 v1
  replace v0 := S.mono _ _ _ _ l3 (S.mono _ _ _ _ l2 v0)
  clear ha l1 l2 l3
  refine Rl.bind (ho.and _ _ _ _ _ hw3 v1 v2) ?_
  intro w4 t t' l4 vt
  have hw4 := S.trans _ _ _ hw3 l4
  replace v0 := S.mono _ _ _ _ l4 v0
  replace v1 := S.mono _ _ _ _ l4 v1
  replace v2 := S.mono _ _ _ _ l4 v2
  refine Rl.bind (ho.xor _ _ _ _ _ hw4 v0 vt) ?_
  intro w5 a1 b1 l5 va
  have hw5 := S.trans _ _ _ hw4 l5
  replace v0 := S.mono _ _ _ _ l5 v0
  replace v1 := S.mono _ _ _ _ l5 v1
  replace v2 := S.mono _ _ _ _ l5 v2
  refine Rl.bind (ho.and _ _ _ _ _ hw5 v0 v2) ?_
  intro w6 t t' l6 vt
  have hw6 := S.trans _ _ _ hw5 l6
  replace v0 := S.mono _ _ _ _ l6 v0
  replace v1 := S.mono _ _ _ _ l6 v1
  replace v2 := S.mono _ _ _ _ l6 v2
  replace va := S.mono _ _ _ _ l6 va
  refine Rl.bind (ho.xor _ _ _ _ _ hw6 v1 vt) ?_
  intro w7 u u' l7 vu
  have hw7 := S.trans _ _ _ hw6 l7
  replace v0 := S.mono _ _ _ _ l7 v0
  replace v1 := S.mono _ _ _ _ l7 v1
  replace v2 := S.mono _ _ _ _ l7 v2
  replace va := S.mono _ _ _ _ l7 va
  refine Rl.bind (ho.xor _ _ _ _ _ hw7 v0 vu) ?_
  intro w8 b b' l8 vb
  have hw8 := S.trans _ _ _ hw7 l8
  replace v0 := S.mono _ _ _ _ l8 v0
  replace v1 := S.mono _ _ _ _ l8 v1
  replace v2 := S.mono _ _ _ _ l8 v2
  replace va := S.mono _ _ _ _ l8 va
  refine Rl.bind (ho.and _ _ _ _ _ hw8 v0 v1) ?_
  intro w9 t t' l9 vt
  have hw9 := S.trans _ _ _ hw8 l9
  replace v0 := S.mono _ _ _ _ l9 v0
  replace v1 := S.mono _ _ _ _ l9 v1
  replace v2 := S.mono _ _ _ _ l9 v2
  replace va := S.mono _ _ _ _ l9 va
  replace vb := S.mono _ _ _ _ l9 vb
  refine Rl.bind (ho.xor _ _ _ _ _ hw9 v2 vt) ?_
  intro w10 u u' l10 vu
  have hw10 := S.trans _ _ _ hw9 l10
  replace v0 := S.mono _ _ _ _ l10 v0
  replace v1 := S.mono _ _ _ _ l10 v1
  replace va := S.mono _ _ _ _ l10 va
  replace vb := S.mono _ _ _ _ l10 vb
  refine Rl.bind (ho.xor _ _ _ _ _ hw10 v1 vu) ?_
  intro w11 v v' l11 vv
  have hw11 := S.trans _ _ _ hw10 l11
  replace v0 := S.mono _ _ _ _ l11 v0
  replace va := S.mono _ _ _ _ l11 va
  replace vb := S.mono _ _ _ _ l11 vb
  refine Rl.bind (ho.xor _ _ _ _ _ hw11 v0 vv) ?_
  intro w12 c c' l12 vc
  exact Rl.pure (List.Forall₂.cons (S.mono _ _ _ _ l12 va) (List.Forall₂.cons (S.mono _ _ _ _ l12 vb)
    (List.Forall₂.cons vc List.Forall₂.nil)))

theorem Vec_flatten {w : W} {as : List (List T₁)} {bs : List (List T₂)} (h : List.Forall₂ (S.Vec w) as bs) :
    S.Vec w as.flatten bs.flatten := by
  induction h with
  | nil => exact List.Forall₂.nil
  | cons h1 _ ih =>
    rw [List.flatten_cons, List.flatten_cons]
    exact List.rel_append h1 ih

theorem lmSubst_rel (ho : OpsRel S o₁ o₂ w₀) {w : W} (hw : S.le w₀ w) {a : List T₁} {a' : List T₂} (ha : S.Vec w a a')
    (c : LmCfg) : Rl S w S.Vec (lmSubst c o₁ a) (lmSubst c o₂ a') := by
  unfold lmSubst
  refine Rl.bind (Rl.mapM (R := S.Vec) (fun _ _ _ _ hl hv => RSem.Vec.mono hv hl) _ w
    (fun w1 i hl1 _ => lmBox_rel ho (S.trans _ _ _ hw hl1) (ha.mono hl1) i)) ?_
  intro w1 bs bs' l1 hbs
  refine Rl.bind (Rl.mapM (R := S.val) (fun _ _ _ _ hl hv => S.mono _ _ _ _ hl hv) _ w1
    (fun w2 i hl2 _ => Rl.arr ((ha.mono l1).mono hl2) _)) ?_
  intro w2 r r' l2 hr
  exact Rl.pure (List.rel_append (RSem.Vec.mono (Vec_flatten hbs) l2) hr)

theorem lmMulRow_rel (ho : OpsRel S o₁ o₂ w₀) {w : W} (hw : S.le w₀ w) {a b : List T₁} {a' b' : List T₂} (ha : S.Vec w a a')
    (hb : S.Vec w b b') (c : LmCfg) (mat : List Bool) (off i : Nat) :
    Rl S w S.Vec (lmMulRow c o₁ mat off a b i) (lmMulRow c o₂ mat off a' b' i) := by
  unfold lmMulRow
  refine Rl.bind (Rl.arr ha _) ?_
  intro w1 x x' l1 hx
  refine Rl.mapM (R := S.val) (fun _ _ _ _ hl hv => S.mono _ _ _ _ hl hv) _ w1 ?_
  intro w2 j l2 _
  refine Rl.bind (Rl.arr ((hb.mono l1).mono l2) _) ?_
  intro w3 y y' l3 hy
  refine Rl.bind (Rl.arrEq mat _) ?_
  intro w4 m m' l4 hm
  subst hm
  have hw4 := S.trans _ _ _ (S.trans _ _ _ (S.trans _ _ _ (S.trans _ _ _ hw l1) l2) l3) l4
  exact ho.xor _ _ _ _ _ hw4 (S.mono _ _ _ _ l4 hy)
    (ho.sel _ _ _ _ hw4 (S.mono _ _ _ _ (S.trans _ _ _ l2 (S.trans _ _ _ l3 l4)) hx))

theorem lmMul_rel (ho : OpsRel S o₁ o₂ w₀) {w : W} (hw : S.le w₀ w) {a : List T₁} {a' : List T₂} (ha : S.Vec w a a')
    (c : LmCfg) (mat : List Bool) (off : Nat) : Rl S w S.Vec (lmMul c o₁ mat off a) (lmMul c o₂ mat off a') := by
  unfold lmMul
  refine Rl.bind (Rl.arr ha _) ?_
  intro w1 x x' l1 hx
  refine Rl.bind (Rl.mapM (R := S.val) (fun _ _ _ _ hl hv => S.mono _ _ _ _ hl hv) _ w1 (?_ : ∀ w' i, S.le w1 w' → _ → _)) ?_
  · intro w2 j l2 _
    refine Rl.bind (Rl.arrEq mat _) ?_
    intro w3 m m' l3 hm
    subst hm
    exact Rl.pure (ho.sel _ _ _ _ (S.trans _ _ _ (S.trans _ _ _ (S.trans _ _ _ hw l1) l2) l3)
      (S.mono _ _ _ _ (S.trans _ _ _ l2 l3) hx))
  · intro w2 b b' l2 hb
    refine Rl.foldlM (R := S.Vec) _ w2 _ _ hb ?_
    intro w3 i u u' l3 _ hu
    exact lmMulRow_rel ho (S.trans _ _ _ (S.trans _ _ _ (S.trans _ _ _ hw l1) l2) l3)
      (ha.mono (S.trans _ _ _ l1 (S.trans _ _ _ l2 l3))) hu c mat off i

theorem lmMulKey_rel (ho : OpsRel S o₁ o₂ w₀) {w : W} (hw : S.le w₀ w) {a : List T₁} {a' : List T₂} (ha : S.Vec w a a')
    (c : LmCfg) (mat : List Bool) (off : Nat) : Rl S w S.Vec (lmMulKey c o₁ mat off a) (lmMulKey c o₂ mat off a') := by
  unfold lmMulKey
  refine Rl.mapM (R := S.val) (fun _ _ _ _ hl hv => S.mono _ _ _ _ hl hv) _ w ?_
  intro w1 i l1 _
  refine Rl.bind (Rl.arrEq mat _) ?_
  intro w2 m m' l2 hm
  subst hm
  refine Rl.bind (Rl.arr (ha.mono (S.trans _ _ _ l1 l2)) _) ?_
  intro w3 x x' l3 hx
  have hw3 := S.trans _ _ _ (S.trans _ _ _ (S.trans _ _ _ hw l1) l2) l3
  refine Rl.foldlM (R := S.val) _ w3 _ _ (ho.sel _ _ _ _ hw3 hx) ?_
  intro w4 j u u' l4 _ hu
  refine Rl.bind (Rl.arrEq mat _) ?_
  intro w5 m2 m2' l5 hm
  subst hm
  refine Rl.bind (Rl.arr (ha.mono (S.trans _ _ _ l1 (S.trans _ _ _ l2 (S.trans _ _ _ l3 (S.trans _ _ _ l4 l5))))) _) ?_
  intro w6 y y' l6 hy
  have hw6 := S.trans _ _ _ (S.trans _ _ _ (S.trans _ _ _ hw3 l4) l5) l6
  exact ho.xor _ _ _ _ _ hw6 (S.mono _ _ _ _ (S.trans _ _ _ l5 l6) hu) (ho.sel _ _ _ _ hw6 hy)

theorem lmKeys_rel (ho : OpsRel S o₁ o₂ w₀) {w : W} (hw : S.le w₀ w) {a : List T₁} {a' : List T₂} (ha : S.Vec w a a')
    (c : LmCfg) (km : List Bool) : Rl S w S.Vec (lmKeys c o₁ km a) (lmKeys c o₂ km a') := by
  unfold lmKeys
  refine Rl.bind (Rl.mapM (R := S.Vec) (fun _ _ _ _ hl hv => RSem.Vec.mono hv hl) _ w
    (fun w1 i hl1 _ => lmMulKey_rel ho (S.trans _ _ _ hw hl1) (ha.mono hl1) c km _)) ?_
  intro w1 bs bs' l1 hbs
  exact Rl.pure (Vec_flatten hbs)

theorem lmRound_rel (ho : OpsRel S o₁ o₂ w₀) {w : W} (hw : S.le w₀ w) {rc rk a : List T₁} {rc' rk' a' : List T₂}
    (hrc : S.Vec w rc rc') (hrk : S.Vec w rk rk') (ha : S.Vec w a a') (c : LmCfg) (lin : List Bool) (r : Nat) :
    Rl S w S.Vec (lmRound c o₁ lin rc rk a r) (lmRound c o₂ lin rc' rk' a' r) := by
  unfold lmRound
  refine Rl.bind (lmSubst_rel ho hw ha c) ?_
  intro w1 a1 b1 l1 h1
  have hw1 := S.trans _ _ _ hw l1
  refine Rl.bind (lmMul_rel ho hw1 h1 c lin _) ?_
  intro w2 a2 b2 l2 h2
  have hw2 := S.trans _ _ _ hw1 l2
  refine Rl.bind (lmXor_rel ho hw2 h2 (hrc.mono (S.trans _ _ _ l1 l2)) _ _ _) ?_
  intro w3 a3 b3 l3 h3
  exact lmXor_rel ho (S.trans _ _ _ hw2 l3) h3 (hrk.mono (S.trans _ _ _ l1 (S.trans _ _ _ l2 l3))) _ _ _

theorem lmEncBlock_rel (ho : OpsRel S o₁ o₂ w₀) {w : W} (hw : S.le w₀ w) {rc rk a : List T₁} {rc' rk' a' : List T₂}
    (hrc : S.Vec w rc rc') (hrk : S.Vec w rk rk') (ha : S.Vec w a a') (c : LmCfg) (lin : List Bool) (off : Nat) :
    Rl S w S.Vec (lmEncBlock c o₁ lin rc rk a off) (lmEncBlock c o₂ lin rc' rk' a' off) := by
  unfold lmEncBlock
  refine Rl.bind (lmXor_rel ho hw ha hrk _ _ _) ?_
  intro w1 a1 b1 l1 h1
  refine Rl.foldlM (R := S.Vec) _ w1 _ _ h1 ?_
  intro w2 i u u' l2 _ hu
  have l12 := S.trans _ _ _ l1 l2
  exact lmRound_rel ho (S.trans _ _ _ hw l12) (hrc.mono l12) (hrk.mono l12) hu c lin i

theorem lmEnc_rel (ho : OpsRel S o₁ o₂ w₀) {w : W} (hw : S.le w₀ w) {rc rk a : List T₁} {rc' rk' a' : List T₂}
    (hrc : S.Vec w rc rc') (hrk : S.Vec w rk rk') (ha : S.Vec w a a') (c : LmCfg) (lin : List Bool) (nb : Nat) :
    Rl S w S.Vec (lmEnc c o₁ lin rc rk a nb) (lmEnc c o₂ lin rc' rk' a' nb) := by
  unfold lmEnc
  refine Rl.bind (Rl.mapM (R := S.Vec) (fun _ _ _ _ hl hv => RSem.Vec.mono hv hl) _ w
    (fun w1 i hl1 _ => lmEncBlock_rel ho (S.trans _ _ _ hw hl1) (hrc.mono hl1) (hrk.mono hl1) (ha.mono hl1) c lin _)) ?_
  intro w1 bs bs' l1 hbs
  exact Rl.pure (Vec_flatten hbs)

end

end EmpZk
