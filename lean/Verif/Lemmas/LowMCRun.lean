import Verif.Lemmas.LowMC
import Verif.Spec.LowMC
import Mathlib.Data.List.Induction
/-!
The program built by the `Bit` functions computes what the `bool` functions compute; its instructions do not depend on private
values; the `bool` functions compute the specification.
-/
namespace EmpZk

theorem plainRun_snoc (ops : List BOp) (o : BOp) : plainRun (ops ++ [o]) = (plainRun ops).bind (fun p => plainStep p o) := by
  unfold plainRun
  rw [List.foldlM_append]
  cases List.foldlM plainStep ⟨[], [], []⟩ ops with
  | none => rfl
  | some p =>
    simp only [List.foldlM_cons, List.foldlM_nil, Option.bind_eq_bind, Option.bind_some]
    cases plainStep p o <;> rfl

/-- Values on `bool` against values carried by wires. -/
def semP : RSem Unit Gen Bool Nat Plain where
  inv w _ g := plainRun g.ops = some w ∧ w.wires.length = g.n
  le w w' := w.wires <+: w'.wires ∧ w'.outs = w.outs ∧ w'.claims = w.claims
  val w b i := w.wires[i]? = some b
  refl w := ⟨List.prefix_refl _, rfl, rfl⟩
  trans a b c h1 h2 := ⟨h1.1.trans h2.1, h2.2.1.trans h1.2.1, h2.2.2.trans h1.2.2⟩
  mono w w' x y hl hv := by
    obtain ⟨t, ht⟩ := hl.1
    rw [← ht]
    obtain ⟨hlt, _⟩ := List.getElem?_eq_some_iff.1 hv
    rw [List.getElem?_append_left hlt]
    exact hv

theorem emit_rel {w : Plain} {o : BOp} {x : Bool} (h : plainStep w o = some { w with wires := w.wires ++ [x] }) :
    Rl semP w semP.val (pure x) (genEmit o) := by
  intro s₁ g hi a s₁' ha
  have : x = a := by
    have h1 : some (x, s₁) = some (a, s₁') := ha
    simp only [Option.some.injEq, Prod.mk.injEq] at h1
    exact h1.1
  subst this
  refine ⟨g.n, ⟨g.n + 1, g.ops ++ [o]⟩, { w with wires := w.wires ++ [x] }, rfl, ⟨?_, ?_⟩, ⟨List.prefix_append _ _, rfl, rfl⟩, ?_⟩
  · show plainRun (g.ops ++ [o]) = _
    rw [plainRun_snoc, hi.1, Option.bind_some, h]
  · simp [hi.2]
  · show (w.wires ++ [x])[g.n]? = some x
    rw [← hi.2]
    simp

theorem opsRelP {w₀ : Plain} {z : Nat} (hz : w₀.wires[z]? = some false) : OpsRel semP boolOps (wireOps z) w₀ where
  xor w a b x y _ ha hb := by
    refine emit_rel (x := a ^^ b) ?_
    have ha' : w.wires[x]? = some a := ha
    have hb' : w.wires[y]? = some b := hb
    simp [plainStep, ha', hb']
  and w a b x y _ ha hb := by
    refine emit_rel (x := a && b) ?_
    have ha' : w.wires[x]? = some a := ha
    have hb' : w.wires[y]? = some b := hb
    simp [plainStep, ha', hb']
  sel w m a x hl ha := by
    cases m with
    | true => simpa [boolOps, wireOps] using ha
    | false =>
      simp only [boolOps, wireOps, Bool.false_and, Bool.false_eq_true, if_false]
      exact semP.mono _ _ _ _ hl hz

/-- Two runs of the `Bit` functions on programs of the same number of wires append the same instructions; no private input. -/
def semG (b₁ b₂ : List BOp) : RSem Gen Gen Nat Nat (List BOp) where
  inv w g₁ g₂ := g₁.n = g₂.n ∧ g₁.ops = b₁ ++ w ∧ g₂.ops = b₂ ++ w ∧ ∀ b, BOp.input b ∉ w
  le _ _ := True
  val _ i j := i = j
  refl _ := trivial
  trans _ _ _ _ _ := trivial
  mono _ _ _ _ _ h := h

theorem emit_relG {b₁ b₂ w : List BOp} {o : BOp} (ho : ∀ b, o ≠ .input b) :
    Rl (semG b₁ b₂) w (semG b₁ b₂).val (genEmit o) (genEmit o) := by
  intro g₁ g₂ hi a s₁' ha
  simp only [genEmit, Option.some.injEq, Prod.mk.injEq] at ha
  obtain ⟨rfl, rfl⟩ := ha
  obtain ⟨h1, h2, h3, h4⟩ := hi
  refine ⟨g₂.n, ⟨g₂.n + 1, g₂.ops ++ [o]⟩, w ++ [o], rfl, ⟨?_, ?_, ?_, ?_⟩, trivial, h1⟩
  · simp [h1]
  · simp [h2]
  · simp [h3]
  · intro b hb
    rcases List.mem_append.1 hb with hb | hb
    · exact h4 b hb
    · exact ho b (List.mem_singleton.1 hb).symm

theorem opsRelG (b₁ b₂ : List BOp) (z : Nat) (w₀ : List BOp) :
    OpsRel (semG b₁ b₂) (wireOps z) (wireOps z) w₀ where
  xor w a b x y _ ha hb := by
    have ha' : a = x := ha
    have hb' : b = y := hb
    subst ha' hb'
    exact emit_relG (by simp)
  and w a b x y _ ha hb := by
    have ha' : a = x := ha
    have hb' : b = y := hb
    subst ha' hb'
    exact emit_relG (by simp)
  sel w m a x _ ha := by
    have ha' : a = x := ha
    subst ha'
    rfl

/-! ### the `bool` functions -/

/-- A computation without effects that succeeds with the given result. -/
def Rets {α : Type} (p : StateT Unit Option α) (a : α) : Prop := p () = some (a, ())

theorem Rets.pure {α : Type} (a : α) : Rets (Pure.pure a) a := rfl

theorem Rets.bind {α β : Type} {p : StateT Unit Option α} {a : α} {f : α → StateT Unit Option β} {b : β} (h : Rets p a)
    (hf : Rets (f a) b) : Rets (p >>= f) b := by
  show (p ()).bind (fun q => f q.1 q.2) = _
  rw [show p () = some (a, ()) from h]
  exact hf

theorem Rets.arr {T : Type} {l : List T} {i : Nat} {x : T} (h : l[i]? = some x) : Rets (EmpZk.arr l i) x := by
  simp [Rets, EmpZk.arr, h]

theorem Rets.mapM {α : Type} {f : Nat → StateT Unit Option α} {v : Nat → α} : ∀ (l : List Nat), (∀ i ∈ l, Rets (f i) (v i)) →
    Rets (l.mapM f) (l.map v)
  | [], _ => by rw [List.mapM_nil]; exact Rets.pure _
  | i :: l, h => by
    rw [List.mapM_cons, List.map_cons]
    exact Rets.bind (h i (by simp)) (Rets.bind (Rets.mapM l (fun j hj => h j (by simp [hj]))) (Rets.pure _))

/-- The array holds `x 0, …, x (n-1)`. -/
def Holds (l : List Bool) (n : Nat) (x : Nat → Bool) : Prop := l = (List.range n).map x

theorem Holds.get {l : List Bool} {n : Nat} {x : Nat → Bool} (h : Holds l n x) {i : Nat} (hi : i < n) : l[i]? = some (x i) := by
  rw [h]
  simp [hi]

theorem parity_congr {f g : Nat → Bool} : ∀ n, (∀ i < n, f i = g i) → parity f n = parity g n
  | 0, _ => rfl
  | n + 1, h => by
    rw [parity, parity, parity_congr n (fun i hi => h i (by omega)), h n (by omega)]

theorem lmXor_spec {a b : List Bool} {oa ob len : Nat} {x y : Nat → Bool} (ha : ∀ i < len, a[oa + i]? = some (x i))
    (hb : ∀ i < len, b[ob + i]? = some (y i)) : ∃ r, Rets (lmXor boolOps a oa b ob len) r ∧ Holds r len (fun i => x i ^^ y i) := by
  refine ⟨_, Rets.mapM (v := fun i => x i ^^ y i) _ ?_, rfl⟩
  intro i hi
  have hi := List.mem_range.1 hi
  exact Rets.bind (Rets.arr (ha i hi)) (Rets.bind (Rets.arr (hb i hi)) (Rets.pure _))

theorem lmBox_spec {a : List Bool} {i : Nat} {x : Nat → Bool} (h0 : a[3 * i]? = some (x (3 * i)))
    (h1 : a[3 * i + 1]? = some (x (3 * i + 1))) (h2 : a[3 * i + 2]? = some (x (3 * i + 2))) :
    Rets (lmBox boolOps a i) ((List.range 3).map (fun j => specBox (x (3 * i)) (x (3 * i + 1)) (x (3 * i + 2)) j)) := by
  have e : (List.range 3).map (fun j => specBox (x (3 * i)) (x (3 * i + 1)) (x (3 * i + 2)) j) =
      [x (3 * i) ^^ (x (3 * i + 1) && x (3 * i + 2)), x (3 * i) ^^ (x (3 * i + 1) ^^ (x (3 * i) && x (3 * i + 2))),
       x (3 * i) ^^ (x (3 * i + 1) ^^ (x (3 * i + 2) ^^ (x (3 * i) && x (3 * i + 1))))] := by
    cases x (3 * i) <;> cases x (3 * i + 1) <;> cases x (3 * i + 2) <;> decide
  rw [e]
  exact Rets.bind (Rets.arr h0) (Rets.bind (Rets.arr h1) (Rets.bind (Rets.arr h2) rfl))

theorem range_three (n : Nat) (f : Nat → Bool) :
    ((List.range n).map (fun i => (List.range 3).map (fun j => f (3 * i + j)))).flatten = (List.range (3 * n)).map f := by
  induction n with
  | zero => rfl
  | succ n ih =>
    rw [List.range_succ (n := n), List.map_append, List.flatten_append, ih, Nat.mul_succ, List.range_add, List.map_append, List.map_map]
    simp [Function.comp_def]

theorem lmSubst_spec {c : LmCfg} (hc : 3 * c.boxes ≤ c.block) {a : List Bool} {x : Nat → Bool} (ha : Holds a c.block x) :
    ∃ r, Rets (lmSubst c boolOps a) r ∧ Holds r c.block (specSubst c.boxes x) := by
  have hb : Rets ((List.range c.boxes).mapM (lmBox boolOps a)) ((List.range c.boxes).map
      (fun i => (List.range 3).map (fun j => specSubst c.boxes x (3 * i + j)))) := by
    refine Rets.mapM _ ?_
    intro i hi
    have hi := List.mem_range.1 hi
    have := lmBox_spec (a := a) (i := i) (x := x) (ha.get (by omega)) (ha.get (by omega)) (ha.get (by omega))
    refine Eq.trans this ?_
    congr 2
    apply List.map_congr_left
    intro j hj
    have hj := List.mem_range.1 hj
    have e1 : (3 * i + j) / 3 = i := by omega
    have e2 : (3 * i + j) % 3 = j := by omega
    rw [specSubst, if_pos (by omega), e1, e2]
  have hr : Rets ((List.range (c.block - 3 * c.boxes)).mapM (fun i => arr (σ := Unit) a (3 * c.boxes + i)))
      ((List.range (c.block - 3 * c.boxes)).map (fun i => specSubst c.boxes x (3 * c.boxes + i))) := by
    refine Rets.mapM _ ?_
    intro i hi
    have hi := List.mem_range.1 hi
    rw [specSubst, if_neg (by omega)]
    exact Rets.arr (ha.get (by omega))
  refine ⟨_, Rets.bind hb (Rets.bind hr (Rets.pure _)), ?_⟩
  rw [range_three, Holds]
  conv_rhs => rw [show c.block = 3 * c.boxes + (c.block - 3 * c.boxes) by omega, List.range_add, List.map_append, List.map_map]
  rfl

theorem parity_fold {α : Type} (R : α → Nat → Prop) {f : α → Nat → StateT Unit Option α} (n : Nat)
    (hf : ∀ a i, 1 ≤ i → i < n → R a i → ∃ b, Rets (f a i) b ∧ R b (i + 1)) :
    ∀ (k i : Nat) (a : α), 1 ≤ i → i + k = n → R a i → ∃ b, Rets ((List.range' i k).foldlM f a) b ∧ R b n
  | 0, i, a, _, hk, ha => ⟨a, by rw [List.range'_zero, List.foldlM_nil]; exact Rets.pure _, by rw [← hk]; exact ha⟩
  | k + 1, i, a, hi, hk, ha => by
    obtain ⟨b, h1, h2⟩ := hf a i hi (by omega) ha
    obtain ⟨d, h3, h4⟩ := parity_fold R n hf k (i + 1) b (by omega) (by omega) h2
    refine ⟨d, ?_, h4⟩
    rw [List.range'_succ, List.foldlM_cons]
    exact Rets.bind h1 h3

theorem lmMul_spec {c : LmCfg} (hc : 1 ≤ c.block) {mat : List Bool} {off : Nat} {M : Nat → Nat → Bool}
    (hm : ∀ i < c.block, ∀ j < c.block, mat[off + i * c.block + j]? = some (M i j)) {a : List Bool} {x : Nat → Bool}
    (ha : Holds a c.block x) :
    ∃ r, Rets (lmMul c boolOps mat off a) r ∧ Holds r c.block (fun j => parity (fun i => M i j && x i) c.block) := by
  obtain ⟨r, h1, h2⟩ := parity_fold (fun (l : List Bool) i => Holds l c.block (fun j => parity (fun i => M i j && x i) i))
    (f := lmMulRow c boolOps mat off a) c.block (by
      intro l i h1 h2 hl
      refine ⟨_, Rets.bind (Rets.arr (ha.get h2)) (Rets.mapM (v := fun j => parity (fun i => M i j && x i) (i + 1)) _ ?_), rfl⟩
      intro j hj
      have hj := List.mem_range.1 hj
      exact Rets.bind (Rets.arr (hl.get hj)) (Rets.bind (Rets.arr (hm i h2 j hj)) (Rets.pure _)))
    (c.block - 1) 1 ((List.range c.block).map (fun j => M 0 j && x 0)) (le_refl _) (by omega) (by
      simp [Holds, parity])
  refine ⟨r, ?_, h2⟩
  refine Rets.bind (Rets.arr (ha.get (by omega))) (Rets.bind (Rets.mapM (v := fun j => M 0 j && x 0) _ ?_) h1)
  intro j hj
  have hj := List.mem_range.1 hj
  have := hm 0 (by omega) j hj
  rw [Nat.zero_mul, Nat.add_zero] at this
  exact Rets.bind (Rets.arr this) (Rets.pure _)

theorem lmMulKey_spec {c : LmCfg} (hc : 1 ≤ c.key) {mat : List Bool} {off : Nat} {M : Nat → Nat → Bool}
    (hm : ∀ i < c.block, ∀ j < c.key, mat[off + i * c.key + j]? = some (M i j)) {k : List Bool} {x : Nat → Bool}
    (hk : Holds k c.key x) :
    Rets (lmMulKey c boolOps mat off k) ((List.range c.block).map (fun i => parity (fun j => M i j && x j) c.key)) := by
  refine Rets.mapM _ ?_
  intro i hi
  have hi := List.mem_range.1 hi
  obtain ⟨r, h1, h2⟩ := parity_fold (fun (b : Bool) j => b = parity (fun j => M i j && x j) j)
    (f := fun acc j => do
      let m ← arr mat (off + i * c.key + j)
      let x ← arr k j
      boolOps.xor acc (boolOps.sel m x)) c.key (by
      intro b j h1 h2 hb
      refine ⟨_, Rets.bind (Rets.arr (hm i hi j h2)) (Rets.bind (Rets.arr (hk.get h2)) (Rets.pure _)), ?_⟩
      rw [hb]
      rfl)
    (c.key - 1) 1 (M i 0 && x 0) (le_refl _) (by omega) (by simp [parity])
  subst h2
  have := hm i hi 0 (by omega)
  exact Rets.bind (Rets.arr this) (Rets.bind (Rets.arr (hk.get (by omega))) h1)

theorem flatten_get {n b : Nat} {f : Nat → Nat → Bool} {r i : Nat} (hr : r < n) (hi : i < b) :
    ((List.range n).map (fun r => (List.range b).map (f r))).flatten[r * b + i]? = some (f r i) := by
  induction n with
  | zero => omega
  | succ n ih =>
    rw [List.range_succ, List.map_append, List.flatten_append]
    have hl : ((List.range n).map (fun r => (List.range b).map (f r))).flatten.length = n * b := by
      rw [List.length_flatten, List.map_map]
      have : (List.length ∘ fun r => (List.range b).map (f r)) = fun _ => b := by
        funext r
        simp
      rw [this]
      simp
    by_cases h : r < n
    · have : r * b + i < n * b := by
        have : (r + 1) * b ≤ n * b := Nat.mul_le_mul_right b h
        rw [Nat.succ_mul] at this
        omega
      rw [List.getElem?_append_left (by rw [hl]; exact this)]
      exact ih h
    · have hrn : r = n := by omega
      subst hrn
      rw [List.getElem?_append_right (by rw [hl]; omega), hl, Nat.add_sub_cancel_left]
      simp [hi]

/-- The arrays filled by the generator as matrices. -/
def LmParams.toSpec (c : LmCfg) (p : LmParams) : LowMCParams where
  lin r i j := p.lin.getD (r * c.block * c.block + i * c.block + j) false
  rc r i := p.rc.getD (r * c.block + i) false
  km r i j := p.km.getD (r * c.block * c.key + i * c.key + j) false

/-- lowmc.h:216, 224, 236: the lengths of the arrays. -/
structure LmParams.Sized (c : LmCfg) (p : LmParams) : Prop where
  lin : p.lin.length = c.rounds * c.block * c.block
  rc : p.rc.length = c.rounds * c.block
  km : p.km.length = (c.rounds + 1) * c.block * c.key

theorem getD_some {l : List Bool} {i : Nat} (h : i < l.length) : l[i]? = some (l.getD i false) := by
  rw [List.getD_eq_getElem?_getD, List.getElem?_eq_getElem h]
  rfl

theorem idx3 {R B C r i j : Nat} (hr : r < R) (hi : i < B) (hj : j < C) : r * B * C + i * C + j < R * B * C := by
  have h1 : (i + 1) * C ≤ B * C := Nat.mul_le_mul_right C hi
  have h2 : (r + 1) * (B * C) ≤ R * (B * C) := Nat.mul_le_mul_right _ hr
  rw [Nat.succ_mul] at h1 h2
  rw [Nat.mul_assoc, Nat.mul_assoc]
  omega

theorem idx2 {R B r i : Nat} (hr : r < R) (hi : i < B) : r * B + i < R * B := by
  have h2 : (r + 1) * B ≤ R * B := Nat.mul_le_mul_right _ hr
  rw [Nat.succ_mul] at h2
  omega

theorem lmKeys_spec {c : LmCfg} (hc : 1 ≤ c.key) {p : LmParams} (hp : p.Sized c) {k : List Bool} {x : Nat → Bool}
    (hk : Holds k c.key x) :
    Rets (lmKeys c boolOps p.km k) ((List.range (c.rounds + 1)).map (fun r => (List.range c.block).map
      (specRoundKey (p.toSpec c) c.key x r))).flatten := by
  refine Rets.bind (Rets.mapM (v := fun r => (List.range c.block).map (specRoundKey (p.toSpec c) c.key x r)) _ ?_) (Rets.pure _)
  intro r hr
  have hr := List.mem_range.1 hr
  refine lmMulKey_spec (M := (p.toSpec c).km r) hc ?_ hk
  intro i hi j hj
  exact getD_some (by rw [hp.km]; exact idx3 hr hi hj)

theorem lmEncBlock_spec {c : LmCfg} (hc : 3 * c.boxes ≤ c.block ∧ 1 ≤ c.block ∧ 1 ≤ c.key) {p : LmParams} (hp : p.Sized c)
    {x : Nat → Bool} {rk : List Bool} (hrk : rk = ((List.range (c.rounds + 1)).map (fun r => (List.range c.block).map
      (specRoundKey (p.toSpec c) c.key x r))).flatten) {msg : List Bool} {off : Nat} {m : Nat → Bool}
    (hm : ∀ i < c.block, msg[off + i]? = some (m i)) :
    Rets (lmEncBlock c boolOps p.lin p.rc rk msg off) ((List.range c.block).map
      (specRounds (p.toSpec c) c.boxes c.block c.key x m c.rounds)) := by
  have hrkg : ∀ r < c.rounds + 1, ∀ i < c.block, rk[r * c.block + i]? = some (specRoundKey (p.toSpec c) c.key x r i) := by
    intro r hr i hi
    rw [hrk]
    exact flatten_get hr hi
  obtain ⟨s0, h1, h2⟩ := lmXor_spec (a := msg) (b := rk) (oa := off) (ob := 0) (len := c.block) hm
    (fun i hi => by have := hrkg 0 (by omega) i hi; rwa [Nat.zero_mul] at this)
  obtain ⟨r, h3, h4⟩ := parity_fold
    (fun (l : List Bool) r => Holds l c.block (specRounds (p.toSpec c) c.boxes c.block c.key x m (r - 1)))
    (f := lmRound c boolOps p.lin p.rc rk) (c.rounds + 1) (by
      intro l r hr1 hr2 hl
      obtain ⟨q, rfl⟩ : ∃ q, r = q + 1 := ⟨r - 1, by omega⟩
      rw [Nat.add_sub_cancel] at hl
      obtain ⟨a1, u1, v1⟩ := lmSubst_spec hc.1 hl
      obtain ⟨a2, u2, v2⟩ := lmMul_spec (mat := p.lin) (off := q * c.block * c.block) (M := (p.toSpec c).lin q) hc.2.1
        (fun i hi j hj => getD_some (by rw [hp.lin]; exact idx3 (by omega) hi hj)) v1
      obtain ⟨a3, u3, v3⟩ := lmXor_spec (a := a2) (b := p.rc) (oa := 0) (ob := q * c.block) (len := c.block)
        (y := (p.toSpec c).rc q) (fun i hi => by rw [Nat.zero_add]; exact v2.get hi)
        (fun i hi => getD_some (by rw [hp.rc]; exact idx2 (by omega) hi))
      obtain ⟨a4, u4, v4⟩ := lmXor_spec (a := a3) (b := rk) (oa := 0) (ob := (q + 1) * c.block) (len := c.block)
        (fun i hi => by rw [Nat.zero_add]; exact v3.get hi) (fun i hi => hrkg (q + 1) hr2 i hi)
      exact ⟨a4, Rets.bind u1 (Rets.bind (a := a2) u2 (Rets.bind (a := a3) u3 u4)), v4⟩)
    c.rounds 1 s0 (le_refl _) (by omega) h2
  rw [Nat.add_sub_cancel] at h4
  rw [← h4]
  exact Rets.bind h1 h3

theorem lmClear_spec {c : LmCfg} (hc : 3 * c.boxes ≤ c.block ∧ 1 ≤ c.block ∧ 1 ≤ c.key) {p : LmParams} (hp : p.Sized c)
    {key msg : List Bool} {nb : Nat} {k m : Nat → Bool} (hk : Holds key c.key k) (hm : Holds msg (nb * c.block) m) :
    lmClear c p key msg nb = some ((List.range nb).map (fun b => (List.range c.block).map
      (specRounds (p.toSpec c) c.boxes c.block c.key k (fun i => m (b * c.block + i)) c.rounds))).flatten := by
  have h1 := lmKeys_spec hc.2.2 hp hk
  have h2 : Rets (lmEnc c boolOps p.lin p.rc ((List.range (c.rounds + 1)).map (fun r => (List.range c.block).map
      (specRoundKey (p.toSpec c) c.key k r))).flatten msg nb) ((List.range nb).map (fun b => (List.range c.block).map
      (specRounds (p.toSpec c) c.boxes c.block c.key k (fun i => m (b * c.block + i)) c.rounds))).flatten := by
    refine Rets.bind (Rets.mapM (v := fun b => (List.range c.block).map
      (specRounds (p.toSpec c) c.boxes c.block c.key k (fun i => m (b * c.block + i)) c.rounds)) _ ?_) (Rets.pure _)
    intro b hb
    have hb := List.mem_range.1 hb
    exact lmEncBlock_spec hc hp rfl (fun i hi => hm.get (idx2 hb hi))
  have h3 := Rets.bind (f := fun rk => lmEnc c boolOps p.lin p.rc rk msg nb) h1 h2
  unfold lmClear
  unfold Rets at h3
  simp only [StateT.run']
  rw [h3]
  rfl

/-! ### the whole program -/

/-- The program after the private inputs. -/
def lmTail (c : LmCfg) (p : LmParams) (nb : Nat) (m k : List Nat) : StateT Gen Option Unit := do
  let rc ← (List.range (c.rounds * c.block)).mapM (fun i => do
    let b ← arr p.rc i
    genEmit (.pub b))
  let k0 ← arr k 0
  let z ← genEmit (.xor k0 k0)
  let rk ← lmKeys c (wireOps z) p.km k
  let ctx ← lmEnc c (wireOps z) p.lin rc rk m nb
  lmReveal ctx

theorem mapM_arr {σ T α : Type} (f : T → StateT σ Option α) : ∀ (l pre : List T),
    (List.range' pre.length l.length).mapM (fun i => do let b ← arr (pre ++ l) i; f b) = l.mapM f
  | [], _ => by simp
  | x :: l, pre => by
    rw [List.length_cons, List.range'_succ, List.mapM_cons, List.mapM_cons]
    have h1 : (do let b ← arr (σ := σ) (pre ++ x :: l) pre.length; f b) = f x := by
      funext s
      show (((pre ++ x :: l)[pre.length]?).map (fun y => (y, s))).bind (fun q => f q.1 q.2) = _
      simp
    have h2 := mapM_arr f l (pre ++ [x])
    rw [List.length_append, List.length_singleton, List.append_assoc, List.singleton_append] at h2
    rw [h1, h2]

theorem lmFeed_run (l : List Bool) (n : Nat) (ops : List BOp) :
    lmFeed l ⟨n, ops⟩ = some (List.range' n l.length, ⟨n + l.length, ops ++ l.map .input⟩) := by
  unfold lmFeed
  induction l generalizing n ops with
  | nil => simp [List.mapM_nil, pure, StateT.pure]
  | cons b l ih =>
    rw [List.mapM_cons]
    show ((genEmit (.input b) ⟨n, ops⟩).bind (fun q => (l.mapM (fun b => genEmit (.input b)) >>= fun r => pure (q.1 :: r)) q.2)) = _
    rw [genEmit, Option.bind_some]
    show ((l.mapM (fun b => genEmit (.input b)) ⟨n + 1, ops ++ [.input b]⟩).bind (fun q => some (n :: q.1, q.2))) = _
    rw [ih (n + 1) (ops ++ [BOp.input b])]
    simp only [Option.bind_some, List.length_cons, List.range'_succ, List.map_cons, List.append_assoc, List.singleton_append]
    rw [Nat.add_assoc, Nat.add_comm 1]

theorem lmProgram_eq {c : LmCfg} {p : LmParams} {key msg : List Bool} {nb : Nat} (hk : key.length = c.key) :
    lmProgram c p key msg nb = ((lmTail c p nb (List.range' 0 msg.length) (List.range' msg.length c.key)
      ⟨msg.length + c.key, msg.map .input ++ key.map .input⟩).map (fun r => r.2.ops)) := by
  have h1 := mapM_arr (σ := Gen) (fun b => genEmit (.input b)) key []
  rw [List.length_nil, List.nil_append, ← List.range_eq_range', hk] at h1
  have h2 : lmProgram c p key msg nb = ((do
      let m ← lmFeed msg
      let k ← lmFeed key
      lmTail c p nb m k : StateT Gen Option Unit) ⟨0, []⟩).map (fun r => r.2.ops) := by
    unfold lmProgram lmNew lmTail
    rw [h1]
    simp only [bind_assoc, pure_bind]
    rfl
  rw [h2]
  show (((lmFeed msg ⟨0, []⟩).bind (fun q => (lmFeed key >>= fun k => lmTail c p nb q.1 k) q.2))).map _ = _
  rw [lmFeed_run, Option.bind_some]
  show (((lmFeed key ⟨0 + msg.length, [] ++ msg.map .input⟩).bind (fun q => (lmTail c p nb (List.range' 0 msg.length) q.1) q.2))).map
    _ = _
  rw [lmFeed_run, Option.bind_some, hk, Nat.zero_add, List.nil_append]

theorem plainRun_inputs (l : List Bool) : plainRun (l.map .input) = some ⟨l, [], []⟩ := by
  induction l using List.reverseRecOn with
  | nil => rfl
  | append_singleton l b ih =>
    rw [List.map_append, List.map_cons, List.map_nil, plainRun_snoc, ih]
    rfl

theorem vec_range {w : Plain} (l : List Bool) (n : Nat) (h : ∀ i (hi : i < l.length), w.wires[n + i]? = some l[i]) :
    semP.Vec w l (List.range' n l.length) := by
  rw [RSem.Vec, List.forall₂_iff_get]
  refine ⟨by simp, ?_⟩
  intro i h1 h2
  simp only [List.get_eq_getElem, List.getElem_range', Nat.one_mul]
  exact h i h1

/-- Related computations of which the first is known. -/
theorem Rl.run {σ T W α β : Type} {S : RSem Unit σ Bool T W} {w : W} {R : W → α → β → Prop} {p₁ : StateT Unit Option α}
    {p₂ : StateT σ Option β} (h : Rl S w R p₁ p₂) {a : α} (ha : Rets p₁ a) {s : σ} (hi : S.inv w () s) :
    ∃ b s' w', p₂ s = some (b, s') ∧ S.inv w' () s' ∧ S.le w w' ∧ R w' a b := h () s hi a () ha

theorem StateT_bind_run {σ α β : Type} {p : StateT σ Option α} {f : α → StateT σ Option β} {s s' : σ} {a : α}
    (h : p s = some (a, s')) : (p >>= f) s = f a s' := by
  show (p s).bind (fun q => f q.1 q.2) = _
  rw [h]
  rfl

theorem plainRun_reveal : ∀ (ws : List Nat) (bs : List Bool) (ops : List BOp) (pl : Plain), plainRun ops = some pl →
    List.Forall₂ (fun b i => pl.wires[i]? = some b) bs ws →
    plainRun (ops ++ ws.map .reveal) = some { pl with outs := pl.outs ++ bs }
  | [], _, ops, pl, h, hv => by
    cases hv
    simp [h]
  | i :: ws, _, ops, pl, h, hv => by
    cases hv with
    | cons h1 h2 =>
      rename_i b bs
      have := plainRun_reveal ws bs (ops ++ [.reveal i]) { pl with outs := pl.outs ++ [b] }
        (by rw [plainRun_snoc, h, Option.bind_some]; simp [plainStep, h1]) h2
      rw [List.append_assoc, List.singleton_append] at this
      rw [List.map_cons, this]
      simp

theorem Rets.mapM_pure {α : Type} : ∀ (l : List α), Rets (l.mapM Pure.pure) l
  | [] => by rw [List.mapM_nil]; exact Rets.pure _
  | x :: l => by
    rw [List.mapM_cons]
    exact Rets.bind (Rets.pure x) (Rets.bind (Rets.mapM_pure l) (Rets.pure _))

theorem lmTail_run {c : LmCfg} (hc : 3 * c.boxes ≤ c.block ∧ 1 ≤ c.block ∧ 1 ≤ c.key) {p : LmParams} (hp : p.Sized c)
    {key msg ct : List Bool} {nb : Nat} {k m : Nat → Bool} (hk : Holds key c.key k) (hm : Holds msg (nb * c.block) m)
    (hct : lmClear c p key msg nb = some ct) {w : Plain} {g : Gen} (hi : semP.inv w () g) {ws ks : List Nat}
    (hw : semP.Vec w msg ws) (hks : semP.Vec w key ks) :
    ∃ g' pl, lmTail c p nb ws ks g = some ((), g') ∧ plainRun g'.ops = some pl ∧ pl.outs = w.outs ++ ct ∧ pl.claims = w.claims := by
  rw [lmClear_spec hc hp hk hm, Option.some.injEq] at hct
  -- round constants
  have r1 : Rl semP w semP.Vec ((List.range (c.rounds * c.block)).mapM (fun i => arr p.rc i >>= fun b => pure b))
      ((List.range (c.rounds * c.block)).mapM (fun i => do let b ← arr p.rc i; genEmit (.pub b))) := by
    refine Rl.mapM (R := semP.val) (fun _ _ _ _ hl hv => semP.mono _ _ _ _ hl hv) _ w ?_
    intro w1 i _ _
    refine Rl.bind (Rl.arrEq p.rc i) ?_
    intro w2 b b' _ hb
    subst hb
    exact emit_rel rfl
  have r1' : Rets ((List.range (c.rounds * c.block)).mapM (fun i => arr p.rc i >>= fun b => pure b)) p.rc := by
    have := mapM_arr (σ := Unit) (fun b : Bool => pure b) p.rc []
    rw [List.length_nil, List.nil_append, ← List.range_eq_range', hp.rc] at this
    rw [this]
    exact Rets.mapM_pure _
  obtain ⟨rc, g1, w1, e1, i1, l1, v1⟩ := r1.run r1' hi
  -- the zero wire
  obtain ⟨k0, g1', w1', e2, i2, l2, v2⟩ := (Rl.arr (hks.mono l1) 0).run (Rets.arr (hk.get (by omega))) i1
  have v2' : w1'.wires[k0]? = some (k 0) := v2
  obtain ⟨z, g2, w2, e3, i3, l3, v3⟩ := (emit_rel (w := w1') (o := .xor k0 k0) (x := k 0 ^^ k 0)
    (by simp [plainStep, v2'])).run (Rets.pure _) i2
  have hz : w2.wires[z]? = some false := by
    have : w2.wires[z]? = some (k 0 ^^ k 0) := v3
    simpa using this
  have l13 := semP.trans _ _ _ l1 (semP.trans _ _ _ l2 l3)
  -- round keys
  obtain ⟨rk, g3, w3, e4, i4, l4, v4⟩ := (lmKeys_rel (opsRelP hz) (semP.refl w2) (hks.mono l13) c p.km).run
    (lmKeys_spec hc.2.2 hp hk) i3
  have l14 := semP.trans _ _ _ l13 l4
  -- encryption
  have henc : Rets (lmEnc c boolOps p.lin p.rc ((List.range (c.rounds + 1)).map (fun r => (List.range c.block).map
      (specRoundKey (p.toSpec c) c.key k r))).flatten msg nb) ct := by
    rw [← hct]
    refine Rets.bind (Rets.mapM (v := fun b => (List.range c.block).map
      (specRounds (p.toSpec c) c.boxes c.block c.key k (fun i => m (b * c.block + i)) c.rounds)) _ ?_) (Rets.pure _)
    intro b hb
    have hb := List.mem_range.1 hb
    exact lmEncBlock_spec hc hp rfl (fun i hi => hm.get (idx2 hb hi))
  obtain ⟨cs, g4, w4, e5, i5, l5, v5⟩ := (lmEnc_rel (opsRelP hz) l4
    (v1.mono (semP.trans _ _ _ l2 (semP.trans _ _ _ l3 l4))) v4 (hw.mono l14) c p.lin nb).run henc i4
  have l15 := semP.trans _ _ _ l14 l5
  refine ⟨⟨g4.n, g4.ops ++ cs.map .reveal⟩, { w4 with outs := w4.outs ++ ct }, ?_, plainRun_reveal cs ct g4.ops w4 i5.1 v5, ?_, ?_⟩
  · unfold lmTail
    rw [StateT_bind_run e1, StateT_bind_run e2, StateT_bind_run e3, StateT_bind_run e4, StateT_bind_run e5]
    rfl
  · show w4.outs ++ ct = _
    rw [l15.2.1]
  · exact l15.2.2

theorem lmTail_nat (b₁ b₂ : List BOp) (c : LmCfg) (p : LmParams) (nb : Nat) (ws ks : List Nat) (w : List BOp) :
    Rl (semG b₁ b₂) w (fun _ _ _ => True) (lmTail c p nb ws ks) (lmTail c p nb ws ks) := by
  have hv : ∀ (l : List Nat) (w : List BOp), (semG b₁ b₂).Vec w l l := by
    intro l w
    exact List.forall₂_same.2 (fun x _ => rfl)
  unfold lmTail
  refine Rl.bind (R := (semG b₁ b₂).Vec) ?_ ?_
  · refine Rl.mapM (R := (semG b₁ b₂).val) (fun _ _ _ _ hl h => h) _ w ?_
    intro w1 i _ _
    refine Rl.bind (Rl.arrEq p.rc i) ?_
    intro w2 b b' _ hb
    subst hb
    exact emit_relG (by simp)
  · intro w1 rc rc' _ hrc
    refine Rl.bind (Rl.arr (hv ks w1) 0) ?_
    intro w2 k0 k0' _ hk0
    have hk0' : k0 = k0' := hk0
    subst hk0'
    refine Rl.bind (emit_relG (by simp)) ?_
    intro w3 z z' _ hz
    have hz' : z = z' := hz
    subst hz'
    refine Rl.bind (lmKeys_rel (opsRelG b₁ b₂ z w3) trivial (hv ks w3) c p.km) ?_
    intro w4 rk rk' _ hrk
    refine Rl.bind (lmEnc_rel (opsRelG b₁ b₂ z w4) trivial (hrc.mono trivial) hrk (hv ws w4) c p.lin nb) ?_
    intro w5 cs cs' _ hcs
    have hcs' : cs = cs' := by
      have h : List.Forall₂ (fun i j : Nat => i = j) cs cs' := hcs
      exact List.forall₂_eq_eq_eq ▸ h
    subst hcs'
    intro g₁ g₂ hi a s₁' ha
    simp only [lmReveal, Option.some.injEq, Prod.mk.injEq, true_and] at ha
    subst ha
    obtain ⟨h1, h2, h3, h4⟩ := hi
    refine ⟨(), ⟨g₂.n, g₂.ops ++ cs.map .reveal⟩, w5 ++ cs.map .reveal, rfl, ⟨h1, by simp [h2], by simp [h3], ?_⟩, trivial, trivial⟩
    intro b hb
    rcases List.mem_append.1 hb with hb | hb
    · exact h4 b hb
    · simp at hb

/-! ### number of AND gates -/

theorem andTriples_append : ∀ (n : Nat) (l l' : List BOp),
    (andTriples n (l ++ l')).length = (andTriples n l).length + (andTriples 0 l').length
  | n, [], l' => by
    have h : ∀ (l : List BOp) (n m : Nat), (andTriples n l).length = (andTriples m l).length := by
      intro l
      induction l with
      | nil => intro n m; rfl
      | cons o l ih =>
        intro n m
        cases o <;> simp only [andTriples, List.length_cons]
        all_goals (first | exact ih _ _ | rw [ih])
    rw [List.nil_append, h l' n 0]
    simp [andTriples]
  | n, o :: l, l' => by
    rw [List.cons_append]
    cases o <;> simp only [andTriples, List.length_cons, andTriples_append _ l l']
    omega

/-- Number of AND gates so far. -/
def Gen.ands (g : Gen) : Nat := (andTriples 0 g.ops).length

/-- The computation appends `d` AND gates. -/
def Cnt {α : Type} (p : StateT Gen Option α) (d : Nat) : Prop := ∀ g a g', p g = some (a, g') → g'.ands = g.ands + d

theorem Cnt.pure {α : Type} (a : α) : Cnt (Pure.pure a) 0 := by
  intro g a' g' h
  have h1 : some (a, g) = some (a', g') := h
  simp only [Option.some.injEq, Prod.mk.injEq] at h1
  rw [← h1.2, Nat.add_zero]

theorem Cnt.bind {α β : Type} {p : StateT Gen Option α} {f : α → StateT Gen Option β} {d e n : Nat} (h : Cnt p d)
    (hf : ∀ a, Cnt (f a) e) (hn : n = d + e) : Cnt (p >>= f) n := by
  intro g a g' ha
  have h1 : (p g).bind (fun q => f q.1 q.2) = some (a, g') := ha
  rw [Option.bind_eq_some_iff] at h1
  obtain ⟨⟨x, t⟩, hx, h1⟩ := h1
  rw [hf x t a g' h1, h g x t hx, hn, Nat.add_assoc]

theorem Cnt.arr {T : Type} (l : List T) (i : Nat) : Cnt (EmpZk.arr l i) 0 := by
  intro g a g' h
  simp only [EmpZk.arr, Option.map_eq_some_iff, Prod.mk.injEq] at h
  obtain ⟨_, _, _, rfl⟩ := h
  rfl

theorem Cnt.emit {o : BOp} {d : Nat} (h : (andTriples 0 [o]).length = d) : Cnt (genEmit o) d := by
  intro g a g' ha
  simp only [genEmit, Option.some.injEq, Prod.mk.injEq] at ha
  rw [← ha.2, Gen.ands, andTriples_append, h, Gen.ands]

theorem Cnt.mapM {α β : Type} {f : α → StateT Gen Option β} {d n : Nat} : ∀ (l : List α), (∀ i, Cnt (f i) d) →
    n = l.length * d → Cnt (l.mapM f) n
  | [], _, hn => by
    rw [List.mapM_nil, hn, List.length_nil, Nat.zero_mul]
    exact Cnt.pure _
  | i :: l, h, hn => by
    rw [List.mapM_cons]
    refine Cnt.bind (h i) (fun a => Cnt.bind (Cnt.mapM l h rfl) (fun b => Cnt.pure _) rfl) ?_
    rw [hn, List.length_cons, Nat.succ_mul]
    omega

theorem Cnt.foldlM {α : Type} {f : α → Nat → StateT Gen Option α} {d n : Nat} : ∀ (l : List Nat) (a : α), (∀ a i, Cnt (f a i) d) →
    n = l.length * d → Cnt (l.foldlM f a) n
  | [], a, _, hn => by
    rw [List.foldlM_nil, hn, List.length_nil, Nat.zero_mul]
    exact Cnt.pure _
  | i :: l, a, h, hn => by
    rw [List.foldlM_cons]
    refine Cnt.bind (h a i) (fun a => Cnt.foldlM l a h rfl) ?_
    rw [hn, List.length_cons, Nat.succ_mul]
    omega

theorem lmXor_cnt (z : Nat) (a b : List Nat) (oa ob len : Nat) : Cnt (lmXor (wireOps z) a oa b ob len) 0 := by
  refine Cnt.mapM (d := 0) _ ?_ (by simp)
  intro i
  exact Cnt.bind (Cnt.arr _ _) (fun _ => Cnt.bind (Cnt.arr _ _) (fun _ => Cnt.emit rfl) rfl) rfl

theorem lmBox_cnt (z : Nat) (a : List Nat) (i : Nat) : Cnt (lmBox (wireOps z) a i) 3 := by
  have hx : ∀ a b, Cnt ((wireOps z).xor a b) 0 := fun a b => Cnt.emit rfl
  have ha : ∀ a b, Cnt ((wireOps z).and a b) 1 := fun a b => Cnt.emit rfl
  unfold lmBox
  refine Cnt.bind (Cnt.arr _ _) (fun _ => Cnt.bind (Cnt.arr _ _) (fun _ => Cnt.bind (Cnt.arr _ _) (fun _ =>
    Cnt.bind (ha _ _) (fun _ => Cnt.bind (hx _ _) (fun _ => Cnt.bind (ha _ _) (fun _ => Cnt.bind (hx _ _) (fun _ =>
    Cnt.bind (hx _ _) (fun _ => Cnt.bind (ha _ _) (fun _ => Cnt.bind (hx _ _) (fun _ => Cnt.bind (hx _ _) (fun _ =>
    Cnt.bind (hx _ _) (fun _ => Cnt.pure _) rfl) rfl) rfl) rfl) rfl) rfl) rfl) rfl) rfl) rfl) rfl) rfl

theorem lmMul_cnt (z : Nat) (c : LmCfg) (mat : List Bool) (off : Nat) (a : List Nat) : Cnt (lmMul c (wireOps z) mat off a) 0 := by
  refine Cnt.bind (Cnt.arr _ _) (fun x => Cnt.bind (Cnt.mapM (d := 0) (n := 0) _ ?_ (by simp)) (fun b =>
    Cnt.foldlM (d := 0) (n := 0) _ b ?_ (by simp)) rfl) rfl
  · intro j
    exact Cnt.bind (Cnt.arr _ _) (fun _ => Cnt.pure _) rfl
  · intro b i
    refine Cnt.bind (Cnt.arr _ _) (fun x => Cnt.mapM (d := 0) (n := 0) _ ?_ (by simp)) rfl
    intro j
    exact Cnt.bind (Cnt.arr _ _) (fun _ => Cnt.bind (Cnt.arr _ _) (fun _ => Cnt.emit rfl) rfl) rfl

theorem lmKeys_cnt (z : Nat) (c : LmCfg) (km : List Bool) (k : List Nat) : Cnt (lmKeys c (wireOps z) km k) 0 := by
  refine Cnt.bind (Cnt.mapM (d := 0) (n := 0) _ ?_ (by simp)) (fun _ => Cnt.pure _) rfl
  intro r
  refine Cnt.mapM (d := 0) (n := 0) _ ?_ (by simp)
  intro i
  refine Cnt.bind (Cnt.arr _ _) (fun _ => Cnt.bind (Cnt.arr _ _) (fun _ => Cnt.foldlM (d := 0) (n := 0) _ _ ?_ (by simp)) rfl) rfl
  intro b j
  exact Cnt.bind (Cnt.arr _ _) (fun _ => Cnt.bind (Cnt.arr _ _) (fun _ => Cnt.emit rfl) rfl) rfl

theorem lmEnc_cnt (z : Nat) (c : LmCfg) (lin : List Bool) (rc rk msg : List Nat) (nb : Nat) :
    Cnt (lmEnc c (wireOps z) lin rc rk msg nb) (nb * (c.rounds * (c.boxes * 3))) := by
  refine Cnt.bind (Cnt.mapM (d := c.rounds * (c.boxes * 3)) _ ?_ (by simp)) (fun _ => Cnt.pure _) rfl
  intro b
  refine Cnt.bind (lmXor_cnt _ _ _ _ _ _) (fun _ => Cnt.foldlM (d := c.boxes * 3) _ _ ?_ (by simp)) (Nat.zero_add _).symm
  intro a r
  refine Cnt.bind (d := c.boxes * 3) (e := 0) ?_ (fun _ => Cnt.bind (lmMul_cnt _ _ _ _ _) (fun _ =>
    Cnt.bind (lmXor_cnt _ _ _ _ _ _) (fun _ => lmXor_cnt _ _ _ _ _ _) rfl) rfl) rfl
  refine Cnt.bind (Cnt.mapM (d := 3) (n := c.boxes * 3) _ (lmBox_cnt z a) (by rw [List.length_range])) (fun _ => Cnt.bind (Cnt.mapM (d := 0) (n := 0) _ ?_ (by simp))
    (fun _ => Cnt.pure _) rfl) rfl
  intro i
  exact Cnt.arr _ _

theorem lmTail_cnt (c : LmCfg) (p : LmParams) (nb : Nat) (ws ks : List Nat) :
    Cnt (lmTail c p nb ws ks) (nb * (c.rounds * (c.boxes * 3))) := by
  refine Cnt.bind (d := 0) (Cnt.mapM (d := 0) (n := 0) _ ?_ (by simp)) (fun _ => Cnt.bind (Cnt.arr _ _) (fun _ =>
    Cnt.bind (Cnt.emit (d := 0) rfl) (fun _ => Cnt.bind (lmKeys_cnt _ _ _ _) (fun _ => Cnt.bind (lmEnc_cnt _ _ _ _ _ _ _) (fun _ => ?_)
      (Nat.add_zero _).symm) (Nat.zero_add _).symm) (Nat.zero_add _).symm) (Nat.zero_add _).symm) (Nat.zero_add _).symm
  · intro i
    exact Cnt.bind (Cnt.arr _ _) (fun _ => Cnt.emit rfl) rfl
  · intro g a g' h
    simp only [lmReveal, Option.some.injEq, Prod.mk.injEq, true_and] at h
    rw [← h, Gen.ands, andTriples_append, Gen.ands, Nat.add_zero]
    rename_i cs
    have : ∀ (l : List Nat), (andTriples 0 (l.map BOp.reveal)).length = 0 := by
      intro l
      induction l with
      | nil => rfl
      | cons i l ih => simpa [andTriples] using ih
    rw [this, Nat.add_zero]

end EmpZk
