import Verif.Lemmas.LowMCRun
import Verif.Props.BoolProtocol
import Mathlib.Data.Fintype.EquivFin
/-!
C56: LowMC.
-/
namespace EmpZk

/-! ### substitution layer -/

/-- C56 (the box). On `bool` the three expressions of `Substitution` are the published table, first bit most significant, and the table
is a permutation. -/
theorem C56_box : (∀ (a b c : Bool), ∃ x y z, lmBox boolOps [a, b, c] 0 () = some ([x, y, z], ()) ∧
    lowmcTable[4 * a.toNat + 2 * b.toNat + c.toNat]? = some (4 * x.toNat + 2 * y.toNat + z.toNat)) ∧
    lowmcTable.Perm (List.range 8) := by
  refine ⟨?_, by decide⟩
  intro a b c
  refine ⟨a ^^ (b && c), a ^^ (b ^^ (a && c)), a ^^ (b ^^ (c ^^ (a && b))), rfl, ?_⟩
  cases a <;> cases b <;> cases c <;> rfl

example : lmBox boolOps [false, true, true] 0 () = some ([true, true, false], ()) := rfl

/-- The inverse of the box. -/
def invBox (a b c : Bool) (j : Nat) : Bool :=
  match [0, 1, 7, 2, 5, 6, 3, 4][4 * a.toNat + 2 * b.toNat + c.toNat]? with
  | some v => v.testBit (2 - j)
  | none => false

/-- The inverse of the substitution layer. -/
def invSubst (boxes : Nat) (x : Nat → Bool) (i : Nat) : Bool :=
  if i < 3 * boxes then invBox (x (3 * (i / 3))) (x (3 * (i / 3) + 1)) (x (3 * (i / 3) + 2)) (i % 3) else x i

theorem specBox_inv (a b c : Bool) (j : Nat) (hj : j < 3) :
    specBox (invBox a b c 0) (invBox a b c 1) (invBox a b c 2) j = [a, b, c][j]'(by simpa using hj) ∧
      invBox (specBox a b c 0) (specBox a b c 1) (specBox a b c 2) j = [a, b, c][j]'(by simpa using hj) := by
  interval_cases j <;> cases a <;> cases b <;> cases c <;> exact ⟨rfl, rfl⟩

theorem subst_parts (boxes : Nat) (x : Nat → Bool) (i : Nat) (hi : i < boxes) :
    specSubst boxes x (3 * i) = specBox (x (3 * i)) (x (3 * i + 1)) (x (3 * i + 2)) 0 ∧
    specSubst boxes x (3 * i + 1) = specBox (x (3 * i)) (x (3 * i + 1)) (x (3 * i + 2)) 1 ∧
    specSubst boxes x (3 * i + 2) = specBox (x (3 * i)) (x (3 * i + 1)) (x (3 * i + 2)) 2 ∧
    invSubst boxes x (3 * i) = invBox (x (3 * i)) (x (3 * i + 1)) (x (3 * i + 2)) 0 ∧
    invSubst boxes x (3 * i + 1) = invBox (x (3 * i)) (x (3 * i + 1)) (x (3 * i + 2)) 1 ∧
    invSubst boxes x (3 * i + 2) = invBox (x (3 * i)) (x (3 * i + 1)) (x (3 * i + 2)) 2 := by
  have e0 : 3 * i / 3 = i := by omega
  have e1 : (3 * i + 1) / 3 = i := by omega
  have e2 : (3 * i + 2) / 3 = i := by omega
  have m0 : 3 * i % 3 = 0 := by omega
  have m1 : (3 * i + 1) % 3 = 1 := by omega
  have m2 : (3 * i + 2) % 3 = 2 := by omega
  have h0 : 3 * i < 3 * boxes := by omega
  have h1 : 3 * i + 1 < 3 * boxes := by omega
  have h2 : 3 * i + 2 < 3 * boxes := by omega
  simp only [specSubst, invSubst, e0, e1, e2, m0, m1, m2, if_pos h0, if_pos h1, if_pos h2, and_self]

theorem subst_inv (boxes : Nat) (x : Nat → Bool) :
    specSubst boxes (invSubst boxes x) = x ∧ invSubst boxes (specSubst boxes x) = x := by
  constructor
  all_goals
    funext i
    by_cases h : i < 3 * boxes
    · have hd : i / 3 < boxes := by omega
      obtain ⟨p1, p2, p3, p4, p5, p6⟩ := subst_parts boxes x (i / 3) hd
      simp only [specSubst, invSubst, if_pos h] at p1 p2 p3 p4 p5 p6 ⊢
      simp only [p1, p2, p3, p4, p5, p6]
      have hi : i = 3 * (i / 3) + i % 3 := by omega
      have h3 : i % 3 < 3 := by omega
      first
        | rw [(specBox_inv _ _ _ _ h3).1]
        | rw [(specBox_inv _ _ _ _ h3).2]
      rcases (by omega : i % 3 = 0 ∨ i % 3 = 1 ∨ i % 3 = 2) with hm | hm | hm
      · simp only [hm, List.getElem_cons_zero]; congr 1; omega
      · simp only [hm, List.getElem_cons_succ, List.getElem_cons_zero]; congr 1; omega
      · simp only [hm, List.getElem_cons_succ, List.getElem_cons_zero]; congr 1; omega
    · simp only [specSubst, invSubst, if_neg h]

theorem holds_of_length {l : List Bool} {n : Nat} (h : l.length = n) : Holds l n (fun i => l.getD i false) := by
  subst h
  apply List.ext_getElem
  · simp
  · intro i h1 h2
    simp [List.getD_eq_getElem?_getD, List.getElem?_eq_getElem h1]

theorem Holds.length {l : List Bool} {n : Nat} {x : Nat → Bool} (h : Holds l n x) : l.length = n := by
  rw [h]; simp

theorem Rets.inj {α : Type} {p : StateT Unit Option α} {a b : α} (h1 : Rets p a) (h2 : Rets p b) : a = b := by
  unfold Rets at h1 h2
  rw [h1] at h2
  simpa using h2

theorem specSubst_congr {boxes n : Nat} (hn : 3 * boxes ≤ n) {x y : Nat → Bool} (h : ∀ i < n, x i = y i) (i : Nat) (hi : i < n) :
    specSubst boxes x i = specSubst boxes y i := by
  unfold specSubst
  by_cases hb : i < 3 * boxes
  · rw [if_pos hb, if_pos hb, h _ (by omega), h _ (by omega), h _ (by omega)]
  · rw [if_neg hb, if_neg hb, h i hi]

theorem invSubst_congr {boxes n : Nat} (hn : 3 * boxes ≤ n) {x y : Nat → Bool} (h : ∀ i < n, x i = y i) (i : Nat) (hi : i < n) :
    invSubst boxes x i = invSubst boxes y i := by
  unfold invSubst
  by_cases hb : i < 3 * boxes
  · rw [if_pos hb, if_pos hb, h _ (by omega), h _ (by omega), h _ (by omega)]
  · rw [if_neg hb, if_neg hb, h i hi]

/-- C56 (substitution layer). For all sizes with room for the boxes the layer on `bool` is a permutation of the states. -/
theorem C56_substitution (c : LmCfg) (hc : 3 * c.boxes ≤ c.block) (b : List Bool) (hb : b.length = c.block) :
    ∃! a : List Bool, a.length = c.block ∧ lmSubst c boolOps a () = some (b, ()) := by
  have hB := holds_of_length hb
  refine ⟨(List.range c.block).map (invSubst c.boxes (fun i => b.getD i false)), ⟨by simp, ?_⟩, ?_⟩
  · obtain ⟨r, h1, h2⟩ := lmSubst_spec (c := c) hc (a := (List.range c.block).map (invSubst c.boxes (fun i => b.getD i false)))
      (x := invSubst c.boxes (fun i => b.getD i false)) rfl
    rw [(subst_inv c.boxes _).1] at h2
    have hrb : r = b := Eq.trans h2 (Eq.symm hB)
    rw [hrb] at h1
    exact h1
  · rintro a ⟨ha, hr⟩
    have hA := holds_of_length ha
    obtain ⟨r, h1, h2⟩ := lmSubst_spec (c := c) hc hA
    have hrb : r = b := Rets.inj h1 hr
    subst hrb
    rw [hA]
    apply List.map_congr_left
    intro i hi
    have hi := List.mem_range.1 hi
    have := congrFun (subst_inv c.boxes (fun i => a.getD i false)).2 i
    rw [← this]
    refine invSubst_congr hc ?_ i hi
    intro j hj
    have := h2.get hj
    rw [List.getD_eq_getElem?_getD, this]
    rfl

/-- With the constants of the code. -/
example (b : List Bool) (hb : b.length = 64) : ∃! a : List Bool, a.length = 64 ∧ lmSubst lmCfg boolOps a () = some (b, ()) :=
  C56_substitution lmCfg (by decide) b hb

/-! ### the clear cipher -/

/-- C56 (the `bool` version computes LowMC). For all sizes, arrays of the allocated lengths, keys and messages: no read outside an
array, and block `b` of the result is the specified state after `rounds` rounds. -/
theorem C56_clear (c : LmCfg) (hc : 3 * c.boxes ≤ c.block ∧ 1 ≤ c.block ∧ 1 ≤ c.key) (p : LmParams) (hp : p.Sized c)
    (key msg : List Bool) (nb : Nat) (hk : key.length = c.key) (hm : msg.length = nb * c.block) :
    ∃ ct, lmClear c p key msg nb = some ct ∧ ct.length = nb * c.block ∧ ∀ b < nb, ∀ i < c.block,
      ct[b * c.block + i]? = some (specRounds (p.toSpec c) c.boxes c.block c.key (fun i => key.getD i false)
        (fun i => msg.getD (b * c.block + i) false) c.rounds i) := by
  refine ⟨_, lmClear_spec hc hp (holds_of_length hk) (holds_of_length hm), ?_, ?_⟩
  · rw [List.length_flatten, List.map_map]
    have : (List.length ∘ fun b => (List.range c.block).map (specRounds (p.toSpec c) c.boxes c.block c.key (fun i => key.getD i false)
        (fun i => msg.getD (b * c.block + i) false) c.rounds)) = fun _ => c.block := by
      funext r
      simp
    rw [this]
    simp
  · intro b hb i hi
    exact flatten_get hb hi

/-- A toy instance: one box, blocks of four bits, keys of two bits, one round. -/
example : lmClear ⟨1, 4, 2, 1⟩ ⟨[true, false, false, false, false, true, false, false, false, false, true, false, true, false, false, true],
    [true, false, false, false], List.replicate 16 true⟩ [true, false] [false, false, true, true] 1 =
    some [true, true, false, true] := by decide

/-! ### the circuit -/

/-- C56. There is one list of instructions `suf` without private inputs such that for all keys and messages: the clear version
gives some `ct`; the program built by the `Bit` version is the inputs followed by `suf`; its plain evaluation is defined and reveals
exactly `ct`; it has three AND gates per box, round and block. -/
theorem C56_circuit (c : LmCfg) (hc : 3 * c.boxes ≤ c.block ∧ 1 ≤ c.block ∧ 1 ≤ c.key) (p : LmParams) (hp : p.Sized c) (nb : Nat) :
    ∃ suf : List BOp, (∀ b, BOp.input b ∉ suf) ∧ ∀ key msg : List Bool, key.length = c.key → msg.length = nb * c.block →
      ∃ ct pl, lmClear c p key msg nb = some ct ∧
        lmProgram c p key msg nb = some (msg.map .input ++ key.map .input ++ suf) ∧
        plainRun (msg.map .input ++ key.map .input ++ suf) = some pl ∧ pl.outs = ct ∧ pl.claims = [] ∧
        (andTriples 0 (msg.map .input ++ key.map .input ++ suf)).length = nb * (c.rounds * (c.boxes * 3)) := by
  have run : ∀ key msg : List Bool, key.length = c.key → msg.length = nb * c.block →
      ∃ ct pl g, lmClear c p key msg nb = some ct ∧
        lmTail c p nb (List.range' 0 msg.length) (List.range' msg.length c.key)
          ⟨msg.length + c.key, msg.map .input ++ key.map .input⟩ = some ((), g) ∧
        plainRun g.ops = some pl ∧ pl.outs = ct ∧ pl.claims = [] := by
    intro key msg hk hm
    have h1 := lmClear_spec hc hp (holds_of_length hk) (holds_of_length hm)
    have hpl : plainRun (msg.map .input ++ key.map .input) = some ⟨msg ++ key, [], []⟩ := by
      rw [← List.map_append, plainRun_inputs]
    obtain ⟨g, pl, k1, k2, k3, k4⟩ := lmTail_run hc hp (holds_of_length hk) (holds_of_length hm) h1
      (w := ⟨msg ++ key, [], []⟩) (g := ⟨msg.length + c.key, msg.map .input ++ key.map .input⟩) ⟨hpl, by simp [hk]⟩
      (ws := List.range' 0 msg.length) (ks := List.range' msg.length c.key)
      (vec_range msg 0 (fun i hi => by
        rw [Nat.zero_add]
        show (msg ++ key)[i]? = _
        rw [List.getElem?_append_left hi, List.getElem?_eq_getElem hi]))
      (by
        have := vec_range (w := ⟨msg ++ key, [], []⟩) key msg.length (fun i hi => by
          show (msg ++ key)[msg.length + i]? = _
          rw [List.getElem?_append_right (by omega), Nat.add_sub_cancel_left, List.getElem?_eq_getElem hi])
        rwa [hk] at this)
    exact ⟨_, pl, g, h1, k1, k2, by rw [k3]; rfl, k4⟩
  -- the instructions do not depend on the inputs
  obtain ⟨_, _, g0, _, t0, _⟩ := run (List.replicate c.key false) (List.replicate (nb * c.block) false) (by simp) (by simp)
  rw [List.length_replicate] at t0
  have nat : ∀ key msg : List Bool, key.length = c.key → msg.length = nb * c.block → ∀ g,
      lmTail c p nb (List.range' 0 msg.length) (List.range' msg.length c.key)
          ⟨msg.length + c.key, msg.map .input ++ key.map .input⟩ = some ((), g) →
      ∃ suf, g0.ops = (List.replicate (nb * c.block) false).map .input ++ (List.replicate c.key false).map .input ++ suf ∧
        g.ops = msg.map .input ++ key.map .input ++ suf ∧ ∀ b, BOp.input b ∉ suf := by
    intro key msg hk hm g hg
    rw [hm] at hg
    obtain ⟨_, g', w', e1, ⟨_, e2, e3, e4⟩, _, _⟩ := lmTail_nat
      ((List.replicate (nb * c.block) false).map .input ++ (List.replicate c.key false).map .input)
      (msg.map .input ++ key.map .input) c p nb (List.range' 0 (nb * c.block)) (List.range' (nb * c.block) c.key) []
      ⟨nb * c.block + c.key, (List.replicate (nb * c.block) false).map .input ++ (List.replicate c.key false).map .input⟩
      ⟨nb * c.block + c.key, msg.map .input ++ key.map .input⟩ ⟨rfl, by simp, by simp, by simp⟩ () g0 t0
    rw [hg, Option.some.injEq, Prod.mk.injEq] at e1
    obtain ⟨_, rfl⟩ := e1
    exact ⟨w', e2, e3, e4⟩
  obtain ⟨suf, s1, _, s3⟩ := nat (List.replicate c.key false) (List.replicate (nb * c.block) false) (by simp) (by simp) g0
    (by rw [List.length_replicate]; exact t0)
  refine ⟨suf, s3, ?_⟩
  intro key msg hk hm
  obtain ⟨ct, pl, g, h1, h2, h3, h4, h5⟩ := run key msg hk hm
  obtain ⟨suf', u1, u2, _⟩ := nat key msg hk hm g h2
  have hsuf : suf' = suf := List.append_cancel_left (u1.symm.trans s1)
  subst hsuf
  refine ⟨ct, pl, h1, ?_, by rw [← u2]; exact h3, h4, h5, ?_⟩
  · rw [lmProgram_eq hk, h2, Option.map_some, u2]
  · have := lmTail_cnt c p nb _ _ _ _ _ h2
    rw [Gen.ands, u2, Gen.ands] at this
    rw [this]
    have h0 : ∀ l : List Bool, (andTriples 0 (l.map BOp.input)).length = 0 := by
      intro l
      have : ∀ n, (andTriples n (l.map BOp.input)).length = 0 := by
        induction l with
        | nil => intro n; rfl
        | cons b l ih => intro n; simpa [andTriples] using ih (n + 1)
      exact this 0
    simp only
    rw [← List.map_append, h0, Nat.zero_add]

/-- With the constants of the code: 495 AND gates per block. -/
example (p : LmParams) (hp : p.Sized lmCfg) (key msg : List Bool) (hk : key.length = 128) (hm : msg.length = 10 * 64) :
    ∃ ops ct pl, lmProgram lmCfg p key msg 10 = some ops ∧ lmClear lmCfg p key msg 10 = some ct ∧ plainRun ops = some pl ∧
      pl.outs = ct ∧ (andTriples 0 ops).length = 4950 := by
  obtain ⟨suf, _, h⟩ := C56_circuit lmCfg (by decide) p hp 10
  obtain ⟨ct, pl, h1, h2, h3, h4, _, h6⟩ := h key msg hk hm
  exact ⟨_, ct, pl, h2, h1, h3, h4, h6⟩

section
variable {F : Type} [Field F] [BlockField F] [DecidableEq F]

/-- C56 (honest session). Both parties of an honest session of the program obtain the ciphertext of the clear version and no
cheating is recorded. -/
theorem C56_session (c : LmCfg) (hc : 3 * c.boxes ≤ c.block ∧ 1 ≤ c.block ∧ 1 ≤ c.key) (p : LmParams) (hp : p.Sized c) (nb : Nat)
    (key msg : List Bool) (hk : key.length = c.key) (hm : msg.length = nb * c.block) (e : BEnv F) (he : e.Good) (ht : 0 < e.threads)
    (htc : e.threads ≤ e.checkSz) (hps : 0 < e.polySz)
    (hlast : lastBatch (nb * (c.rounds * (c.boxes * 3))) e.checkSz = 0 ∨
      e.threads ≤ lastBatch (nb * (c.rounds * (c.boxes * 3))) e.checkSz) :
    ∃ ops ct P ms fin V, lmProgram c p key msg nb = some ops ∧ lmClear c p key msg nb = some ct ∧
      prvSession e ops = some (P, ms, fin) ∧ verSession e ops ms fin = some V ∧ P.outs = ct ∧ V.outs = ct ∧ cheated V = false := by
  obtain ⟨suf, _, h⟩ := C56_circuit c hc p hp nb
  obtain ⟨ct, pl, h1, h2, h3, h4, h5, h6⟩ := h key msg hk hm
  have hsome := (C07_completes e he ht htc hps (msg.map .input ++ key.map .input ++ suf)).2 ⟨by rw [h3]; rfl, by rw [h6]; exact hlast⟩
  obtain ⟨⟨P, ms, fin⟩, hP⟩ := Option.isSome_iff_exists.1 hsome
  obtain ⟨V, pl', v1, v2, v3, v4, _, v6⟩ := C07_honest_session e he _ P ms fin hP
  rw [h3, Option.some.injEq] at v2
  subst v2
  exact ⟨_, ct, P, ms, fin, V, h2, h1, hP, v1, v4.trans h4, v3.trans h4, v6 (by rw [h5]; simp)⟩

theorem inputs_split : ∀ (bs : List Bool) (suf ops' : List BOp), (∀ b, BOp.input b ∉ suf) →
    List.Forall₂ BOp.same (bs.map .input ++ suf) ops' → ∃ bs' : List Bool, bs'.length = bs.length ∧ ops' = bs'.map .input ++ suf
  | [], suf, ops', hs, h => by
    refine ⟨[], rfl, ?_⟩
    have h' : List.Forall₂ BOp.same suf ops' := h
    simp only [List.map_nil, List.nil_append]
    clear h
    induction h' with
    | nil => rfl
    | @cons a b l l' h1 _ ih =>
      rw [ih (fun b hb => hs b (List.mem_cons_of_mem _ hb))]
      cases a with
      | input x => exact absurd (List.mem_cons_self) (hs x)
      | _ =>
        simp only [BOp.same] at h1
        rw [h1]
  | b :: bs, suf, ops', hs, h => by
    rw [List.map_cons, List.cons_append] at h
    cases h with
    | @cons _ o _ l' h1 h2 =>
      obtain ⟨bs', e1, e2⟩ := inputs_split bs suf l' hs h2
      cases o with
      | input x => exact ⟨x :: bs', by simp [e1], by rw [e2]; rfl⟩
      | _ => simp [BOp.same] at h1

/-- C56 (knowledge). Whatever a prover sends in a session of the program: if the session is accepted for at least three values of
`Delta`, with challenges outside the small bad sets, the batches covered by the check and no hash collision, then there are a key and
messages whose clear encryption is exactly what was revealed to the verifier. -/
theorem C56_knowledge (c : LmCfg) (hc : 3 * c.boxes ≤ c.block ∧ 1 ≤ c.block ∧ 1 ≤ c.key) (p : LmParams) (hp : p.Sized c) (nb : Nat)
    (key₀ msg₀ : List Bool) (hk : key₀.length = c.key) (hm : msg₀.length = nb * c.block) (ops : List BOp)
    (hops : lmProgram c p key₀ msg₀ nb = some ops) (v : BView F) (ms : List (BMsg F)) (fin : BFin F)
    (s : ComSt F) (hs : comSession v ops ms fin = some s)
    (hseeds : ∀ r ∈ s.andLog, ∀ tasks, splitTasks r.gates.length v.threads = some tasks →
      errSum r.gates r.seeds tasks 0 = 0 → ∀ t ∈ tasks, ∀ g ∈ taskSlice r.gates t, g.Correct)
    (hcover : ∀ r ∈ s.andLog, r.gates.length % v.threads < r.gates.length / v.threads)
    (hpseeds : ∀ r ∈ s.polyLog, chiSum r.seed (r.polys.map (fun s => (bit (s.map lsb).eval : F))) = 0 →
      ∀ s ∈ r.polys, (s.map lsb).eval = false)
    (D : Finset F) (hD3 : 3 ≤ D.card)
    (hD : ∀ d ∈ D, lsb d = true ∧ ∃ V, verSession (v.env d) ops ms fin = some V ∧ cheated V = false)
    (hhash : ∀ d1 ∈ D, ∀ d2 ∈ D, ∀ V1 V2, verSession (v.env d1) ops ms fin = some V1 →
      verSession (v.env d2) ops ms fin = some V2 → v.hash V1.digest = v.hash V2.digest → V1.digest = V2.digest) :
    ∃ key msg : List Bool, key.length = c.key ∧ msg.length = nb * c.block ∧
      ∀ d ∈ D, ∀ V, verSession (v.env d) ops ms fin = some V → lmClear c p key msg nb = some V.outs := by
  obtain ⟨suf, hsuf, h⟩ := C56_circuit c hc p hp nb
  obtain ⟨_, _, _, h2, _⟩ := h key₀ msg₀ hk hm
  rw [hops, Option.some.injEq] at h2
  obtain ⟨ops', pl, e1, e2, _, e4⟩ := C62_extraction v ops ms fin s hs hseeds hcover hpseeds D hD3 hD hhash
  rw [h2, ← List.map_append] at e1
  obtain ⟨bs, hb1, hb2⟩ := inputs_split _ suf ops' hsuf e1
  rw [List.length_append, hm, hk] at hb1
  have hbs : bs = bs.take (nb * c.block) ++ bs.drop (nb * c.block) := (List.take_append_drop _ _).symm
  obtain ⟨ct, pl', g1, _, g3, g4, _⟩ := h (bs.drop (nb * c.block)) (bs.take (nb * c.block)) (by simp [hb1]) (by simp [hb1])
  rw [hb2, hbs, List.map_append, g3, Option.some.injEq] at e2
  subst e2
  refine ⟨bs.drop (nb * c.block), bs.take (nb * c.block), by simp [hb1], by simp [hb1], ?_⟩
  intro d hd V hV
  rw [e4 d hd V hV, g1, g4]

end

/-! ### when is the cipher a permutation? -/

/-- Bits of a block as a function on all numbers. -/
def extB {n : Nat} (x : Fin n → Bool) (i : Nat) : Bool := if h : i < n then x ⟨i, h⟩ else false

theorem extB_lt {n : Nat} (x : Fin n → Bool) {i : Nat} (h : i < n) : extB x i = x ⟨i, h⟩ := by
  rw [extB, dif_pos h]

theorem inj_of_comp {α : Type} [Finite α] (fs : Nat → α → α) (f0 : α → α) (h0 : Function.Bijective f0) (n : Nat)
    (it : Nat → α → α) (hit0 : it 0 = f0) (hits : ∀ r, it (r + 1) = fs r ∘ it r) :
    Function.Injective (it n) ↔ ∀ r < n, Function.Injective (fs r) := by
  induction n with
  | zero =>
    rw [hit0]
    exact ⟨fun _ r hr => absurd hr (by omega), fun _ => h0.1⟩
  | succ n ih =>
    rw [hits]
    constructor
    · intro h
      have h1 : Function.Injective (it n) := h.of_comp
      have h2 : Function.Surjective (it n) := Finite.injective_iff_surjective.1 h1
      have h3 : Function.Injective (fs n) := by
        intro x y hxy
        obtain ⟨a, rfl⟩ := h2 x
        obtain ⟨b, rfl⟩ := h2 y
        rw [h hxy]
      intro r hr
      rcases Nat.lt_succ_iff_lt_or_eq.1 hr with hr | rfl
      · exact ih.1 h1 r hr
      · exact h3
    · intro h
      exact (h n (by omega)).comp (ih.2 (fun r hr => h r (by omega)))

/-- C56 (when the cipher is a permutation). For every key, encryption of one block is injective if and only if every linear layer is
injective. The code fills the matrices with random bits and does not test this (the reference implementation redraws). -/
theorem C56_permutation (c : LmCfg) (hc : 3 * c.boxes ≤ c.block) (q : LowMCParams) (k : Nat → Bool) :
    (∀ x y : Fin c.block → Bool, (∀ i < c.block, specRounds q c.boxes c.block c.key k (extB x) c.rounds i =
      specRounds q c.boxes c.block c.key k (extB y) c.rounds i) → x = y) ↔
    ∀ r < c.rounds, ∀ x y : Fin c.block → Bool, (∀ j < c.block, specLin q c.block r (extB x) j = specLin q c.block r (extB y) j) →
      x = y := by
  have hparity : ∀ (r : Nat) (x y : Nat → Bool), (∀ i < c.block, x i = y i) → ∀ j, specLin q c.block r x j = specLin q c.block r y j := by
    intro r x y h j
    exact parity_congr _ (fun i hi => by rw [h i hi])
  -- rounds as maps of blocks
  let sub : (Fin c.block → Bool) → (Fin c.block → Bool) := fun x i => specSubst c.boxes (extB x) i
  let lin : Nat → (Fin c.block → Bool) → (Fin c.block → Bool) := fun r x i => specLin q c.block r (extB x) i
  let add : Nat → (Fin c.block → Bool) → (Fin c.block → Bool) := fun r x i =>
    (x i ^^ q.rc r i) ^^ specRoundKey q c.key k (r + 1) i
  let it : Nat → (Fin c.block → Bool) → (Fin c.block → Bool) := fun r x i => specRounds q c.boxes c.block c.key k (extB x) r i
  have hsub : Function.Injective sub := by
    intro x y hxy
    funext i
    have h1 : ∀ j < c.block, specSubst c.boxes (extB x) j = specSubst c.boxes (extB y) j := fun j hj => congrFun hxy ⟨j, hj⟩
    have h2 := invSubst_congr hc h1 i.1 i.2
    rw [(subst_inv _ _).2, (subst_inv _ _).2, extB_lt _ i.2, extB_lt _ i.2] at h2
    exact h2
  have hadd : ∀ r, Function.Injective (add r) := by
    intro r x y hxy
    funext i
    have := congrFun hxy i
    simp only [add] at this
    revert this
    cases x i <;> cases y i <;> cases q.rc r i <;> cases specRoundKey q c.key k (r + 1) i <;> decide
  have h0 : Function.Bijective (it 0) := by
    apply Finite.injective_iff_bijective.1
    intro x y hxy
    funext i
    have := congrFun hxy i
    simp only [it, specRounds] at this
    rw [extB_lt _ i.2, extB_lt _ i.2] at this
    revert this
    show (x i ^^ _) = (y i ^^ _) → _
    cases x i <;> cases y i <;> cases specRoundKey q c.key k 0 i <;> decide
  have hstep : ∀ r, it (r + 1) = (add r ∘ lin r ∘ sub) ∘ it r := by
    intro r
    funext x i
    simp only [it, specRounds, Function.comp, add]
    congr 2
    refine hparity r _ _ ?_ _
    intro j hj
    rw [extB_lt _ hj]
    refine specSubst_congr hc ?_ j hj
    intro l hl
    rw [extB_lt _ hl]
  have key := inj_of_comp (fun r => add r ∘ lin r ∘ sub) (it 0) h0 c.rounds it rfl hstep
  have e1 : Function.Injective (it c.rounds) ↔ (∀ x y : Fin c.block → Bool, (∀ i < c.block,
      specRounds q c.boxes c.block c.key k (extB x) c.rounds i = specRounds q c.boxes c.block c.key k (extB y) c.rounds i) → x = y) := by
    constructor
    · intro h x y hxy
      exact h (funext (fun i => hxy i.1 i.2))
    · intro h x y hxy
      exact h x y (fun i hi => congrFun hxy ⟨i, hi⟩)
  have e2 : ∀ r, Function.Injective (add r ∘ lin r ∘ sub) ↔ (∀ x y : Fin c.block → Bool,
      (∀ j < c.block, specLin q c.block r (extB x) j = specLin q c.block r (extB y) j) → x = y) := by
    intro r
    have hs2 : Function.Surjective sub := Finite.injective_iff_surjective.1 hsub
    constructor
    · intro h x y hxy
      obtain ⟨a, rfl⟩ := hs2 x
      obtain ⟨b, rfl⟩ := hs2 y
      have : lin r (sub a) = lin r (sub b) := funext (fun i => hxy i.1 i.2)
      have hab : a = b := h (by simp only [Function.comp]; rw [this])
      rw [hab]
    · intro h
      refine (hadd r).comp (Function.Injective.comp ?_ hsub)
      intro x y hxy
      exact h x y (fun j hj => congrFun hxy ⟨j, hj⟩)
  rw [← e1, key]
  exact forall_congr' (fun r => forall_congr' (fun _ => e2 r))

/-- With a linear layer that maps everything to zero two messages get the same ciphertext. -/
example : ¬ ∀ x y : Fin 64 → Bool, (∀ i < 64, specRounds ⟨fun _ _ _ => false, fun _ _ => true, fun _ _ _ => true⟩ 15 64 128
    (fun _ => true) (extB x) 11 i = specRounds ⟨fun _ _ _ => false, fun _ _ => true, fun _ _ _ => true⟩ 15 64 128
    (fun _ => true) (extB y) 11 i) → x = y := by
  intro h
  have := (C56_permutation lmCfg (by decide) ⟨fun _ _ _ => false, fun _ _ => true, fun _ _ _ => true⟩ (fun _ => true)).1 h 0
    (by decide) (fun _ => true) (fun _ => false) (by
      intro j _
      exact parity_congr _ (fun i _ => rfl))
  have := congrFun this ⟨0, by decide⟩
  simp at this

end EmpZk
