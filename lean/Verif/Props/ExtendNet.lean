/-
C88: VOLE preprocessing and extensions over the network with any number of threads.
-/
import Verif.Lemmas.SetupNet

namespace EmpZk

/-! ### specification -/

/-- All schedules of all threads of both parties are finite, of one and the same number of steps, none ends early (no deadlock, no
undefined operation), and all end with the results `a` and `b`, nothing left on any channel. -/
def EverySchedule {T : Nat} {α β : Type} (P : Par T α) (Q : Par T β) (a : α) (b : β) : Prop :=
  ∃ n, ∀ m s, ParDuo.Reach m (ParDuo.start P Q) s →
    m ≤ n ∧ ParDuo.Reach (n - m) s (ParDuo.start (.done a) (.done b)) ∧ (m < n → ∃ s', ParDuo.Step s s') ∧
    (m = n → s = ParDuo.start (.done a) (.done b))

/-- What both parties bring to one extension of a chain. The precomputed OTs: `dataS k` and `dataS k ^ D` are the sender's blocks, `dataR k`
is one of them, its lowest bit says which. -/
structure VStage where
  cfg : ExtCfg
  off : Nat
  seed : Nat → U128
  memS : Nat → Mem
  memR : Nat → Mem
  b : Nat → Nat → Bool
  sd : U128
  dataS : Nat → U128
  dataR : Nat → U128
  D : U128
  bits0 : Nat → Bool

/-- The sender's part (the precomputed OTs: `sendPre`, preot.h:38-44). -/
def VStage.send (H : U128 → U128) (s : VStage) : StageSend :=
  ⟨s.cfg, s.off, s.seed, s.memS, sendPre H s.cfg.levels s.cfg.t s.dataS s.D s.bits0⟩

/-- The receiver's part. -/
def VStage.recv (H : U128 → U128) (s : VStage) : StageRecv :=
  ⟨s.cfg, s.off, s.b, s.memR, recvPre H s.cfg.levels s.cfg.t s.dataR, s.sd⟩

/-- The sizes are in range and the OTs are correlated. -/
def VStage.Ok (s : VStage) : Prop :=
  0 < s.cfg.levels ∧ 0 < s.cfg.k ∧ s.cfg.k < 2 ^ 31 ∧
  ∀ k, k < s.cfg.levels * s.cfg.t → s.dataR k = s.dataS k ^^^ (if (s.dataR k).getLsbD 0 then s.D else 0)

/-- Every extension finds the `M` correlations it uses: `m` are there at the beginning, `n - off` after an extension. -/
def Fits : Nat → List VStage → Prop
  | _, [] => True
  | m, s :: l => s.cfg.M ≤ m ∧ Fits (s.cfg.n - s.off) l

/-- Valid correlations: `n` pairs. -/
def ValidBatch (delta : U128) (n : Nat) (K M : List U128) : Prop :=
  K.length = n ∧ M.length = n ∧ List.Forall₂ (fun k m => Auth (low64 delta) m k) K M

/-- One batch of valid correlations for every extension. -/
def ValidBatches (delta : U128) : List VStage → List (List U128) → List (List U128) → Prop
  | [], [], [] => True
  | s :: l, K :: Ks, M :: Ms => ValidBatch delta s.cfg.n K M ∧ ValidBatches delta l Ks Ms
  | _, _, _ => False

/-! ### theorems -/

/-- C88. One extension over the network: for all valid correlations (`M` of them) and valid precomputed OTs, for every number of threads
and every schedule of all threads of both parties, the parties never wait for each other for ever, no undefined operation is performed,
every schedule has the same number of steps, and both end with the same result: `n` correlations each, which are valid; the
receiver's check passes; nothing is left on any channel. -/
theorem C88_extension (f : ExtFns) (c : ExtCfg) (T : Nat) (hl : 0 < c.levels) (hk : 0 < c.k) (hk2 : c.k < 2 ^ 31) (delta : U128)
    (hd : Canon (low64 delta)) (key mac : Nat → U128) (h : ∀ i, i < c.M → Auth (low64 delta) (mac i) (key i)) (seed : Nat → U128)
    (memS memR : Nat → Mem) (b : Nat → Nat → Bool) (sd : U128) (H : U128 → U128) (dataS dataR : Nat → U128) (D : U128)
    (hcot : ∀ k, k < c.levels * c.t → dataR k = dataS k ^^^ (if (dataR k).getLsbD 0 then D else 0)) (bits0 : Nat → Bool) :
    ∃ K M : List U128, ValidBatch delta c.n K M ∧ extSendOut c seed memS key = some K ∧
      EverySchedule (extSendN f c T ⟨delta, seed, memS, key, sendPre H c.levels c.t dataS D bits0⟩)
        (extRecvN f c T ⟨b, memR, mac, recvPre H c.levels c.t dataR, sd⟩) K (some M) := by
  obtain ⟨K, M, h1, h2, h3, h4, h5⟩ :=
    coPar_extension f c T hl hk hk2 delta hd key mac h seed memS memR b sd H dataS dataR D hcot bits0
  exact ⟨K, M, ⟨h1, h2, h3⟩, h4, coPar_all h5⟩

theorem coPar_chain (f : ExtFns) (T : Nat) (H : U128 → U128) (delta : U128) (hd : Canon (low64 delta)) : ∀ (l : List VStage) (p q : List U128),
    (∀ s ∈ l, s.Ok) → Fits p.length l → List.Forall₂ (fun k m => Auth (low64 delta) m k) p q →
    ∃ Ks Ms, ValidBatches delta l Ks Ms ∧
      CoPar (chainSendN f T delta (l.map (VStage.send H)) p) (chainRecvN f T (l.map (VStage.recv H)) q) Ks (some Ms)
  | [], p, q, _, _, _ => ⟨[], [], trivial, CoPar.done _ _⟩
  | s :: l, p, q, hok, hf, h => by
    obtain ⟨hM, hf⟩ := hf
    obtain ⟨o1, o2, o3, o4⟩ := hok s List.mem_cons_self
    have hpq := h.length_eq
    have hm : ∀ i, i < s.cfg.M → Auth (low64 delta) (ofList q i) (ofList p i) := by
      intro i hi
      have a := ofList_get p i (by omega)
      have b := ofList_get q i (by omega)
      have := (List.forall₂_iff_get.1 h).2 i (by omega) (by omega)
      rw [List.getElem?_eq_getElem (by omega), Option.some.injEq] at a b
      rw [← a, ← b]
      exact this
    obtain ⟨K, M, h1, h2, h3, _, h5⟩ := coPar_extension f s.cfg T o1 o2 o3 delta hd (ofList p) (ofList q) hm s.seed s.memS s.memR
      s.b s.sd H s.dataS s.dataR s.D o4 s.bits0
    obtain ⟨Ks, Ms, g1, g2⟩ := coPar_chain f T H delta hd l (K.drop s.off) (M.drop s.off) (fun x hx => hok x (List.mem_cons_of_mem _ hx))
      (by rw [List.length_drop, h1]; exact hf) (List.forall₂_drop s.off h3)
    refine ⟨K :: Ks, M :: Ms, ⟨⟨h1, h2, h3⟩, g1⟩, ?_⟩
    simp only [List.map_cons, chainSendN, chainRecvN, VStage.send, VStage.recv]
    rw [if_neg (by omega), if_neg (by omega)]
    refine CoPar.bind h5 ?_
    refine CoPar.bind g2 ?_
    exact CoPar.done _ _

/-- C88. Any chain of extensions, each fed by the one before: for all randomness of all of them, every number of threads and every
schedule, both parties complete all of them and all batches are valid. -/
theorem C88_chain (f : ExtFns) (T : Nat) (H : U128 → U128) (delta : U128) (hd : Canon (low64 delta)) (l : List VStage) (p q : List U128)
    (hok : ∀ s ∈ l, s.Ok) (hf : Fits p.length l) (h : List.Forall₂ (fun k m => Auth (low64 delta) m k) p q) :
    ∃ Ks Ms, ValidBatches delta l Ks Ms ∧
      EverySchedule (chainSendN f T delta (l.map (VStage.send H)) p) (chainRecvN f T (l.map (VStage.recv H)) q) Ks (some Ms) := by
  obtain ⟨Ks, Ms, h1, h2⟩ := coPar_chain f T H delta hd l p q hok hf h
  exact ⟨Ks, Ms, h1, coPar_all h2⟩

/-- C88. The whole preprocessing from the OTs on: base correlations with their check, then any chain of extensions. For every secret below
`p`, all randomness, every number of threads and every schedule, both parties complete it, no check fails, and all batches are valid
correlations under the secret. -/
theorem C88_protocol (f : ExtFns) (T : Nat) (H : U128 → U128) (delta : U128) (hd : delta.toNat < pN) (g0 g1 gb0 gb1 : Nat → Nat → W)
    (size : Nat) (hs : 0 < size) (rx : List W) (hrx : rx.length = size + 1) (rseed : W) (l : List VStage) (hok : ∀ s ∈ l, s.Ok)
    (hf : Fits size l) :
    ∃ Ks Ms, ValidBatches delta l Ks Ms ∧
      EverySchedule
        (volePartySendN f T delta (fun i j => if delta.toNat.testBit i then g1 i j else g0 i j)
          (fun i j => if delta.toNat.testBit i then gb1 i j else gb0 i j) size rseed (l.map (VStage.send H)))
        (volePartyRecvN f T g0 g1 gb0 gb1 size rx (l.map (VStage.recv H))) (some Ks) (some Ms) := by
  obtain ⟨K, M, h1, h2, h3, h4⟩ := co_base delta hd g0 g1 gb0 gb1 size hs rx hrx rseed
  have hd' : Canon (low64 delta) := by
    unfold Canon low64
    rw [BitVec.toNat_setWidth, Nat.mod_eq_of_lt (Nat.lt_trans hd (by decide))]
    exact hd
  obtain ⟨Ks, Ms, g1, g2⟩ := coPar_chain f T H delta hd' l K M hok (by rw [h1]; exact hf) h3
  refine ⟨Ks, Ms, g1, coPar_all ?_⟩
  unfold volePartySendN volePartyRecvN
  refine CoPar.bind (CoPar.one h4) ?_
  have := CoPar.bind g2 (f := fun r => Par.done (some r)) (g := fun r => Par.done r) (CoPar.done _ _)
  have e : ∀ P : Par (T + 1) (Option (List (List U128))), P.bind (fun r => Par.done r) = P := by
    intro P
    induction P with
    | done a => rfl
    | fail => rfl
    | run ps k ih => simp only [Par.bind, ih]
  rw [e] at this
  exact this

/-- C88. The sizes of the library fit: `1821` base correlations (vole_triple.h:174), then the two extensions of the setup, then any number of
main extensions. -/
theorem C88_sizes (s0 s1 : VStage) (ms : List VStage) (h0 : s0.cfg.levels = 4 ∧ s0.cfg.t = 600 ∧ s0.cfg.k = 1220 ∧ s0.off = 0)
    (h1 : s1.cfg.levels = 6 ∧ s1.cfg.t = 2600 ∧ s1.cfg.k = 5060 ∧ s1.off = 0)
    (hm : ∀ s ∈ ms, s.cfg.levels = 11 ∧ s.cfg.t = 4965 ∧ s.cfg.k = 158000 ∧ s.off = s.cfg.n - s.cfg.M) :
    Fits 1821 (s0 :: s1 :: ms) := by
  have main : ∀ (ms : List VStage), (∀ s ∈ ms, s.cfg.levels = 11 ∧ s.cfg.t = 4965 ∧ s.cfg.k = 158000 ∧ s.off = s.cfg.n - s.cfg.M) →
      ∀ n, 162966 ≤ n → Fits n ms := by
    intro ms
    induction ms with
    | nil => intro _ _ _; trivial
    | cons s l ih =>
      intro hm n hn
      obtain ⟨a, b, c, d⟩ := hm s List.mem_cons_self
      refine ⟨by simp only [ExtCfg.M, b, c]; omega, ih (fun x hx => hm x (List.mem_cons_of_mem _ hx)) _ ?_⟩
      rw [d]
      simp only [ExtCfg.M, ExtCfg.n, a, b, c]
      omega
  obtain ⟨a, b, c, d⟩ := h0
  obtain ⟨a', b', c', d'⟩ := h1
  refine ⟨by simp only [ExtCfg.M, b, c]; omega, ?_, main ms hm _ ?_⟩
  · simp only [ExtCfg.M, ExtCfg.n, a, b, d, b', c']; omega
  · simp only [ExtCfg.n, a', b', d']; omega

/-! ### concrete cases -/

/-- Eight trees of four leaves, secret of five positions, feeding itself; the OT block `k` is `16 k`, the receiver's choices alternate. -/
def stageEx (r : Nat) : VStage :=
  { cfg := ⟨2, 8, 5, 2, fun x => x + 3, fun x => x * 5 + 1, fun i j => BitVec.ofNat 32 (i * 7 + j)⟩
    off := 18
    seed := fun i => BitVec.ofNat 128 (100 * r + i)
    memS := fun _ _ => 0
    memR := fun _ _ => 1
    b := fun i j => (i + j) % 2 == 0
    sd := BitVec.ofNat 128 r
    dataS := fun k => BitVec.ofNat 128 (16 * k)
    dataR := fun k => BitVec.ofNat 128 (16 * k + (k % 2) * 7)
    D := 7
    bits0 := fun _ => false }

theorem stageEx_ok (r : Nat) : (stageEx r).Ok := by
  have h : ∀ k : Fin 16, BitVec.ofNat 128 (16 * k.1 + (k.1 % 2) * 7) =
      BitVec.ofNat 128 (16 * k.1) ^^^ (if (BitVec.ofNat 128 (16 * k.1 + (k.1 % 2) * 7)).getLsbD 0 then (7 : U128) else 0) := by
    decide +kernel
  exact ⟨(by decide : 0 < 2), (by decide : 0 < 5), (by decide : 5 < 2 ^ 31), fun k hk => h ⟨k, hk⟩⟩

/-- The hypotheses of `C88_protocol` are met: the secret 13, fourteen base correlations, three extensions with three threads. -/
example : ∃ Ks Ms, ValidBatches 13 [stageEx 0, stageEx 1, stageEx 2] Ks Ms ∧
      EverySchedule
        (volePartySendN ⟨fun s i => s + BitVec.ofNat 128 i, fun s => s.setWidth 64, fun w => w.setWidth 128 + 1⟩ 2 13
          (fun i j => if (13 : U128).toNat.testBit i then BitVec.ofNat 64 (i * i + j) else BitVec.ofNat 64 (i + 3 * j))
          (fun i j => if (13 : U128).toNat.testBit i then BitVec.ofNat 64 (i + j) else BitVec.ofNat 64 (7 * i)) 14 9
          ([stageEx 0, stageEx 1, stageEx 2].map (VStage.send fun x => x * 3)))
        (volePartyRecvN ⟨fun s i => s + BitVec.ofNat 128 i, fun s => s.setWidth 64, fun w => w.setWidth 128 + 1⟩ 2
          (fun i j => BitVec.ofNat 64 (i + 3 * j)) (fun i j => BitVec.ofNat 64 (i * i + j)) (fun i _ => BitVec.ofNat 64 (7 * i))
          (fun i j => BitVec.ofNat 64 (i + j)) 14 ((List.range 15).map fun i => BitVec.ofNat 64 (i + 5))
          ([stageEx 0, stageEx 1, stageEx 2].map (VStage.recv fun x => x * 3))) (some Ks) (some Ms) :=
  C88_protocol _ 2 (fun x => x * 3) 13 (by decide) (fun i j => BitVec.ofNat 64 (i + 3 * j)) (fun i j => BitVec.ofNat 64 (i * i + j))
    (fun i _ => BitVec.ofNat 64 (7 * i)) (fun i j => BitVec.ofNat 64 (i + j)) 14 (by decide)
    ((List.range 15).map fun i => BitVec.ofNat 64 (i + 5)) rfl 9 [stageEx 0, stageEx 1, stageEx 2]
    (by intro s hs
        simp only [List.mem_cons, List.not_mem_nil, or_false] at hs
        rcases hs with rfl | rfl | rfl <;> exact stageEx_ok _)
    ⟨by decide, by decide, by decide, trivial⟩

/-- Eight trees, three threads: two threads of two trees and one of four. -/
example : taskTrees 8 3 0 = [0, 1] ∧ taskTrees 8 3 1 = [2, 3] ∧ taskTrees 8 3 2 = [4, 5, 6, 7] := by decide

/-- C88. Every tree is checked with the digest of the seed of the thread that has built it, and that thread talks on its own channel. -/
theorem C88_tree_digest (f : ExtFns) (treeN T : Nat) (sd : U128) (j i : Nat) (hi : i ∈ taskTrees treeN (T + 1) j) :
    treeDigest f treeN (T + 1) sd i = f.hashSeed (f.expand sd j) ∧ mpfssChannel treeN (T + 1) j = some j := by
  obtain ⟨h1, h2⟩ := treeTask_spec treeN T j i hi
  rw [treeDigest, h1]
  exact ⟨rfl, h2⟩

/-- A tree of the last thread. -/
example (f : ExtFns) (sd : U128) : treeDigest f 8 3 sd 6 = f.hashSeed (f.expand sd 2) := (C88_tree_digest f 8 2 sd 2 6 (by decide)).1

/-- With fewer trees than threads the last thread does everything. -/
example : taskTrees 3 4 0 = [] ∧ taskTrees 3 4 3 = [0, 1, 2] := by decide

end EmpZk
