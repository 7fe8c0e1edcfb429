/-
Helper lemmas for C94: the string behind the challenge determines the committed wires when no batch is checked before it.
-/
import Verif.Spec.RamChal
import Verif.Lemmas.Rom
import Verif.Lemmas.RomGame
import Verif.Props.F2kProduct

namespace EmpZk

section
variable {F : Type} [Field F] [BlockField F] [DecidableEq F] {ne : NetEnv F} {v : BView F} {ops : List BOp}

omit [DecidableEq F] in
theorem chalCallsV_at (d : F) : chalCallsV (ne.at v d) ops = chalCallsV (ne.at v 0) ops := by
  simp only [chalCallsV, runCallsV_at d]
  rfl

omit [Field F] [BlockField F] [DecidableEq F] in
theorem chal_one (hfit : ops.countP BOp.isAnd ≤ ne.e.checkSz) (hext : ∀ u n, rcvDigs (ne.extV u n) = 0) : rcvDigs (chalCallsV ne ops) = 1 := by
  rw [chalCallsV, rcvDigs_append, rcvDigs_append, hext, one_batch_run hext ops _ (by simpa using hfit)]
  rfl

/-- The same string and the same secret: the same wires. -/
theorem chal_wires {S : Nat} {junk1 junk2 W1 W2 w1 w2 : List Byte} {r1 r2 : RcvSt}
    (h1 : rcvRun S (rcvInit S junk1) W1 (chalCallsV ne ops) = .ok (r1, w1)) (h2 : rcvRun S (rcvInit S junk2) W2 (chalCallsV ne ops) = .ok (r2, w2))
    (hd : r1.digests = r2.digests) {x1 x2 : List Byte} {V1 V2 : VerNet F} (e1 : chalV ne ops r1.bits r1.datas r1.digests = some (x1, V1))
    (e2 : chalV ne ops r2.bits r2.datas r2.digests = some (x2, V2)) : V1.st.wires = V2.st.wires := by
  have hc : chalCallsV ne ops = (ne.extV 0 1 ++ (runCallsV ne ⟨1, 0, 0, 0⟩ ops ++ [.flush])) ++ .hash :: [] := by
    simp [chalCallsV]
  rw [hc] at h1 h2
  obtain ⟨nb, k1, ⟨t1, k2⟩, ⟨t2, k3⟩⟩ := rcvRun_digests [] _ _ rfl h1 h2 ⟨rfl, rfl⟩ ⟨rfl, rfl⟩ rfl hd
  simp only [rcvInit, List.nil_append] at k2 k3
  simp only [chalV, Option.bind_eq_bind, Option.bind_eq_some_iff] at e1 e2
  obtain ⟨a0, a1, b0, a2, a3⟩ := e1
  obtain ⟨a0', a1', b0', a2', a3'⟩ := e2
  have hs : SameN (rcvBits (ne.extV 0 1) + (rcvBits (runCallsV ne ⟨1, 0, 0, 0⟩ ops) + 0)) (⟨VerSt.init, r1.bits, r1.datas, r1.digests, []⟩ : VerNet F)
      ⟨VerSt.init, r2.bits, r2.datas, r2.digests, []⟩ := by
    refine ⟨⟨rfl, rfl, rfl, rfl, rfl, rfl, rfl, rfl, rfl, rfl⟩, nb, t1, t2, ?_, k2.symm, k3.symm⟩
    rw [k1, rcvBits_append, rcvBits_append]
    rfl
  obtain ⟨s1, q1, q2⟩ := hs.rcot a1 a1'
  have s2 := (twin_netRun (sd := ne.seeds) ops (k := 0) (a := a0) (b := a0') (by rw [q1]; exact s1) a2 a2').1
  have h := s2.1.wires
  have f : ∀ {x : List Byte} {u V : VerNet F}, VerNet.hash { u with calls := u.calls ++ [.flush] } = some (x, V) → V.st = u.st := by
    intro x u V h
    unfold VerNet.hash at h
    split at h
    · cases h
    · simp only [Option.some.injEq, Prod.mk.injEq] at h
      rw [← h.2]
  rw [f a3, f a3', h]

omit [DecidableEq F] in
/-- The keys for two secrets determine the committed wire. -/
theorem keyOf_inj {d1 d2 : F} (hd : d1 ≠ d2) {a b : F} (h1 : keyOf d1 a = keyOf d1 b) (h2 : keyOf d2 a = keyOf d2 b) : a = b := by
  unfold keyOf at h1 h2
  cases ha : lsb a <;> cases hb : lsb b <;> simp only [ha, hb, bit_true, bit_false, zero_mul, one_mul, add_zero] at h1 h2
  · exact h1
  · exact absurd (add_left_cancel (h1.symm.trans h2)) hd
  · exact absurd (add_left_cancel (h1.trans h2.symm)) hd
  · exact add_right_cancel h1

omit [DecidableEq F] in
theorem keyOf_map_inj {d1 d2 : F} (hd : d1 ≠ d2) : ∀ {a b : List F}, a.map (keyOf d1) = b.map (keyOf d1) → a.map (keyOf d2) = b.map (keyOf d2) → a = b
  | [], [], _, _ => rfl
  | [], _ :: _, h, _ => by simp at h
  | _ :: _, [], h, _ => by simp at h
  | x :: a, y :: b, h1, h2 => by
    simp only [List.map_cons, List.cons.injEq] at h1 h2
    rw [keyOf_inj hd h1.1 h2.1, keyOf_map_inj hd h1.2 h2.2]

/-- Two secrets. -/
theorem two_secrets [Fintype F] (hF : 2 < Fintype.card F) : ∃ d : F, lsb d = true ∧ d ≠ 1 := by
  classical
  by_contra h
  push Not at h
  have h1 : Fintype.card {d : F // lsb d = true} ≤ 1 := by
    rw [Fintype.card_le_one_iff]
    rintro ⟨a, ha⟩ ⟨b, hb⟩
    exact Subtype.ext ((h a ha).trans (h b hb).symm)
  have h2 := card_secrets (F := F)
  omega

/-- The committed wires are determined by the string. -/
theorem Committed.unique [Fintype F] (hF : 2 < Fintype.card F) {S : Nat} {junk1 junk2 W1 W2 w1 w2 : List Byte} {r1 r2 : RcvSt}
    (h1 : rcvRun S (rcvInit S junk1) W1 (chalCallsV (ne.at v 0) ops) = .ok (r1, w1))
    (h2 : rcvRun S (rcvInit S junk2) W2 (chalCallsV (ne.at v 0) ops) = .ok (r2, w2)) (hd : r1.digests = r2.digests) {x1 x2 : List Byte} {ws1 ws2 : List F}
    (c1 : Committed ne v ops r1.bits r1.datas r1.digests x1 ws1) (c2 : Committed ne v ops r2.bits r2.datas r2.digests x2 ws2) : ws1 = ws2 := by
  obtain ⟨d, hl, hne⟩ := two_secrets (F := F) hF
  have h : ∀ d, lsb d = true → ws1.map (keyOf d) = ws2.map (keyOf d) := by
    intro d hl
    obtain ⟨V1, e1, f1⟩ := c1 d hl
    obtain ⟨V2, e2, f2⟩ := c2 d hl
    rw [← chalCallsV_at (ne := ne) d] at h1 h2
    rw [← f1, ← f2]
    exact chal_wires h1 h2 hd e1 e2
  exact keyOf_map_inj hne (h d hl) (h 1 lsb_one)

/-- What the verifier does with what its endpoint has returned, in terms of messages and of the committed wires. -/
theorem chalV_any {I : Inbox} (h : I.has (chalCallsV (ne.at v 0) ops)) :
    ∃ (ms : List (BMsg F)) (chal : Nat → List Bool → Nat → F) (x : List Byte), ms.length = ops.length ∧
      (I.digs.drop (rcvDigs (ne.extV 0 1) + rcvDigs (runCallsV (ne.at v 0) ⟨1, 0, 0, 0⟩ ops)))[0]? = some x ∧
      ∀ d, (chalV (ne.at v d) ops I.bits I.datas I.digs).map (fun p => (p.1, p.2.st)) =
        (verRun ((v.wc chal).env d) VerSt.init ops ms).map (fun s => (x, s)) := by
  have h' : I.has (ne.extV 0 1 ++ (runCallsV (ne.at v 0) ⟨1, 0, 0, 0⟩ ops ++ [.flush, .hash])) := h
  obtain ⟨h1, h2⟩ := h'.append
  obtain ⟨h2, h3⟩ := h2.append
  obtain ⟨ms, ds, k1, _, k3⟩ := netRunV_any (ne := ne) (v := v) ops _ h2
  obtain ⟨x, k4, k5⟩ := hash_any (F := F) (I := (I.after (ne.extV 0 1)).after (runCallsV (ne.at v 0) ⟨1, 0, 0, 0⟩ ops)) h3
  refine ⟨ms, fun i _ => match ds[i]? with | some dg => ne.seeds dg | none => fun _ => 0, x, k1, ?_, ?_⟩
  · rw [← k4]
    simp only [Inbox.after, List.drop_drop]
  intro d
  have hrun := (k3 (fun i _ => match ds[i]? with | some dg => ne.seeds dg | none => fun _ => 0) VerSt.init rfl (by
    intro i dg hi t
    simp only [VerSt.init, Nat.zero_add, hi]) d ([] ++ ne.extV 0 1)).1
  have hr := rcot_any (ne := ne.at v d) (I := I) (VerSt.init : VerSt F) [] 0 1 h1
  have hr' : VerNet.rcot (ne.at v d) ⟨VerSt.init, I.bits, I.datas, I.digs, []⟩ 0 1 = some ((I.after (ne.extV 0 1)).ver VerSt.init ([] ++ ne.extV 0 1)) := hr
  rw [chalV, hr']
  simp only [Option.bind_eq_bind, Option.bind_some]
  rw [hrun]
  cases verRun ((v.wc _).env d) VerSt.init ops ms with
  | none => rfl
  | some s =>
    simp only [Option.map_some, Option.bind_some, Inbox.ver]
    have := k5 s (([] ++ ne.extV 0 1 ++ runCallsV (ne.at v 0) ⟨1, 0, 0, 0⟩ ops) ++ [.flush])
    simp only [Inbox.ver] at this
    rw [this]
    rfl

omit [DecidableEq F] in
/-- A list of rows has as many elements as there are rows. -/
theorem rowVals_length {ws : List F} : ∀ {rows : List (List Nat)} {A : List F}, rowVals ws rows = some A → A.length = rows.length := by
  intro rows
  induction rows with
  | nil => intro A h; cases h; rfl
  | cons r rows ih =>
    intro A h
    simp only [rowVals, List.mapM_cons, Option.bind_eq_bind, Option.bind_eq_some_iff, Option.pure_def, Option.some.injEq] at h
    obtain ⟨a, _, l, hl, rfl⟩ := h
    rw [List.length_cons, List.length_cons, ih hl]

end
end EmpZk
