/-
Helper lemmas for C93: the bad answers of the random function, and what happens when none is met.
-/
import Verif.Lemmas.RomBind
import Verif.Spec.ArithProcGame
import Verif.Props.BoolProtocol

namespace EmpZk

section
variable {F : Type} [Field F] [BlockField F] [DecidableEq F]

/-- The gates `g` belong to the string `x`: some bytes make the endpoint hash `x`, and commit to these gates. -/
def ComAt (ne : NetEnv F) (v : BView F) (ops : List BOp) (S : Nat) (junk : List Byte) (x : List Byte) (g : List (Gate F)) : Prop :=
  ∃ sd W r rest V ms fin ch cs, rcvRun S (rcvInit S junk) W (sessionCallsV (ne.at v 1) ops) = .ok (r, rest) ∧ r.digests = [x] ∧
    netSessionV ((ne.at v 1).ws sd) ops r.bits r.datas r.digests = some V ∧ comSession (v.wc ch) ops ms fin = some cs ∧
    V.st.transcript = cs.transcript ∧ cs.andLog.map ComAnd.gates = [g]

/-- The seeds `s` hide a wrong one among the gates belonging to `x`. -/
def BadAt (ne : NetEnv F) (v : BView F) (ops : List BOp) (S : Nat) (junk : List Byte) (x : List Byte) (s : Fin v.threads → F) : Prop :=
  ∃ g, ComAt ne v ops S junk x g ∧ ∃ tasks, splitTasks g.length v.threads = some tasks ∧ errSum g (extendSeeds s) tasks 0 = 0 ∧
    ∃ t ∈ tasks, ∃ a ∈ taskSlice g t, ¬ a.Correct

variable {ne : NetEnv F} {v : BView F} {ops : List BOp} {S : Nat} {junk : List Byte}

omit [Field F] [BlockField F] [DecidableEq F] in
theorem hasAnd (h : 0 < ops.countP BOp.isAnd) : ∃ i j, BOp.and i j ∈ ops := by
  obtain ⟨o, ho, hb⟩ := List.countP_pos_iff.1 h
  cases o with
  | and i j => exact ⟨i, j, ho⟩
  | _ => simp [BOp.isAnd] at hb

omit [DecidableEq F] [Field F] [BlockField F] in
/-- The calls do not depend on the challenges. -/
theorem sessionCallsV_ws (ne : NetEnv F) (sd : List Byte → Nat → F) (ops : List BOp) :
    sessionCallsV (ne.ws sd) ops = sessionCallsV ne ops := by
  have h1 : ∀ c o, cntStep (ne.ws sd) c o = cntStep ne c o := by intro c o; cases o <;> rfl
  have h2 : ∀ c o, callsV (ne.ws sd) c o = callsV ne c o := by intro c o; cases o <;> rfl
  have h3 : ∀ (ops : List BOp) c, runCallsV (ne.ws sd) c ops = runCallsV ne c ops := by
    intro ops
    induction ops with
    | nil => intro c; rfl
    | cons o os ih => intro c; simp only [runCallsV, h2, h1, ih]
  have h4 : cntStep (ne.ws sd) = cntStep ne := by funext c o; exact h1 c o
  simp only [sessionCallsV, h3, cntRun, h4]
  rfl

/-- They are unique. -/
theorem ComAt.unique (hand : 0 < ops.countP BOp.isAnd) (hfit : ops.countP BOp.isAnd ≤ v.checkSz) (hpoly : ∀ p, BOp.poly p ∉ ops)
    {x : List Byte} {g1 g2 : List (Gate F)} (h1 : ComAt ne v ops S junk x g1) (h2 : ComAt ne v ops S junk x g2) : g1 = g2 := by
  obtain ⟨sd1, W1, r1, rest1, V1, ms1, fin1, ch1, cs1, a1, a2, a3, a4, a5, a6⟩ := h1
  obtain ⟨sd2, W2, r2, rest2, V2, ms2, fin2, ch2, cs2, b1, b2, b3, b4, b5, b6⟩ := h2
  have hs := digests_twin (ne := (ne.at v 1).ws sd1) (sd := sd2) ops (hasAnd hand)
    (by rw [sessionCallsV_ws]; exact a1) (by rw [sessionCallsV_ws]; exact b1) (a2.trans b2.symm) a3 b3
  obtain ⟨c1, k1, t1, e1, e2, _, e3, e4, _⟩ := comSession_one (v := v.wc ch1) hand hfit hpoly a4
  obtain ⟨c2, k2, t2, f1, f2, _, f3, f4, _⟩ := comSession_one (v := v.wc ch2) hand hfit hpoly b4
  have ht : c1.transcript = c2.transcript := by rw [← e2, ← a5, hs.transcript, b5, f2]
  have hc := SameC.run ops (a := ComSt.init) (b := ComSt.init) ⟨rfl, rfl, rfl, rfl, rfl⟩ e1 f1 ht
  rw [hc.wires] at e3
  have := gates_unique e3 f3
  rw [e4] at a6
  rw [f4] at b6
  simp only [List.map_cons, List.map_nil, List.cons.injEq, and_true] at a6 b6
  rw [← a6, ← b6, this]

theorem ComAt.length (hand : 0 < ops.countP BOp.isAnd) (hfit : ops.countP BOp.isAnd ≤ v.checkSz) (hpoly : ∀ p, BOp.poly p ∉ ops)
    {x : List Byte} {g : List (Gate F)} (h : ComAt ne v ops S junk x g) : g.length = ops.countP BOp.isAnd := by
  obtain ⟨sd1, W1, r1, rest1, V1, ms1, fin1, ch1, cs1, a1, a2, a3, a4, a5, a6⟩ := h
  obtain ⟨c1, k1, t1, e1, e2, e5, e3, e4, _⟩ := comSession_one (v := v.wc ch1) hand hfit hpoly a4
  rw [e4] at a6
  simp only [List.map_cons, List.map_nil, List.cons.injEq, and_true] at a6
  rw [← a6, e5]

theorem splitTasks_le {cnt threads : Nat} {tasks : List (Nat × Nat)} (h : splitTasks cnt threads = some tasks) :
    ∀ t ∈ tasks, t.2 ≤ cnt := by
  have hs := (splitTasks_isSome cnt threads).1 (by rw [h]; rfl)
  rw [splitTasks_eq hs.1 hs.2] at h
  simp only [Option.some.injEq] at h
  subst h
  have hq : 0 < cnt / threads := Nat.div_pos hs.2 hs.1
  have hle : cnt / threads ≤ cnt := Nat.div_le_self _ _
  intro t ht
  simp only [List.mem_append, List.mem_map, List.mem_singleton] at ht
  rcases ht with ⟨i, _, rfl⟩ | rfl
  · exact hle
  · show cnt / threads + cnt % (cnt / threads) ≤ cnt
    have h1 := Nat.div_add_mod cnt (cnt / threads)
    have h2 : 0 < cnt / (cnt / threads) := Nat.div_pos hle hq
    have h3 : cnt / threads ≤ cnt / threads * (cnt / (cnt / threads)) := Nat.le_mul_of_pos_right _ h2
    omega

open Classical in
/-- Few answers are bad. -/
theorem card_badAt [Fintype F] (hand : 0 < ops.countP BOp.isAnd) (hfit : ops.countP BOp.isAnd ≤ v.checkSz) (hpoly : ∀ p, BOp.poly p ∉ ops)
    (x : List Byte) : (Finset.univ.filter (fun s : Fin v.threads → F => BadAt ne v ops S junk x s)).card ≤
      ops.countP BOp.isAnd * Fintype.card F ^ (v.threads - 1) := by
  rcases Finset.eq_empty_or_nonempty (Finset.univ.filter (fun s : Fin v.threads → F => BadAt ne v ops S junk x s)) with he | ⟨s0, hs0⟩
  · rw [he]; simp
  obtain ⟨g, hg, tasks, ht, _, t, htm, a, ha, hne⟩ := (Finset.mem_filter.1 hs0).2
  obtain ⟨i, hi, rfl⟩ := List.mem_iff_getElem.1 htm
  have hl := splitTasks_length ht
  refine le_trans (Finset.card_le_card ?_) ((card_bad_seeds g v.threads tasks ⟨i, by omega⟩ hi ⟨a, ha, hne⟩).trans
    (Nat.mul_le_mul_right _ ((splitTasks_le ht _ htm).trans (le_of_eq (hg.length hand hfit hpoly)))))
  intro s hs
  obtain ⟨g', hg', tasks', ht', he', _⟩ := (Finset.mem_filter.1 hs).2
  have := hg.unique hand hfit hpoly hg'
  subst this
  rw [ht] at ht'
  cases ht'
  refine Finset.mem_filter.2 ⟨Finset.mem_univ _, ?_⟩
  convert he'

/-- The messages behind the bytes, when one string is hashed. -/
theorem rom_messages {W rest : List Byte} {r : RcvSt} (hr : rcvRun S (rcvInit S junk) W (sessionCallsV (ne.at v 0) ops) = .ok (r, rest))
    {x : List Byte} (hx : r.digests = [x]) : ∃ (ms : List (BMsg F)) (fin : BFin F), ∀ d,
      (netSessionV (ne.at v d) ops r.bits r.datas r.digests).map VerNet.st = verSession ((v.wc (fun _ _ => ne.seeds x)).env d) ops ms fin := by
  obtain ⟨k1, k2, k3⟩ := rcvRun_counts _ hr
  simp only [rcvInit, List.length_nil, Nat.zero_add] at k1 k2 k3
  let I : Inbox := ⟨r.bits, r.datas, r.digests⟩
  have hhas : I.has (sessionCallsV (ne.at v 0) ops) := ⟨le_of_eq k1.symm, le_of_eq k2.symm, le_of_eq k3.symm⟩
  obtain ⟨ms, fin, ds, hl, hsub, hv⟩ := netSessionV_any (ne := ne) (v := v) ops hhas
  refine ⟨ms, fin, ?_⟩
  intro d
  obtain ⟨h1, h2⟩ := hv (fun _ _ => ne.seeds x) (by
    intro i dg hd t
    have : dg ∈ r.digests := hsub.subset (List.mem_of_getElem? hd)
    rw [hx, List.mem_singleton] at this
    rw [this]) d
  have h1' : netSessionV (ne.at v d) ops r.bits r.datas r.digests = _ := h1
  rw [h1', Option.map_map]
  have : (VerNet.st ∘ fun s : VerSt F => (I.after (sessionCallsV (ne.at v 0) ops)).ver s (sessionCallsV (ne.at v 0) ops)) = id := by
    funext s; rfl
  rw [this, Option.map_id, id]

/-- When the seeds are not bad for the hashed string, at most two secrets let the verifier accept outputs that no inputs produce. -/
theorem rom_two (hand : 0 < ops.countP BOp.isAnd) (hfit : ops.countP BOp.isAnd ≤ v.checkSz) (hpoly : ∀ p, BOp.poly p ∉ ops)
    (hcov : ops.countP BOp.isAnd % v.threads < ops.countP BOp.isAnd / v.threads) (sd : List Byte → Nat → F)
    {W rest : List Byte} {r : RcvSt} (hr : rcvRun S (rcvInit S junk) W (sessionCallsV (ne.at v 0) ops) = .ok (r, rest))
    {x : List Byte} (hx : r.digests = [x]) {s : Fin v.threads → F} (hs : sd x = extendSeeds s) (hgood : ¬ BadAt ne v ops S junk x s)
    (D : Finset F)
    (hD : ∀ d ∈ D, lsb d = true ∧ ∃ V, netSessionV ((ne.ws sd).at v d) ops r.bits r.datas r.digests = some V ∧ cheated V.st = false ∧
      Impossible ops V.st.outs)
    (hhash : ∀ d1 ∈ D, ∀ d2 ∈ D, ∀ V1 V2, netSessionV ((ne.ws sd).at v d1) ops r.bits r.datas r.digests = some V1 →
      netSessionV ((ne.ws sd).at v d2) ops r.bits r.datas r.digests = some V2 →
      v.hash V1.st.digest = v.hash V2.st.digest → V1.st.digest = V2.st.digest) : D.card ≤ 2 := by
  by_contra hcon
  obtain ⟨ms, fin, hm⟩ := rom_messages (ne := ne.ws sd) (v := v) (ops := ops) (by
    rw [show (ne.ws sd).at v 0 = (ne.at v 0).ws sd from rfl, sessionCallsV_ws]; exact hr) hx
  generalize hchal : (fun (_ : Nat) (_ : List Bool) => (ne.ws sd).seeds x) = chal at hm
  have hnet : ∀ d V, netSessionV ((ne.ws sd).at v d) ops r.bits r.datas r.digests = some V →
      verSession ((v.wc chal).env d) ops ms fin = some V.st := by
    intro d V hV
    rw [← hm d, hV]; rfl
  have hnet' : ∀ d q, verSession ((v.wc chal).env d) ops ms fin = some q →
      ∃ V, netSessionV ((ne.ws sd).at v d) ops r.bits r.datas r.digests = some V ∧ V.st = q := by
    intro d q hs
    have := hm d
    rw [hs, Option.map_eq_some_iff] at this
    exact this
  obtain ⟨d0, hd0⟩ := Finset.card_pos.1 (by omega : 0 < D.card)
  obtain ⟨hl0, V0, hV0, _⟩ := hD d0 hd0
  obtain ⟨ch, himg⟩ := verSession_img (v.wc chal) hl0 ops ms fin
  rw [hnet d0 V0 hV0] at himg
  obtain ⟨cs, hcs, himg⟩ := Option.map_eq_some_iff.1 himg.symm
  obtain ⟨c, k, tr, _, _, e5, e3, e4, e6⟩ := comSession_one (v := v.wc chal) hand hfit hpoly hcs
  -- the same bytes with the secret 1
  obtain ⟨ch1, himg1⟩ := verSession_img (v.wc chal) (lsb_one : lsb (1 : F) = true) ops ms fin
  rw [hcs, Option.map_some] at himg1
  obtain ⟨V1, hV1, hq1⟩ := hnet' 1 _ himg1
  have hcom : ComAt ne v ops S junk x c.gates :=
    ⟨sd, W, r, rest, V1, ms, fin, chal, cs, by rw [sessionCallsV_at]; exact hr, hx, hV1, hcs, by rw [hq1]; rfl, by rw [e4]; rfl⟩
  have hch : (v.wc chal).chal k tr = extendSeeds s := by
    show chal k tr = _
    rw [← hchal]; exact hs
  obtain ⟨ops', pl, q1, q2, _, q3⟩ := C62_extraction (v.wc chal) ops ms fin cs hcs
    (by
      intro a ha tasks ht hz t htm g hg
      rw [e4, List.mem_singleton] at ha
      subst ha
      by_contra hne
      refine hgood ⟨c.gates, hcom, tasks, ht, ?_, t, htm, g, hg, hne⟩
      rw [← hch]; exact hz)
    (by
      intro a ha
      rw [e4, List.mem_singleton] at ha
      subst ha
      show c.gates.length % v.threads < c.gates.length / v.threads
      rw [e5]; exact hcov)
    (by
      intro a ha _ p hp
      rw [e6 a ha] at hp
      cases hp)
    D (by omega)
    (by
      intro d hd
      obtain ⟨h1, V, hV, hok, _⟩ := hD d hd
      exact ⟨h1, V.st, hnet d V hV, hok⟩)
    (by
      intro d1 h1 d2 h2 s1 s2 hs1 hs2 hh
      obtain ⟨V1, hV1, rfl⟩ := hnet' d1 s1 hs1
      obtain ⟨V2, hV2, rfl⟩ := hnet' d2 s2 hs2
      exact hhash d1 h1 d2 h2 V1 V2 hV1 hV2 hh)
  obtain ⟨_, V, hV, _, himp⟩ := hD d0 hd0
  exact himp ops' pl q1 q2 (q3 d0 hd0 V.st (hnet d0 V hV)).symm

omit [DecidableEq F] in
/-- Half of the blocks can be the secret. -/
theorem card_secrets [Fintype F] : Fintype.card {d : F // lsb d = true} * 2 = Fintype.card F := by
  classical
  have h : Fintype.card {d : F // lsb d = true} = Fintype.card {d : F // ¬ lsb d = true} := by
    refine Fintype.card_congr ⟨fun d => ⟨d.1 + 1, by rw [lsb_add, d.2, lsb_one]; decide⟩,
      fun d => ⟨d.1 + 1, by rw [lsb_add, lsb_one]; have := d.2; simp at this; rw [this]; rfl⟩, ?_, ?_⟩
    · intro d; apply Subtype.ext; show d.1 + 1 + 1 = d.1
      rw [add_assoc, show (1 : F) + 1 = 0 from addSelf 1, add_zero]
    · intro d; apply Subtype.ext; show d.1 + 1 + 1 = d.1
      rw [add_assoc, show (1 : F) + 1 = 0 from addSelf 1, add_zero]
  have h2 := Fintype.card_subtype_compl (fun d : F => lsb d = true)
  have h3 := Fintype.card_subtype_le (fun d : F => lsb d = true)
  omega

end
end EmpZk
