/-
Algebra of the boolean MACs.
-/
import Verif.Spec.BoolCommit
import Verif.Lemmas.Chi

namespace EmpZk

section
variable {F : Type} [Field F] [BlockField F]

theorem sel_bit (b : Bool) (t : F) : sel b t = bit b * t := by cases b <;> simp [sel]

theorem setZeroBit_eq (b : F) : setZeroBit b = b + bit (lsb b) := by
  rw [setZeroBit, sel_bit, mul_one]

@[simp] theorem lsb_setZeroBit (b : F) : lsb (setZeroBit b) = false := by
  rw [setZeroBit_eq, lsb_add, lsb_bit, Bool.xor_self]

theorem setValueInBlock_eq (b : F) (v : Bool) : setValueInBlock b v = b + bit (lsb b ^^ v) := by
  rw [setValueInBlock, setZeroBit_eq, sel_bit, mul_one, bit_xor, add_assoc]

@[simp] theorem lsb_setValueInBlock (b : F) (v : Bool) : lsb (setValueInBlock b v) = v := by
  rw [setValueInBlock_eq, lsb_add, lsb_bit, ← Bool.xor_assoc, Bool.xor_self, Bool.false_xor]

theorem inputPrv_fst (auth : F) (b : Bool) : (inputPrv auth b).1 = auth + bit (inputPrv auth b).2 := by
  simp only [inputPrv, setValueInBlock_eq]

theorem andPrv_fst (a b auth : F) : (andPrv a b auth).1 = auth + bit (andPrv a b auth).2 := by
  simp only [andPrv, setValueInBlock_eq]
  rw [Bool.xor_comm]

@[simp] theorem lsb_inputPrv (auth : F) (b : Bool) : lsb (inputPrv auth b).1 = b := by simp [inputPrv]

@[simp] theorem lsb_andPrv (a b auth : F) : lsb (andPrv a b auth).1 = (lsb a && lsb b) := by simp [andPrv]

theorem lsb_keyOf {delta : F} (h : lsb delta = true) (m : F) : lsb (keyOf delta m) = false := by
  rw [keyOf, lsb_add, lsb_bit_mul, h, Bool.and_true, Bool.xor_self]

theorem keyOf_zero_bit {m : F} (h : lsb m = false) (delta : F) : keyOf delta m = m := by
  rw [keyOf, h, bit_false, zero_mul, add_zero]

theorem inputVer_keyOf {delta : F} (h : lsb delta = true) (m : F) (d : Bool) :
    inputVer delta (keyOf delta m) d = keyOf delta (m + bit d) := by
  rw [inputVer, setZeroBit_eq, sel_bit, lsb_add, lsb_keyOf h, lsb_bit_mul, h, Bool.and_true, Bool.false_xor]
  simp only [keyOf, lsb_add, lsb_bit, bit_xor]
  ring

theorem andVer_keyOf {delta : F} (h : lsb delta = true) (m : F) (d : Bool) :
    andVer delta (keyOf delta m) d = keyOf delta (m + bit d) := inputVer_keyOf h m d

theorem xor_keyOf (delta a b : F) : xorGate (keyOf delta a) (keyOf delta b) = keyOf delta (a + b) := by
  simp only [xorGate, keyOf, lsb_add, bit_xor]; ring

theorem notVer_keyOf (delta a : F) : notVer delta (keyOf delta a) = keyOf delta (a + 1) := by
  simp only [notVer, keyOf, lsb_add, lsb_one, bit_xor, bit_true]; ring

theorem lsb_pubPrv (p0 p1 : F) (b : Bool) : lsb (pubPrv p0 p1 b) = b := by
  cases b <;> simp [pubPrv, lsb_add]

theorem pubVer_keyOf (delta p0 p1 : F) (b : Bool) : pubVer delta p0 p1 b = keyOf delta (pubPrv p0 p1 b) := by
  rw [keyOf, lsb_pubPrv]
  cases b
  · simp [pubVer, pubPrv]
  · simp only [pubVer, pubPrv, if_true, bit_true]; ring

theorem openVer_keyOf (delta m : F) (b : Bool) :
    openVer delta (keyOf delta m) b = m + bit (lsb m ^^ b) * delta := by
  rw [openVer, keyOf, sel_bit, bit_xor]; ring

/-- Difference between the committed output and the AND of the committed inputs. -/
def Gate.err (g : Gate F) : F := bit ((lsb g.left && lsb g.right) ^^ lsb g.out)

/-- Gate on keys. -/
def Gate.key (delta : F) (g : Gate F) : Gate F := ⟨keyOf delta g.left, keyOf delta g.right, keyOf delta g.out⟩

theorem Gate.err_eq_zero {g : Gate F} (h : g.Correct) : g.err = 0 := by
  rw [Gate.err, h, Bool.xor_self, bit_false]

theorem Gate.correct_of_err {g : Gate F} (h : g.err = 0) : g.Correct := by
  unfold Gate.err at h
  have := bit_inj (F := F) (b := false) (by rw [h]; rfl)
  unfold Gate.Correct
  revert this
  cases lsb g.left <;> cases lsb g.right <;> cases lsb g.out <;> simp

theorem gateVer_keyOf (delta : F) (g : Gate F) :
    gateVer delta (g.key delta) = (gatePrv g).1 + (gatePrv g).2 * delta + g.err * (delta * delta) := by
  simp only [gateVer, Gate.key, gatePrv, Gate.err, keyOf, sel_bit, bit_xor, bit_and]; ring

theorem packBlocks_keyOf (delta : F) (f : Nat → F) :
    packBlocks (fun i => keyOf delta (f i)) = packBlocks f + packLsbs f * delta := by
  simp only [packBlocks, packLsbs, keyOf]
  rw [Finset.sum_mul, ← Finset.sum_add_distrib]
  apply Finset.sum_congr rfl
  intro i _
  ring

/-- Combination of the errors of the gates covered by the tasks. -/
def errSum (buf : List (Gate F)) (seeds : Nat → F) (tasks : List (Nat × Nat)) (i : Nat) : F :=
  match tasks with
  | [] => 0
  | t :: ts => chiSum (seeds i) ((taskSlice buf t).map Gate.err) + errSum buf seeds ts (i + 1)

theorem checkSum_keyOf (delta : F) (buf : List (Gate F)) (seeds : Nat → F) (tasks : List (Nat × Nat)) (i : Nat) :
    checkSumVer delta (buf.map (Gate.key delta)) seeds tasks i =
      (checkSumPrv buf seeds tasks i).1 + (checkSumPrv buf seeds tasks i).2 * delta +
        errSum buf seeds tasks i * (delta * delta) := by
  induction tasks generalizing i with
  | nil => simp [checkSumVer, checkSumPrv, errSum]
  | cons t ts ih =>
    simp only [checkSumVer, checkSumPrv, errSum, ih]
    have : (taskSlice (buf.map (Gate.key delta)) t).map (gateVer delta) =
        (taskSlice buf t).map (fun g => ((gatePrv g).1 + (gatePrv g).2 * delta) + g.err * (delta * delta)) := by
      simp only [taskSlice, ← List.map_drop, ← List.map_take, List.map_map]
      apply List.map_congr_left
      intro g _
      exact gateVer_keyOf delta g
    rw [this, chiSum_add, chiSum_add, chiSum_mul, chiSum_mul]
    ring

/-- The verdict of the AND check as a polynomial equation in `delta`. -/
theorem andCheckVer_keyOf [DecidableEq F] (delta : F) (buf : List (Gate F)) (threads : Nat) (seeds ope : Nat → F)
    (ans : F × F) :
    andCheckVer delta (buf.map (Gate.key delta)) threads seeds (fun i => keyOf delta (ope i)) ans =
      (splitTasks buf.length threads).map (fun tasks =>
        decide (ans.2 * delta + ans.1 =
          (packBlocks ope + (checkSumPrv buf seeds tasks 0).1) +
          (packLsbs ope + (checkSumPrv buf seeds tasks 0).2) * delta +
          errSum buf seeds tasks 0 * (delta * delta))) := by
  unfold andCheckVer
  rw [List.length_map]
  cases splitTasks buf.length threads with
  | none => rfl
  | some tasks =>
    simp only [Option.map_some, packBlocks_keyOf, checkSum_keyOf]
    congr 2
    rw [eq_iff_iff]
    constructor <;> intro h <;> rw [h] <;> ring

theorem errSum_correct (buf : List (Gate F)) (h : ∀ g ∈ buf, g.Correct) (seeds : Nat → F)
    (tasks : List (Nat × Nat)) (i : Nat) : errSum buf seeds tasks i = 0 := by
  induction tasks generalizing i with
  | nil => rfl
  | cons t ts ih =>
    rw [errSum, ih, add_zero]
    apply chiSum_zero
    intro g hg
    exact Gate.err_eq_zero (h g (List.mem_of_mem_drop (List.mem_of_mem_take hg)))

/-! ### statements -/

theorem foldl_termPrv_keyOf (delta : F) (xy : List (F × F)) (A : F × F) (c : Bool) :
    (xy.map (fun t => (keyOf delta t.1, keyOf delta t.2))).foldl termVer (A.1 + A.2 * delta + bit c * (delta * delta)) =
      (xy.foldl termPrv A).1 + (xy.foldl termPrv A).2 * delta +
        bit (c ^^ xorAll ((xy.map (fun t => (lsb t.1, lsb t.2))).map (fun t => t.1 && t.2))) * (delta * delta) := by
  induction xy generalizing A c with
  | nil => simp [xorAll]
  | cons t xy ih =>
    simp only [List.map_cons, List.foldl_cons, xorAll]
    rw [← Bool.xor_assoc, ← ih (termPrv A t)]
    congr 1
    simp only [termVer, termPrv, keyOf, sel_bit, bit_xor, bit_and]
    ring

theorem foldl_termPrvC_keyOf (delta : F) (xy : List (Bool × F × F)) (A : F × F) (c : Bool) :
    (xy.map (fun t => (t.1, keyOf delta t.2.1, keyOf delta t.2.2))).foldl termVerC
        (A.1 + A.2 * delta + bit c * (delta * delta)) =
      (xy.foldl termPrvC A).1 + (xy.foldl termPrvC A).2 * delta +
        bit (c ^^ xorAll ((xy.map (fun t => (t.1, lsb t.2.1, lsb t.2.2))).map (fun t => t.1 && (t.2.1 && t.2.2)))) *
          (delta * delta) := by
  induction xy generalizing A c with
  | nil => simp [xorAll]
  | cons t xy ih =>
    simp only [List.map_cons, List.foldl_cons, xorAll]
    rw [← Bool.xor_assoc, ← ih (termPrvC A t)]
    congr 1
    simp only [termVerC, termPrvC, keyOf, sel_bit, bit_xor, bit_and]
    ring

/-- The verifier's value of a statement as a polynomial in `delta`. -/
theorem stmtVer_keyOf (delta : F) (s : PolyStmt F) :
    stmtVer delta (s.map (keyOf delta)) =
      (stmtPrv s).1 + (stmtPrv s).2 * delta + bit (s.map lsb).eval * (delta * delta) := by
  have h0 : (0 : F) = (0, (0:F)).1 + (0, (0:F)).2 * delta + bit false * (delta * delta) := by simp
  cases s with
  | deg2 c0 terms =>
    have := foldl_termPrvC_keyOf delta terms (0, 0) false
    rw [← h0, Bool.false_xor] at this
    simp only [stmtVer, stmtPrv, PolyStmt.map, PolyStmt.eval, this, sel_bit, bit_xor]
    ring
  | inner c xy =>
    have := foldl_termPrv_keyOf delta xy (0, 0) false
    rw [← h0, Bool.false_xor] at this
    simp only [stmtVer, stmtPrv, PolyStmt.map, PolyStmt.eval, this, sel_bit, bit_xor]
    ring
  | innerEq xy rs =>
    have := foldl_termPrv_keyOf delta xy (0, 0) false
    rw [← h0, Bool.false_xor] at this
    simp only [stmtVer, stmtPrv, PolyStmt.map, PolyStmt.eval, this, foldl_termPrv_keyOf, sel_bit, bit_xor, bit_false]
    ring
  | innerEqOne xy rs rr ss =>
    have := foldl_termPrv_keyOf delta xy (0, 0) false
    rw [← h0, Bool.false_xor] at this
    simp only [stmtVer, stmtPrv, PolyStmt.map, PolyStmt.eval, this, foldl_termPrv_keyOf, sel_bit, bit_xor, bit_false,
      bit_and]
    simp only [termVer, termPrv, keyOf, sel_bit]
    ring
  | multiOne xy r s =>
    have := foldl_termPrv_keyOf delta xy (0, 0) false
    rw [← h0, Bool.false_xor] at this
    simp only [stmtVer, stmtPrv, PolyStmt.map, PolyStmt.eval, this, sel_bit, bit_xor, bit_false, bit_and]
    simp only [termVer, termPrv, keyOf, sel_bit]
    ring

/-- The verdict of the polynomial check as a polynomial equation in `delta`. -/
theorem polyCheckVer_keyOf [DecidableEq F] (delta : F) (buf : List (PolyStmt F)) (seed : F) (ope : Nat → F)
    (ans : F × F) :
    polyCheckVer delta (buf.map (fun s => stmtVer delta (s.map (keyOf delta)))) seed
        (fun i => keyOf delta (ope i)) ans =
      decide (ans.1 = (polyCheckPrv (buf.map stmtPrv) seed ope).1 +
        ((polyCheckPrv (buf.map stmtPrv) seed ope).2 + ans.2) * delta +
        chiSum seed (buf.map (fun s => bit (s.map lsb).eval)) * (delta * delta)) := by
  unfold polyCheckVer
  have : buf.map (fun s => stmtVer delta (s.map (keyOf delta))) =
      buf.map (fun s => ((stmtPrv s).1 + (stmtPrv s).2 * delta) + bit (s.map lsb).eval * (delta * delta)) :=
    List.map_congr_left (fun s _ => stmtVer_keyOf delta s)
  rw [this, chiSum_add, chiSum_add, chiSum_mul, chiSum_mul, packBlocks_keyOf]
  simp only [polyCheckPrv, List.map_map, Function.comp_def]
  congr 1
  rw [eq_iff_iff]
  constructor <;> intro h <;> rw [h] <;> ring

/-! ### views -/

theorem BEnv.Good.key_eq {e : BEnv F} (h : e.Good) (n : Nat) : e.key n = keyOf e.delta (e.mac n) := by
  unfold keyOf BEnv.mac
  rw [lsb_add, h.lsb_key, sel_bit, lsb_bit_mul, h.lsb_delta, Bool.and_true, Bool.false_xor, add_assoc, addSelf, add_zero]

theorem BEnv.Good.choice_eq {e : BEnv F} (h : e.Good) (n : Nat) : e.choice n = lsb (e.mac n) := by
  unfold BEnv.mac
  rw [lsb_add, h.lsb_key, sel_bit, lsb_bit_mul, h.lsb_delta, Bool.and_true, Bool.false_xor]

/-- Every good session is a view together with a `Delta`. -/
theorem BEnv.Good.eta {e : BEnv F} (h : e.Good) : e.view.env e.delta = e := by
  cases e with
  | mk delta key choice pub0 pub1 threads checkSz polySz chal polySeed hash =>
    have h1 : (fun n => keyOf delta (BEnv.mac ⟨delta, key, choice, pub0, pub1, threads, checkSz, polySz, chal, polySeed, hash⟩ n)) = key := by
      funext n; exact (h.key_eq n).symm
    have h2 : (fun n => lsb (BEnv.mac ⟨delta, key, choice, pub0, pub1, threads, checkSz, polySz, chal, polySeed, hash⟩ n)) = choice := by
      funext n; exact (h.choice_eq n).symm
    simp only [BView.env, BEnv.view]
    rw [h1, h2]

theorem BView.env_good (v : BView F) {delta : F} (h : lsb delta = true) : (v.env delta).Good where
  lsb_delta := h
  lsb_key := fun n => lsb_keyOf h (v.mac n)

theorem BView.env_mac (v : BView F) (delta : F) (n : Nat) : (v.env delta).mac n = v.mac n := by
  simp only [BEnv.mac, BView.env, keyOf, sel_bit]
  rw [add_assoc, addSelf, add_zero]

theorem BView.env_view (v : BView F) (delta : F) : (v.env delta).view = v := by
  have : (v.env delta).mac = v.mac := funext (v.env_mac delta)
  cases v
  simp only [BEnv.view, this]
  rfl

end
end EmpZk
