/-
Specification for sessions that branch on revealed values when the prover may do anything: what the verifier's program (Model/Branch.lean) does on
the committed values, and the paths of a program when the prover chooses the inputs.
-/
import Verif.Spec.MixCommit
import Verif.Spec.Branch
import Verif.Spec.RamTrace

namespace EmpZk

section
variable {F α : Type} [Field F] [BlockField F] [DecidableEq F]

/-- The branching boolean program on committed bits: it continues with the bits the prover has revealed (zk_verifier.h:78-85). -/
def btreeC (ne : NetEnv F) (v : BView F) : ComSt F → Branch BOp α → RProg (ComSt F × α)
  | s, .fin a => .done (s, a)
  | s, .ops l k => (bopsC ne v s l).bind (fun s1 => btreeC ne v s1 (k (s1.opened.map Prod.snd)))
  | _, .undef => .fail

/-- The same while `F2kOSTriple` exists (zk-mem.h:19-183). -/
def mtreeC (me : MixEnv F) (v : BView F) : MCom F → Branch MOp α → RProg (MCom F × α)
  | s, .fin a => .done (s, a)
  | s, .ops l k => (mopsC me v s l).bind (fun s1 => mtreeC me v s1 (k (s1.b.opened.map Prod.snd)))
  | _, .undef => .fail

/-- A whole branching session on committed values, with the digest received at the end (emp-zk-bool.h:8-41). -/
def branchC (me : MixEnv F) (v : BView F) (t : SessTree) : RProg (MCom F × F) :=
  (rcotR me.ne 0 1).bind (fun _ => (btreeC me.ne v ComSt.init t).bind (fun b => (f2kNewC me b.1).bind (fun s => (mtreeC me v s b.2).bind (fun s1 =>
    (f2kDelC me s1.1).bind (fun s2 => (btreeC me.ne v s2.b s1.2).bind (fun b2 => (bfinC me.ne v b2.1).bind (fun r =>
      .done ({ s2 with b := r.1 }, r.2))))))))

/-- The same with the flush at the end (bool_io.h:22-23). -/
def branchCommit (me : MixEnv F) (v : BView F) (t : SessTree) : RProg (MCom F × F) :=
  (branchC me v t).bind (fun b => .call .flush (fun _ _ => .done b))

omit [DecidableEq F] in
/-- The path of the instructions on bits and blocks when the private inputs may have other values than those in the program. -/
inductive Branch.MPathLike {α : Type} [DecidableEq F] (ch : Nat → F) : MPlain F → Branch MOp α → List MOp → MPlain F → α → Prop
  | fin (p : MPlain F) (a : α) : MPathLike ch p (.fin a) [] p a
  | ops {p q r : MPlain F} {l l1 l2 : List MOp} {k : List Bool → Branch MOp α} {a : α} (hs : List.Forall₂ MOp.same l l1)
      (hl : mplainOps ch p l1 = some q) (hk : MPathLike ch q (k q.bp.outs) l2 r a) : MPathLike ch p (.ops l k) (l1 ++ l2) r a

/-- What a branching session does on plain values with the challenges `ch` when the inputs may have other values. -/
structure WalkLike (ch : Nat → F) (t : SessTree) (pre : List BOp) (ops : List MOp) (post : List BOp) (mp : MPlain F) : Prop where
  run : ∃ b t1 s t2 b2, t.PathLike ⟨[], [], []⟩ pre b t1 ∧ t1.MPathLike ch ⟨b, [], []⟩ ops s t2 ∧ t2.PathLike s.bp post b2 () ∧
    mp = { s with bp := b2 }

end

/-- `P` holds of every instruction (whatever is revealed) and `Q` of every leaf. -/
def Branch.Every {o α : Type} (P : o → Prop) (Q : α → Prop) : Branch o α → Prop
  | .fin a => Q a
  | .ops l k => (∀ x ∈ l, P x) ∧ ∀ outs, (k outs).Every P Q
  | .undef => True

/-- The two programs do corresponding instructions whatever is revealed, and end in corresponding leaves. -/
def Branch.Alike {o o' α β : Type} (R : o → o' → Prop) (Q : α → β → Prop) : Branch o α → Branch o' β → Prop
  | .fin a, .fin b => Q a b
  | .ops l k, .ops l' k' => List.Forall₂ R l l' ∧ ∀ outs, (k outs).Alike R Q (k' outs)
  | .undef, .undef => True
  | _, _ => False

/-- Whatever is revealed, the number of accesses on a path, with `n` made before, is between 3 and `m`. -/
def Branch.Counts {α : Type} (m : Nat) : Nat → Branch UOp α → Prop
  | n, .fin _ => 3 ≤ n ∧ n ≤ m
  | n, .ops l k => ∀ outs, (k outs).Counts m (n + accesses l)
  | _, .undef => True

/-- The path of a program with a memory when the inputs and all values that come out of the memory are arbitrary (of the widths of the memory). -/
inductive Branch.TraceLike {α : Type} (c : RamCfg) : UPlain → Branch UOp α → List UOp → UPlain → α → Prop
  | fin (u : UPlain) (a : α) : TraceLike c u (.fin a) [] u a
  | ops {u u1 u2 : UPlain} {l l1 l2 : List UOp} {k : List Bool → Branch UOp α} {a : α} (hs : List.Forall₂ UOp.same l l1)
      (hl : UTrace c u l1 u1) (hk : TraceLike c u1 (k u1.bp.outs) l2 u2 a) : TraceLike c u (.ops l k) (l1 ++ l2) u2 a

/-- The path of a program with a memory on plain values when only the inputs may have other values: reads return the latest value written. -/
inductive Branch.RunLike {α : Type} (c : RamCfg) : UPlain → Branch UOp α → List UOp → UPlain → α → Prop
  | fin (u : UPlain) (a : α) : RunLike c u (.fin a) [] u a
  | ops {u u1 u2 : UPlain} {l l1 l2 : List UOp} {k : List Bool → Branch UOp α} {a : α} (hs : List.Forall₂ UOp.same l l1)
      (hl : uplainOps c u l1 = some u1) (hk : RunLike c u1 (k u1.bp.outs) l2 u2 a) : RunLike c u (.ops l k) (l1 ++ l2) u2 a

end EmpZk
