/-
Specification of a branching program: the path it takes on plain values.
-/
import Verif.Model.Branch
import Verif.Spec.RamNet

namespace EmpZk

/-- The path of a branching program under a step function and a way to see the bits revealed so far: the instructions done, the values at the
end, the leaf reached; `none`: some step is undefined. -/
def Branch.path {o s α : Type} (step : s → o → Option s) (outs : s → List Bool) : s → Branch o α → Option (List o × s × α)
  | x, .fin a => some ([], x, a)
  | x, .ops l k =>
      (l.foldlM step x).bind (fun y => (Branch.path step outs y (k (outs y))).map (fun r => (l ++ r.1, r.2.1, r.2.2)))
  | _, .undef => none

/-- The path when the private inputs may have other values than those in the program: instructions, values at the end, leaf. -/
inductive Branch.PathLike {α : Type} : Plain → Branch BOp α → List BOp → Plain → α → Prop
  | fin (p : Plain) (a : α) : PathLike p (.fin a) [] p a
  | ops {p q r : Plain} {l l1 l2 : List BOp} {k : List Bool → Branch BOp α} {a : α} (hs : List.Forall₂ BOp.same l l1)
      (hl : l1.foldlM plainStep p = some q) (hk : PathLike q (k q.outs) l2 r a) : PathLike p (.ops l k) (l1 ++ l2) r a

/-- The bits the prover claims for the revealed wires, from its messages. -/
def saidBits {F : Type} : List BOp → List (BMsg F) → List Bool
  | .reveal _ :: l, m :: ms => m.bit :: saidBits l ms
  | _ :: l, _ :: ms => saidBits l ms
  | _, _ => []

/-- The instructions a branching program comes to when the prover sends these messages. -/
def Branch.said {F α : Type} : List Bool → Branch BOp α → List (BMsg F) → Option (List BOp)
  | _, .fin _, [] => some []
  | _, .fin _, _ :: _ => none
  | o, .ops l k, ms =>
      if l.length ≤ ms.length then ((k (o ++ saidBits l ms)).said (o ++ saidBits l ms) (ms.drop l.length)).map (l ++ ·) else none
  | _, .undef, _ => none

section
variable {F : Type} [Field F] [BlockField F] [DecidableEq F]

/-- What a branching session does on plain values with the challenges `ch`: its instructions in the three phases, and the values at the end. -/
structure Walk (ch : Nat → F) (t : SessTree) (pre : List BOp) (ops : List MOp) (post : List BOp) (mp : MPlain F) : Prop where
  run : ∃ b t1 s t2 b2, t.path plainStep Plain.outs ⟨[], [], []⟩ = some (pre, b, t1) ∧
    t1.path (mplainStep ch) (fun x => x.bp.outs) ⟨b, [], []⟩ = some (ops, s, t2) ∧
    t2.path plainStep Plain.outs s.bp = some (post, b2, ()) ∧ mp = { s with bp := b2 }

end
end EmpZk
