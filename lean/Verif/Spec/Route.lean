/-
Specification of the ways through a branching program: what it does for some opened bits.
-/
import Verif.Model.Branch

namespace EmpZk

/-- The number of bits an instruction opens. -/
def BOp.opens : BOp → Nat
  | .reveal _ => 1
  | _ => 0

/-- The number of bits an instruction opens. -/
def MOp.opens : MOp → Nat
  | .bool o => o.opens
  | _ => 0

/-- With the bits `o` opened before, and for some values of the bits it opens (`n`: how many an instruction does), the program does the
instructions `l` and ends in the leaf `a` with the bits `o'` opened. -/
inductive Branch.Route {ι α : Type} (n : ι → Nat) : List Bool → Branch ι α → List ι → List Bool → α → Prop
  | fin (o : List Bool) (a : α) : Route n o (.fin a) [] o a
  | ops {o o' : List Bool} {l l' : List ι} {k : List Bool → Branch ι α} {a : α} (x : List Bool) (hx : x.length = (l.map n).sum) :
      Route n (o ++ x) (k (o ++ x)) l' o' a → Route n o (.ops l k) (l ++ l') o' a

/-- Whatever the values of the bits it opens, the program does nothing undefined of its own, and `Q` holds of the bits opened and the leaf it
comes to. -/
def Branch.Leads {ι α : Type} (n : ι → Nat) (Q : List Bool → α → Prop) : List Bool → Branch ι α → Prop
  | o, .fin a => Q o a
  | o, .ops l k => ∀ x : List Bool, x.length = (l.map n).sum → Branch.Leads n Q (o ++ x) (k (o ++ x))
  | _, .undef => False

/-- The same for all three parts of a session. -/
def SessTree.Defined (t : SessTree) : Prop :=
  Branch.Leads BOp.opens (fun o t1 => Branch.Leads MOp.opens (fun o t2 => Branch.Leads BOp.opens (fun _ _ => True) o t2) o t1) [] t

/-- A way through a whole session. -/
def SessTree.Way (t : SessTree) (pre : List BOp) (ops : List MOp) (post : List BOp) : Prop :=
  ∃ o1 t1 o2 t2 o3, Branch.Route BOp.opens [] t pre o1 t1 ∧ Branch.Route MOp.opens o1 t1 ops o2 t2 ∧ Branch.Route BOp.opens o2 t2 post o3 ()

end EmpZk
