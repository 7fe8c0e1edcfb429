/-
Specification for the traffic of branching programs: two programs for two witnesses that reveal the same bits.
-/
import Verif.Spec.MixTraffic
import Verif.Model.Branch
import Verif.Spec.RamNet

namespace EmpZk

/-- What an instruction does to the plain bits: no instruction on words changes them. -/
def MOp.bits (p : Plain) : MOp → Option Plain
  | .bool o => plainStep p o
  | _ => some p

/-- Two branching programs, run in the plain from two states: until they end they do the same but for the prover's inputs (`er` removes them),
and they reveal the same bits (`outs`); what they end with is related by `Q`. Nothing is said about branches that are not taken. -/
inductive Branch.Opens {o s α : Type} (er : o → o) (step : s → o → Option s) (outs : s → List Bool) (Q : s → s → α → α → Prop) :
    s → s → Branch o α → Branch o α → Prop where
  | fin {p p' a b} : Q p p' a b → Branch.Opens er step outs Q p p' (.fin a) (.fin b)
  | ops {p p' q q' l l' k k'} : l.map er = l'.map er → l.foldlM step p = some q → l'.foldlM step p' = some q' → outs q = outs q' →
      Branch.Opens er step outs Q q q' (k (outs q)) (k' (outs q)) → Branch.Opens er step outs Q p p' (.ops l k) (.ops l' k')

/-- The same for boolean programs. -/
abbrev OpensB {α : Type} (Q : Plain → Plain → α → α → Prop) : Plain → Plain → Branch BOp α → Branch BOp α → Prop :=
  Branch.Opens BOp.erase plainStep Plain.outs Q

/-- The same for whole branching sessions. -/
def SessTree.Opens (t t' : SessTree) : Prop :=
  OpensB (Branch.Opens MOp.erase MOp.bits Plain.outs (OpensB (fun _ _ _ _ => True))) ⟨[], [], []⟩ ⟨[], [], []⟩ t t'

/-- The same for a branching program with a memory: both witnesses make 3 to `2^(step_sz-1)` accesses, inside the memory, and read nothing they
have not written; the addresses, values and directions of the accesses may differ. After its check, which reveals `true`, the wires of the
check (`w`, `w'`) are of no use to the program. -/
def RamTree.Opens (c : RamCfg) (t t' : RamTree) : Prop :=
  OpensB (fun p p' a b => Branch.Opens UOp.erase (uplainStep c) (fun u => u.bp.outs)
      (fun u u' r r' => (3 ≤ u.log.length ∧ u.log.length ≤ 2 ^ (c.ssz - 1) ∧ WrittenFirst u.log) ∧
        (3 ≤ u'.log.length ∧ u'.log.length ≤ 2 ^ (c.ssz - 1) ∧ WrittenFirst u'.log) ∧
        ∀ w w', w.length = w'.length → OpensB (fun _ _ _ _ => True) ⟨u.bp.wires ++ w, u.bp.outs ++ [true], u.bp.claims⟩
          ⟨u'.bp.wires ++ w', u'.bp.outs ++ [true], u'.bp.claims⟩ r r')
      ⟨p, []⟩ ⟨p', []⟩ a b)
    ⟨[], [], []⟩ ⟨[], [], []⟩ t t'

end EmpZk
