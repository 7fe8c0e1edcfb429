/-
A session with boolean gates only, as programs over the endpoint `ios[0]`: emp-zk/emp-zk-bool/ostriple.h, polynomial.h. It is `mixProver`
without `F2kOSTriple`. Simplifications: those of `Verif.Model.MixNet`.
-/
import Verif.Model.MixNet

namespace EmpZk

section
variable {F : Type} [Field F] [BlockField F]

/-- The prover: constructor (emp-zk-bool/ostriple.h:33-66), instructions, destructor (ostriple.h:68-73, zk_prover.h:43-46) and the flush of
bool_io.h:22-23. -/
def boolProver (ne : NetEnv F) (ops : List BOp) : SProg (PrvSt F) :=
  ((rcotS ne 0 1).bind (fun _ => (bopsS ne PrvSt.init ops).bind (fun s => bfinS ne s))).bind (fun a => .call .flush (fun _ => .done a))

/-- The verifier (emp-zk-bool/ostriple.h:33-73, zk_verifier.h:55-58, bool_io.h:22-23). -/
def boolVerifier [DecidableEq F] (ne : NetEnv F) (ops : List BOp) : RProg (VerSt F) :=
  ((rcotR ne 0 1).bind (fun _ => (bopsR ne VerSt.init ops).bind (fun s => bfinR ne s))).bind (fun b => .call .flush (fun _ _ => .done b))

end
end EmpZk
