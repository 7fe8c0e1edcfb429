import Verif.Spec.BoolNet
/-!
emp-zk/extensions/ram-zk/zk-mem.h, ro-zk-mem.h, zk-mem-ext.h: how the challenge of the comparison of the two lists of rows of a memory comes
about. The rows are wires of the boolean session; everything committed, computed and opened before the comparison is a program of that session.
-/

namespace EmpZk

section
variable {F : Type}

/-- Calls of the verifier's endpoint from the start of the session to the challenge of a memory check: the correlations for the public labels
(emp-zk-bool/ostriple.h:33-66), the instructions before the check (ostriple.h:95-142), the flush of `sync_zk_bool`
(emp-zk-bool/zk_bool_circuit_exec.h:22-26) and `r = io->get_hash_block()` (zk-mem.h:166, 312-316; ro-zk-mem.h:208-210; zk-mem-ext.h:259, 341).
Simplified: of the endpoints flushed by `sync_zk_bool` only the first, which carries all bits and the challenge, is modelled. -/
def chalCallsV (ne : NetEnv F) (ops : List BOp) : List ROp :=
  ne.extV 0 1 ++ (runCallsV ne ⟨1, 0, 0, 0⟩ ops ++ [.flush, .hash])

variable [Field F] [BlockField F] [DecidableEq F]

/-- The verifier up to that challenge, whose endpoint returns the given bits, byte strings and digests: the string whose hash is the challenge,
and the state in which the rows are compared (zk-mem.h:128-183, 312-316; bool_io.h:39-43). -/
def chalV (ne : NetEnv F) (ops : List BOp) (bits : List Bool) (datas digs : List (List Byte)) : Option (List Byte × VerNet F) := do
  let v0 ← VerNet.rcot ne ⟨VerSt.init, bits, datas, digs, []⟩ 0 1
  let v1 ← netRunV ne v0 ops
  VerNet.hash { v1 with calls := v1.calls ++ [.flush] }

end
end EmpZk
