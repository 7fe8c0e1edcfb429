/-
Specification for the traffic of programs with bits, field elements and conversions: environments that agree on everything public, programs that
differ in the prover's inputs only.
-/
import Verif.Spec.MixTraffic
import Verif.Spec.ArithSim
import Verif.Model.ConvNet

namespace EmpZk

/-- Two environments with the same thread counts, buffer sizes, parameters of the edaBits, circuits and kinds of calls of the extensions;
as many candidates; digests of 32 bytes. Correlations, secrets, challenges, seeds, candidates and hash functions are arbitrary. -/
structure ConvEnv.Same {F : Type} [Field F] [BlockField F] (ce ce' : ConvEnv F) : Prop where
  ne : ce.ne.Same ce'.ne
  threads : ce.base.threads = ce'.base.threads
  checkSz : ce.base.checkSz = ce'.base.checkSz
  polySz : ce.base.polySz = ce'.base.polySz
  av : ∀ n k, (ce.avP n k).map SOp.kind = (ce'.avP n k).map SOp.kind
  cfg : ce.cfg = ce'.cfg
  npSz : ce.npSz = ce'.npSz
  cand : ∀ k, (ce.candA k).length = (ce'.candA k).length
  ed : ∀ k n, (ce.edP k n).map SOp.kind = (ce'.edP k n).map SOp.kind
  dig : ∀ l, (ce.dig l).length = 32
  dig' : ∀ l, (ce'.dig l).length = 32
  sum : ce.sum = ce'.sum
  diff : ce.diff = ce'.diff

/-- An instruction without the prover's input. -/
def COp.erase : COp → COp
  | .bool o => .bool o.erase
  | .arith o => .arith o.erase
  | o => o

end EmpZk
