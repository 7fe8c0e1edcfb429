/-
Specification for the traffic of sessions with packed words, products and memories: environments that agree on everything public, programs that
differ in the prover's input bits only.
-/
import Verif.Spec.Traffic
import Verif.Spec.BoolSim
import Verif.Spec.BoolNet
import Verif.Model.MixNet
import Verif.Model.RamNet
import Verif.Model.RoNet
import Verif.Model.ExtNet

namespace EmpZk

section
variable {F : Type} [Field F] [BlockField F]

/-- Two boolean environments with the same thread count and buffer sizes, blocks of 16 and digests of 32 bytes, and the same kinds of calls by
`rcot`. Correlations, secrets, challenges, seeds and hash functions are arbitrary. -/
structure NetEnv.Same (ne ne' : NetEnv F) : Prop where
  threads : ne.e.threads = ne'.e.threads
  checkSz : ne.e.checkSz = ne'.e.checkSz
  polySz : ne.e.polySz = ne'.e.polySz
  ext : ∀ used k, (ne.extP used k).map SOp.kind = (ne'.extP used k).map SOp.kind
  enc : ∀ x, (ne.enc x).length = 16
  enc' : ∀ x, (ne'.enc x).length = 16
  encD : ∀ x, (ne.encD x).length = 32
  encD' : ∀ x, (ne'.encD x).length = 32

/-- The same for mixed sessions: the refills deliver as many correlations, use as many of the others and make the same kinds of calls; a
product is given as 65 + 65 bits. -/
structure MixEnv.Same (me me' : MixEnv F) : Prop where
  ne : me.ne.Same me'.ne
  sz : me.sz = me'.sz
  cap : me.cap = me'.cap
  auth : ∀ k, (me.auth k).length = (me'.auth k).length
  sv : ∀ k, (me.svP k).map SOp.kind = (me'.svP k).map SOp.kind
  svN : ∀ k, me.svN k = me'.svN k
  lo : ∀ v, (me.lo v).length = 65
  lo' : ∀ v, (me'.lo v).length = 65
  hi : ∀ v, (me.hi v).length = 65
  hi' : ∀ v, (me'.hi v).length = 65

end

/-- An instruction without the prover's input. -/
def MOp.erase : MOp → MOp
  | .bool o => .bool o.erase
  | o => o

/-- A call of a program with a memory without the prover's input. -/
def UOp.erase : UOp → UOp
  | .bool o => .bool o.erase
  | o => o

/-- A call of a program with a read-only memory without the prover's input. -/
def VOp.erase : VOp → VOp
  | .bool o => .bool o.erase
  | o => o

/-- A call of a program with a memory of several words per cell without the prover's input. -/
def XOp.erase : XOp → XOp
  | .bool o => .bool o.erase
  | o => o

end EmpZk
