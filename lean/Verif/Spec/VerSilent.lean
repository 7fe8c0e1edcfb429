/-
Specification for what the prover can see of a verifier: environments of the verifier that agree on everything but its secrets, and configurations
of the network that differ in the verifier's own state only.
-/
import Verif.Spec.MixTraffic
import Verif.Spec.ConvTraffic
import Verif.Model.Branch

namespace EmpZk

/-- Two configurations with the same prover, the same endpoints and the same bytes in transit. -/
structure SameView {α β β' : Type} (c : PNet α β) (c' : PNet α β') : Prop where
  p : c.p = c'.p
  snd : c.snd = c'.snd
  toR : c.toR = c'.toR
  toS : c.toS = c'.toS
  rcv : c.rcv = c'.rcv

section
variable {F : Type} [Field F] [BlockField F]

/-- Two environments with the same thread count and buffer sizes, the same seeds of polynomial checks in memory and the same calls by `rcot`.
`Delta`, keys, challenges and hash functions are arbitrary. -/
structure NetEnv.SameV (ne ne' : NetEnv F) : Prop where
  threads : ne.e.threads = ne'.e.threads
  checkSz : ne.e.checkSz = ne'.e.checkSz
  polySz : ne.e.polySz = ne'.e.polySz
  polySeed : ∀ k, ne.enc (ne.e.polySeed k) = ne'.enc (ne'.e.polySeed k)
  ext : ∀ used k, ne.extV used k = ne'.extV used k

/-- The same for mixed sessions: the refills deliver as many keys, use as many of the other correlations and make the same calls. -/
structure MixEnv.SameV (me me' : MixEnv F) : Prop where
  ne : me.ne.SameV me'.ne
  sz : me.sz = me'.sz
  cap : me.cap = me'.cap
  keys : ∀ k, (me.keys k).length = (me'.keys k).length
  sv : ∀ k, me.svV k = me'.svV k
  svN : ∀ k, me.svN k = me'.svN k

/-- The same for sessions with field elements and conversions: the same seeds and random points, the same parameters and circuits, as many keys
of candidates. Both values of `Delta`, keys and hash functions are arbitrary. -/
structure ConvEnv.SameV (ce ce' : ConvEnv F) : Prop where
  ne : ce.ne.SameV ce'.ne
  threads : ce.base.threads = ce'.base.threads
  checkSz : ce.base.checkSz = ce'.base.checkSz
  polySz : ce.base.polySz = ce'.base.polySz
  polySeed : ∀ k, ce.base.polySeed k = ce'.base.polySeed k
  seed0 : ∀ k, ce.seed0 k = ce'.seed0 k
  av : ∀ n k, ce.avV n k = ce'.avV n k
  cfg : ce.cfg = ce'.cfg
  npSz : ce.npSz = ce'.npSz
  cand : ∀ k, (ce.candB k).length = (ce'.candB k).length
  ed : ∀ k n, ce.edV k n = ce'.edV k n
  rp : ∀ k, ce.rp k = ce'.rp k
  sum : ce.sum = ce'.sum
  diff : ce.diff = ce'.diff

end

/-- The instruction ends in a check that stops the verifier when it fails. -/
def MOp.stops : MOp → Prop
  | .mulN _ => True
  | .eq _ _ => True
  | _ => False

/-- Two branching programs that are the same but for the prover's inputs (`er` removes them), whatever bits are revealed; their results are
related by `Q`. -/
inductive Branch.Same {o α : Type} (er : o → o) (Q : α → α → Prop) : Branch o α → Branch o α → Prop where
  | fin {a b} : Q a b → Branch.Same er Q (.fin a) (.fin b)
  | ops {l l' k k'} : l.map er = l'.map er → (∀ outs, Branch.Same er Q (k outs) (k' outs)) → Branch.Same er Q (.ops l k) (.ops l' k')
  | undef : Branch.Same er Q .undef .undef

/-- The same for whole branching sessions. -/
def SessTree.Same (t t' : SessTree) : Prop :=
  Branch.Same BOp.erase (Branch.Same MOp.erase (Branch.Same BOp.erase (fun _ _ => True))) t t'

end EmpZk
