/-
Specification of a session that mixes boolean gates with products over F_{2^128}: what is assumed of the outside, and the plain computation,
with the challenges as an arbitrary sequence.
-/
import Verif.Model.MixNet
import Verif.Spec.BoolNet
import Verif.Spec.F2kCommit
import Verif.Spec.LateInput

namespace EmpZk

section
variable {F : Type} [Field F] [BlockField F]

/-- The field element with the given coefficients. -/
def packList (bs : List Bool) : F := ∑ i : Fin bs.length, bit bs[i] * gX ^ (i : Nat)

/-- What is assumed: the boolean environment is good; buffers are not empty; each refill delivers enough correlations, and the keys are those
of the pairs (`SVoleF2k`, external); its calls mirror each other; the two halves of a block hold its coefficients. -/
structure MixEnv.Good (me : MixEnv F) : Prop where
  ne : me.ne.Good
  sz : 0 < me.sz
  cap : 0 < me.cap
  keys : ∀ k, me.keys k = (me.auth k).map (keyF me.ne.e.delta)
  room : ∀ k, me.sz ≤ (me.auth k).length
  sv : ∀ k, List.Forall₂ Mirror (me.svP k) (me.svV k)
  lo : ∀ v, (me.lo v).length = 65
  hi : ∀ v, (me.hi v).length = 65
  split : ∀ v, packList ((me.lo v).take 64 ++ (me.hi v).take 64) = v

/-- Plain values of a mixed session: bits, blocks, challenges so far. -/
structure MPlain (F : Type) where
  bp : Plain
  fs : List F
  rs : List F

/-- The field element made of some pieces, each with the position of its lowest coefficient; no piece may go beyond coefficient 127. -/
def piecesVal (wires : List Bool) : List (Nat × List Nat) → Option F
  | [] => some 0
  | (off, ws) :: ps => do
      let bs ← pick wires ws
      let r ← piecesVal wires ps
      if off + ws.length ≤ 128 then some (gX ^ off * packList bs + r) else none

/-- A combination of blocks with challenges as coefficients. -/
def linVal (s : MPlain F) (l : List (Nat × Nat)) : Option F := do
  let rs ← pick s.rs (l.map Prod.fst)
  let xs ← pick s.fs (l.map Prod.snd)
  some (List.zipWith (· * ·) rs xs).sum

variable [DecidableEq F]

/-- One instruction on plain values with the challenges `ch`; `none`: an operand does not exist, a packing of more than 128 bits, a product of
fewer than three or more than five blocks, or a comparison of different blocks. -/
def mplainStep (ch : Nat → F) (s : MPlain F) : MOp → Option (MPlain F)
  | .bool o => (plainStep s.bp o).map (fun b => { s with bp := b })
  | .pack ws => do
      let bs ← pick s.bp.wires ws
      if ws.length ≤ 128 then some { s with fs := s.fs ++ [packList bs] } else none
  | .chal => some { s with rs := s.rs ++ [ch s.rs.length] }
  | .addc i k => do
      let x ← s.fs[i]?
      let r ← s.rs[k]?
      some { s with fs := s.fs ++ [x + r] }
  | .mul i j => do
      let a ← s.fs[i]?
      let b ← s.fs[j]?
      some { s with fs := s.fs ++ [a * b] }
  | .mulN is => do
      let xs ← pick s.fs is
      if 3 ≤ is.length ∧ is.length ≤ 5 then some { s with fs := s.fs ++ [xs.prod] } else none
  | .eq i j => do
      let a ← s.fs[i]?
      let b ← s.fs[j]?
      if a = b then some s else none
  | .sync => some s
  | .packAt ps => do
      let x ← piecesVal s.bp.wires ps
      some { s with fs := s.fs ++ [x] }
  | .chals n => some { s with rs := s.rs ++ (List.range n).map (fun i => ch (s.rs.length + i)) }
  | .lin l => do
      let x ← linVal s l
      some { s with fs := s.fs ++ [x] }

/-- Instructions one after the other on plain values. -/
def mplainOps (ch : Nat → F) (s : MPlain F) (ops : List MOp) : Option (MPlain F) := ops.foldlM (mplainStep ch) s

/-- A whole mixed session on plain values. -/
def mplainRun (ch : Nat → F) (pre : List BOp) (ops : List MOp) (post : List BOp) : Option (MPlain F) := do
  let b ← plainRun pre
  let s ← mplainOps ch ⟨b, [], []⟩ ops
  let b2 ← post.foldlM plainStep s.bp
  some { s with bp := b2 }

omit [Field F] [BlockField F] [DecidableEq F]

/-- AND gates of a mixed session. -/
def MOp.isAnd : MOp → Bool
  | .bool o => o.isAnd
  | _ => false

/-- Products of two blocks. -/
def MOp.isMul : MOp → Bool
  | .mul _ _ => true
  | _ => false

/-- Number of AND gates of a mixed session. -/
def mixAnds (pre : List BOp) (ops : List MOp) (post : List BOp) : Nat :=
  pre.countP BOp.isAnd + ops.countP MOp.isAnd + post.countP BOp.isAnd

/-- Number of products of two blocks. -/
def mixMuls (ops : List MOp) : Nat := ops.countP MOp.isMul

end
end EmpZk
