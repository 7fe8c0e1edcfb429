/-
Specification of a session that mixes boolean gates, field arithmetic and conversions: what is assumed of the outside, and the plain
computation on bits and field elements.
-/
import Verif.Model.ConvNet
import Verif.Spec.BoolNet
import Verif.Spec.ArithCommit
import Verif.Spec.LateInput

namespace EmpZk

/-- The bits of a 62-bit integer, lowest first. -/
def bits62 (x : Int62) : List Bool := (List.range 62).map (fun i => x.getLsbD i)

/-- The number with the given bits, lowest first. -/
def valOf (bs : List Bool) : Nat := ((List.range bs.length).map (fun i => if bs[i]? = some true then 2 ^ i else 0)).sum

/-- A circuit computes `f`: on the bits of any two integers it only adds wires, and the wires of the result hold the bits of `f`. -/
def Circ62.Computes (c : Circ62) (f : Int62 → Int62 → Int62) : Prop :=
  ∀ x y o cl, ∃ w, c.ops.foldlM plainStep ⟨bits62 x ++ bits62 y, o, cl⟩ = some ⟨w, o, cl⟩ ∧ pick w c.out = some (bits62 (f x y))

/-- Number of AND gates. -/
def Circ62.ands (c : Circ62) : Nat := c.ops.countP BOp.isAnd

section
variable {F : Type} [Field F] [BlockField F]

/-- What is assumed: the two environments are good; sizes are sane; the candidates are authenticated and there are enough of them; the calls
of the outside mirror each other; digests have 32 bytes; the circuits are correct (emp-tool, external). -/
structure ConvEnv.Good (ce : ConvEnv F) : Prop where
  ne : ce.ne.Good
  env : ce.env.Good
  av : ∀ n k, List.Forall₂ Mirror (ce.avP n k) (ce.avV n k)
  ed : ∀ k n, List.Forall₂ Mirror (ce.edP k n) (ce.edV k n)
  N : 0 < ce.cfg.N
  C : 0 < ce.cfg.C
  ell : ce.cfg.ell ≤ ce.npSz
  small : ce.cfg.ell < 2 ^ 32
  auth : ∀ k, List.Forall₂ (Auth ce.base.delta) (ce.candA k) (ce.candB k)
  room : ∀ k, ce.npSz ≤ (ce.candA k).length
  dig : ∀ l, (ce.dig l).length = 32
  sum : ce.sum.Computes f2Sum
  diff : ce.diff.Computes f2Diff

/-- Generation `g` uses filling `g / r` of `arith_candidate` from index `ell * (g % r)` on, where `r` generations fit into one filling. -/
def ConvEnv.fill (ce : ConvEnv F) (g : Nat) : List U128 := ce.candA (g / (ce.npSz / ce.cfg.ell))
/-- First index of generation `g`. -/
def ConvEnv.start (ce : ConvEnv F) (g : Nat) : Nat := ce.cfg.ell * (g % (ce.npSz / ce.cfg.ell))

/-- The two defects of the generation do not show (C44: the random point is not so large that candidates behind the end are opened; C43: no
bucket has two elements with sum `p`). -/
structure ConvEnv.Lucky (ce : ConvEnv F) : Prop where
  point : ∀ g, ce.rp g + ce.cfg.C ≤ ce.cfg.ellF
  bucket : ∀ g j i, j < ce.cfg.bm1 → i < ce.cfg.N → ∀ a b, (ce.fill g)[ce.start g + i]? = some a →
    (ce.fill g)[ce.start g + partnerF2 ce.cfg (ce.rp g) j i]? = some b → (high64 a).toNat + (high64 b).toNat ≠ pN

/-- Plain values: bits, field elements; edaBits left of the current generation; AND gates and multiplications so far. -/
structure CPlain where
  b : Plain
  a : APlain
  stock : Nat
  ands : Nat
  muls : Nat

/-- The next edaBit is used: one circuit for a difference, and a new generation if none is left (`N` sums in each of the passes). -/
def useOne (ce : ConvEnv F) (s : CPlain) : CPlain :=
  if s.stock = 0 then
    { s with stock := ce.cfg.N - 1, ands := s.ands + ce.cfg.bm1 * (ce.cfg.N * ce.sum.ands) + ce.diff.ands }
  else { s with stock := s.stock - 1, ands := s.ands + ce.diff.ands }

/-- `n` edaBits are used. -/
def useEda (ce : ConvEnv F) : Nat → CPlain → CPlain
  | 0, s => s
  | n + 1, s => useEda ce n (useOne ce s)

omit [Field F] [BlockField F] in
/-- The field element with the bits of 62 given wires; `none` unless the number is below `p`. -/
def fieldAt (w : List Bool) (ws : List Nat) : Option Fp := do
  let bs ← pick w ws
  if bs.length = 62 ∧ valOf bs < pN then some ((valOf bs : Nat) : Fp) else none

/-- The bits of a field element. -/
def bitsFp (x : Fp) : List Bool := bits62 (BitVec.ofNat 62 x.val)

/-- One instruction on plain values; `none` if an operand does not exist, or a converted integer has not 62 bits or is not below `p`. -/
def cplainStep (ce : ConvEnv F) (s : CPlain) : COp → Option CPlain
  | .bool o => (plainStep s.b o).map (fun b => { s with b := b, ands := s.ands + (if o.isAnd then 1 else 0) })
  | .arith o => (aplainStep s.a o).map (fun a => { s with a := a, muls := s.muls + mulCount [o] })
  | .b2a ws => (fieldAt s.b.wires ws).map (fun x => useEda ce 1 { s with a := { s.a with wires := s.a.wires ++ [x] } })
  | .a2b i => (s.a.wires[i]?).map (fun x => useEda ce 1 { s with b := { s.b with wires := s.b.wires ++ bitsFp x } })
  | .b2aN wss => (wss.mapM (fieldAt s.b.wires)).map (fun xs =>
      useEda ce wss.length { s with a := { s.a with wires := s.a.wires ++ xs } })
  | .a2bN is => (pick s.a.wires is).map (fun xs =>
      useEda ce is.length { s with b := { s.b with wires := s.b.wires ++ xs.flatMap bitsFp } })
  | .sync => some s

/-- A whole program on plain values. -/
def cplainRun (ce : ConvEnv F) (ops : List COp) : Option CPlain :=
  ops.foldlM (cplainStep ce) ⟨⟨[], [], []⟩, ⟨[], [], []⟩, 0, 0, 0⟩

/-- The words of the arithmetic instructions are below `p`, as the interface requires. -/
def COp.CanonC : COp → Prop
  | .arith o => o.CanonC
  | _ => True

end
end EmpZk
