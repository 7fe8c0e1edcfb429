/-
Specification: what the messages of a (possibly malicious) prover commit it to, in the arithmetic protocol.

A wire is committed by a pair (value, MAC) of field elements known to the prover and independent of the verifier's secret
`Delta`.  The only freedom the prover has is the word it sends for an input or a multiplication.
-/
import Verif.Model.ArithSession

namespace EmpZk

/-- The canonical word of a field element. -/
def toW (a : Fp) : W := BitVec.ofNat 64 a.val

/-- The prover's label of the value `c.1` with MAC `c.2`. -/
def lab (c : Fp × Fp) : U128 := makeBlock (toW c.1) (toW c.2)

/-- The verifier's key belonging to value `c.1` and MAC `c.2`. -/
def keyAt (d : Fp) (c : Fp × Fp) : U128 := keyWord (toW (c.2 - c.1 * d))

/-- What holds between the two parties before a session: all words are canonical and the correlation is
`mac = key + Delta * u`. -/
structure AEnv.Good (e : AEnv) : Prop where
  delta : Canon e.delta
  key : ∀ n, Canon (e.key n)
  u : ∀ n, Canon (e.u n)
  mac : ∀ n, Canon (e.mac n)
  pub : Canon e.pubMac
  cor : ∀ n, fp (e.mac n) = fp (e.key n) + fp e.delta * fp (e.u n)

/-- Everything in a session that does not depend on `Delta`. -/
structure AView where
  u : Nat → Fp
  mac : Nat → Fp
  pubMac : Fp
  threads : Nat
  checkSz : Nat
  polySz : Nat
  seed : Nat → Nat → U128
  polySeed : Nat → W
  hash : List W → BitVec 256

/-- The session in which the verifier's secret is `d`. -/
def AView.env (v : AView) (d : Fp) : AEnv where
  delta := toW d
  key := fun n => toW (v.mac n - v.u n * d)
  u := fun n => toW (v.u n)
  mac := fun n => toW (v.mac n)
  pubMac := toW v.pubMac
  threads := v.threads
  checkSz := v.checkSz
  polySz := v.polySz
  seed := v.seed
  polySeed := v.polySeed
  hash := v.hash

/-- The prover's part of a session. -/
def AEnv.view (e : AEnv) : AView where
  u := fun n => fp (e.u n)
  mac := fun n => fp (e.mac n)
  pubMac := fp e.pubMac
  threads := e.threads
  checkSz := e.checkSz
  polySz := e.polySz
  seed := e.seed
  polySeed := e.polySeed
  hash := e.hash

/-- The prover's `n`-th correlation. -/
def AView.cor (v : AView) (n : Nat) : Fp × Fp := (v.u n, v.mac n)

/-- The prover's label `M` and the verifier's label `K` authenticate the same value under `delta`: all words are canonical,
the verifier has no value, and `mac = key + value * delta`. -/
structure Auth (delta : W) (M K : U128) : Prop where
  value : Canon (high64 M)
  mac : Canon (low64 M)
  key : Canon (low64 K)
  top : high64 K = 0
  rel : fp (low64 M) = fp (low64 K) + fp (high64 M) * fp delta

/-- The three wires of a multiplication are authenticated. -/
structure AuthGate (delta : W) (A B : AGate) : Prop where
  left : Auth delta A.left B.left
  right : Auth delta A.right B.right
  out : Auth delta A.out B.out

/-- `P` holds for all wires of a statement. -/
def APoly.All {α : Type} (P : α → Prop) : APoly α → Prop
  | .deg2 _ terms => ∀ t ∈ terms, P t.2.1 ∧ P t.2.2
  | .inner _ terms => ∀ t ∈ terms, P t.1 ∧ P t.2

/-- A multiplication on committed wires. -/
structure CGate where
  left : Fp × Fp
  right : Fp × Fp
  out : Fp × Fp

/-- The product is right. -/
def CGate.Correct (g : CGate) : Prop := g.out.1 = g.left.1 * g.right.1

def CGate.lab (g : CGate) : AGate := ⟨EmpZk.lab g.left, EmpZk.lab g.right, EmpZk.lab g.out⟩
def CGate.keyAt (d : Fp) (g : CGate) : AGate := ⟨EmpZk.keyAt d g.left, EmpZk.keyAt d g.right, EmpZk.keyAt d g.out⟩

/-- The ranges into which a batch is divided: one below 32 gates, otherwise those of `splitTasks`; `none` when the code
divides by zero or the batch is empty. -/
def mulTasks (cnt threads : Nat) : Option (List (Nat × Nat)) :=
  if cnt < 32 then (if cnt = 0 then none else some [(0, cnt)]) else splitTasks cnt threads

/-- A batch of multiplications under check. -/
structure ComMul where
  gates : List CGate
  seeds : Nat → U128
  ope : Nat
  ans : W × W

/-- A batch of statements under check. -/
structure ComAPoly where
  polys : List (APoly (Fp × Fp))
  seed : Fp
  ope : Nat
  ans : W × W

/-- Committed state.  `opened`: wires opened and the value each was opened to; `outs`: values returned by `reveal`;
`exps`: pairs (expected, sent) of `reveal` with an expected value. -/
structure ACom where
  wires : List (Fp × Fp)
  used : Nat
  gates : List CGate
  polys : List (APoly (Fp × Fp))
  opened : List ((Fp × Fp) × Fp)
  outs : List Fp
  exps : List (W × Fp)
  mulBatches : Nat
  polyBatches : Nat
  mulLog : List ComMul
  polyLog : List ComAPoly

def ACom.init : ACom := ⟨[], 1, [], [], [], [], [], 0, 0, [], []⟩

/-- The buffered multiplications are put under check. -/
def acomMulCheck (v : AView) (s : ACom) (ans : W × W) : ACom :=
  { s with used := s.used + 1, gates := [], mulBatches := s.mulBatches + 1,
           mulLog := s.mulLog ++ [⟨s.gates, v.seed s.mulBatches, s.used, ans⟩] }

/-- The buffered statements are put under check. -/
def acomPolyCheck (v : AView) (s : ACom) (ans : W × W) : ACom :=
  { s with used := s.used + 1, polys := [], polyBatches := s.polyBatches + 1,
           polyLog := s.polyLog ++ [⟨s.polys, fp (v.polySeed s.polyBatches), s.used, ans⟩] }

/-- A full buffer is put under check. -/
def acomMulRoom (v : AView) (s : ACom) (ans : W × W) : Option ACom :=
  if s.gates.length = v.checkSz then
    (if (mulTasks s.gates.length v.threads).isSome then some (acomMulCheck v s ans) else none)
  else some s

/-- A new multiplication. -/
def acomMulPush (v : AView) (s : ACom) (a b : Fp × Fp) (d : Fp) : Option ACom :=
  if s.gates.length < v.checkSz then
    let c : Fp × Fp := (v.u s.used - d, v.mac s.used)
    some { s with wires := s.wires ++ [c], used := s.used + 1, gates := s.gates ++ [⟨a, b, c⟩] }
  else none

/-- A full buffer of statements is put under check. -/
def acomPolyRoom (v : AView) (s : ACom) (ans : W × W) : ACom :=
  if s.polys.length ≥ v.polySz ∧ s.polys ≠ [] then acomPolyCheck v s ans else s

/-- A new statement. -/
def acomPolyPush (v : AView) (s : ACom) (p : APoly (Fp × Fp)) : Option ACom :=
  if s.polys.length < v.polySz then some { s with polys := s.polys ++ [p] } else none

/-- One instruction with the prover's message `m`. -/
def acomStep (v : AView) (s : ACom) (m : AMsg) : AOp → Option ACom
  | .input _ => some { s with wires := s.wires ++ [(v.u s.used - fp m.w, v.mac s.used)], used := s.used + 1 }
  | .pub w => some { s with wires := s.wires ++ [(fp w, v.pubMac)] }
  | .add i j => do
      let a ← s.wires[i]?
      let b ← s.wires[j]?
      some { s with wires := s.wires ++ [(a.1 + b.1, a.2 + b.2)] }
  | .mul i j => do
      let a ← s.wires[i]?
      let b ← s.wires[j]?
      let r ← acomMulRoom v s m.ans
      acomMulPush v r a b (fp m.w)
  | .mulc i c => do
      let a ← s.wires[i]?
      some { s with wires := s.wires ++ [(a.1 * fp c, a.2 * fp c)] }
  | .reveal i => do
      let a ← s.wires[i]?
      some { s with opened := s.opened ++ [(a, fp m.w)], outs := s.outs ++ [fp m.w] }
  | .revealCheck i x => do
      let a ← s.wires[i]?
      some { s with opened := s.opened ++ [(a, fp m.w)], exps := s.exps ++ [(x, fp m.w)] }
  | .revealZero i => do
      let a ← s.wires[i]?
      some { s with opened := s.opened ++ [(a, 0)] }
  | .poly st => do
      let p ← st.lookup s.wires
      acomPolyPush v (acomPolyRoom v s m.ans) p

/-- A whole program. -/
def acomRun (v : AView) : ACom → List AOp → List AMsg → Option ACom
  | s, [], [] => some s
  | s, o :: os, m :: ms => do
      let s' ← acomStep v s m o
      acomRun v s' os ms
  | _, _, _ => none

def acomFinPoly (v : AView) (s : ACom) (ans : W × W) : ACom :=
  if s.polys ≠ [] then acomPolyCheck v s ans else s

def acomFinMul (v : AView) (s : ACom) (ans : W × W) : Option ACom :=
  if s.gates ≠ [] then
    (if (mulTasks s.gates.length v.threads).isSome then some (acomMulCheck v s ans) else none)
  else some s

/-- End of the session. -/
def acomFinalize (v : AView) (s : ACom) (m : AFin) : Option ACom :=
  acomFinMul v (acomFinPoly v s m.polyAns) m.mulAns

/-- Committed state of a whole session. -/
def acomSession (v : AView) (ops : List AOp) (ms : List AMsg) (fin : AFin) : Option ACom := do
  let s ← acomRun v ACom.init ops ms
  acomFinalize v s fin

end EmpZk
