/-
Specification: what the messages of a (possibly malicious) prover commit it to.

A wire is committed by a block `m` known to the prover, fixed before and independent of the verifier's secret `Delta`;
the committed bit is `lsb m`.  The only freedom the prover has is the bit it sends for an input or an AND gate.
-/
import Verif.Model.BoolSession

namespace EmpZk

section
variable {F : Type} [Field F] [BlockField F]

/-- The key matching a block `m` of the prover: `m + lsb(m) * delta`. -/
def keyOf (delta m : F) : F := m + bit (lsb m) * delta

/-- Everything in a session that does not depend on `Delta`: the prover's correlation blocks, and the fields of `BEnv`
with the same names. -/
structure BView (F : Type) where
  mac : Nat → F
  pub0 : F
  pub1 : F
  threads : Nat
  checkSz : Nat
  polySz : Nat
  chal : Nat → List Bool → Nat → F
  polySeed : Nat → F
  hash : List F → F

/-- The session in which the verifier's secret is `delta`. -/
def BView.env (v : BView F) (delta : F) : BEnv F where
  delta := delta
  key := fun n => keyOf delta (v.mac n)
  choice := fun n => lsb (v.mac n)
  pub0 := v.pub0
  pub1 := v.pub1
  threads := v.threads
  checkSz := v.checkSz
  polySz := v.polySz
  chal := v.chal
  polySeed := v.polySeed
  hash := v.hash

/-- The prover's part of a session. -/
def BEnv.view (e : BEnv F) : BView F where
  mac := e.mac
  pub0 := e.pub0
  pub1 := e.pub1
  threads := e.threads
  checkSz := e.checkSz
  polySz := e.polySz
  chal := e.chal
  polySeed := e.polySeed
  hash := e.hash

/-- A batch of AND gates under check, on committed blocks. -/
structure ComAnd (F : Type) where
  gates : List (Gate F)
  seeds : Nat → F
  ope : Nat
  ans : F × F

/-- A batch of polynomial statements under check, on committed blocks. -/
structure ComPoly (F : Type) where
  polys : List (PolyStmt F)
  seed : F
  ope : Nat
  ans : F × F

/-- Committed state. -/
structure ComSt (F : Type) where
  wires : List F
  used : Nat
  gates : List (Gate F)
  polys : List (PolyStmt F)
  transcript : List Bool
  opened : List (F × Bool)
  andBatches : Nat
  polyBatches : Nat
  andLog : List (ComAnd F)
  polyLog : List (ComPoly F)

def ComSt.init : ComSt F := ⟨[], 1, [], [], [], [], 0, 0, [], []⟩

/-- The AND gates buffered so far are put under check. -/
def comAndCheck (v : BView F) (s : ComSt F) (ans : F × F) : ComSt F :=
  { s with used := s.used + 128, gates := [], andBatches := s.andBatches + 1,
           andLog := s.andLog ++ [⟨s.gates, v.chal s.andBatches s.transcript, s.used, ans⟩] }

/-- The statements buffered so far are put under check. -/
def comPolyCheck (v : BView F) (s : ComSt F) (ans : F × F) : ComSt F :=
  { s with used := s.used + 128, polys := [], polyBatches := s.polyBatches + 1,
           polyLog := s.polyLog ++ [⟨s.polys, v.polySeed s.polyBatches, s.used, ans⟩] }

/-- A full buffer of AND gates is put under check. -/
def comAndRoom (v : BView F) (s : ComSt F) (ans : F × F) : Option (ComSt F) :=
  if s.gates.length = v.checkSz then
    (if (splitTasks s.gates.length v.threads).isSome then some (comAndCheck v s ans) else none)
  else some s

/-- A new AND gate on committed blocks. -/
def comAndPush (v : BView F) (s : ComSt F) (a b : F) (d : Bool) : Option (ComSt F) :=
  if s.gates.length < v.checkSz then
    let c := v.mac s.used + bit d
    some { s with wires := s.wires ++ [c], used := s.used + 1, transcript := s.transcript ++ [d],
                  gates := s.gates ++ [⟨a, b, c⟩] }
  else none

/-- A full buffer of statements is put under check. -/
def comPolyRoom (v : BView F) (s : ComSt F) (ans : F × F) : ComSt F :=
  if s.polys.length ≥ v.polySz ∧ s.polys ≠ [] then comPolyCheck v s ans else s

/-- A new statement on committed blocks. -/
def comPolyPush (v : BView F) (s : ComSt F) (p : PolyStmt F) : Option (ComSt F) :=
  if s.polys.length < v.polySz then some { s with polys := s.polys ++ [p] } else none

/-- One instruction with the prover's message `m`. -/
def comStep (v : BView F) (s : ComSt F) (m : BMsg F) : BOp → Option (ComSt F)
  | .input _ => some { s with wires := s.wires ++ [v.mac s.used + bit m.bit], used := s.used + 1,
                              transcript := s.transcript ++ [m.bit] }
  | .pub b => some { s with wires := s.wires ++ [pubPrv v.pub0 v.pub1 b] }
  | .xor i j => do
      let a ← s.wires[i]?
      let b ← s.wires[j]?
      some { s with wires := s.wires ++ [a + b] }
  | .not i => do
      let a ← s.wires[i]?
      some { s with wires := s.wires ++ [a + 1] }
  | .and i j => do
      let a ← s.wires[i]?
      let b ← s.wires[j]?
      let r ← comAndRoom v s m.ans
      comAndPush v r a b m.bit
  | .reveal i => do
      let a ← s.wires[i]?
      some { s with opened := s.opened ++ [(a, m.bit)], transcript := s.transcript ++ [m.bit] }
  | .poly st => do
      let p ← st.lookup s.wires
      comPolyPush v (comPolyRoom v s m.ans) p

/-- A whole program. -/
def comRun (v : BView F) : ComSt F → List BOp → List (BMsg F) → Option (ComSt F)
  | s, [], [] => some s
  | s, o :: os, m :: ms => do
      let s' ← comStep v s m o
      comRun v s' os ms
  | _, _, _ => none

/-- End of the session: statements still buffered are put under check. -/
def comFinPoly (v : BView F) (s : ComSt F) (ans : F × F) : ComSt F :=
  if s.polys ≠ [] then comPolyCheck v s ans else s

/-- End of the session: gates still buffered are put under check. -/
def comFinAnd (v : BView F) (s : ComSt F) (ans : F × F) : Option (ComSt F) :=
  if s.gates ≠ [] then
    (if (splitTasks s.gates.length v.threads).isSome then some (comAndCheck v s ans) else none)
  else some s

/-- End of the session. -/
def comFinalize (v : BView F) (s : ComSt F) (m : BFin F) : Option (ComSt F) :=
  comFinAnd v (comFinPoly v s m.polyAns) m.andAns

/-- Committed state of a whole session. -/
def comSession (v : BView F) (ops : List BOp) (ms : List (BMsg F)) (fin : BFin F) : Option (ComSt F) := do
  let s ← comRun v ComSt.init ops ms
  comFinalize v s fin

/-- A committed gate is correct: the bit of the output is the AND of the bits of the inputs. -/
def Gate.Correct (g : Gate F) : Prop := lsb g.out = (lsb g.left && lsb g.right)

omit [Field F] [BlockField F] in
/-- A gate consists of the given wires. -/
def GateAt (w : List F) (t : Nat × Nat × Nat) (g : Gate F) : Prop :=
  w[t.1]? = some g.left ∧ w[t.2.1]? = some g.right ∧ w[t.2.2]? = some g.out

end
end EmpZk
