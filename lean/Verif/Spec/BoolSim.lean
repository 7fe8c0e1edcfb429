/-
Specification: a simulator for the boolean protocol.

The simulator knows what the verifier knows (its keys and `Delta`), the shape of the program, and the revealed values.
It never sees a private input nor the prover's correlation bits.
-/
import Verif.Model.BoolSession
import Verif.Spec.BoolCommit

namespace EmpZk

/-- The shape of an instruction: the value of a private input is erased. -/
def BOp.erase : BOp → BOp
  | .input _ => .input false
  | o => o

section
variable {F : Type} [Field F] [BlockField F]

/-- The environment with other correlation bits of the prover (the verifier's keys and `Delta` are kept). -/
def BEnv.withChoice (e : BEnv F) (c : Nat → Bool) : BEnv F := { e with choice := c }

/-- The verifier's knowledge: the prover's correlation bits are erased. -/
def BEnv.blind (e : BEnv F) : BEnv F := e.withChoice (fun _ => false)

/-- 128 bits `u n, u (n+1), ...` as one block. -/
def packBits (u : Nat → Bool) (n : Nat) : F := ∑ i : Fin 128, bit (u (n + i)) * gX ^ (i : Nat)

/-- Simulated answer to an AND check: the second block is random, the first is the one the verifier expects. -/
def simAnd (e : BEnv F) (u : Nat → Bool) (s : VerSt F) : F × F :=
  match splitTasks s.gates.length e.threads with
  | none => (0, 0)
  | some tasks =>
    (packBlocks (fun i => e.key (s.used + i)) +
        checkSumVer e.delta s.gates (e.chal s.andBatches s.transcript) tasks 0 + packBits u s.used * e.delta,
      packBits u s.used)

/-- Simulated answer to a polynomial check. -/
def simPoly (e : BEnv F) (u : Nat → Bool) (s : VerSt F) : F × F :=
  (chiSum (e.polySeed s.polyBatches) s.polys + packBlocks (fun i => e.key (s.used + i)) +
      packBits u s.used * e.delta,
    packBits u s.used)

/-- Simulated message of one instruction; `outs` are the values revealed in the session. -/
def simMsg (e : BEnv F) (u : Nat → Bool) (outs : List Bool) (s : VerSt F) : BOp → Option (BMsg F)
  | .input _ => some ⟨u s.used, 0, 0⟩
  | .pub _ => some ⟨false, 0, 0⟩
  | .xor _ _ => some ⟨false, 0, 0⟩
  | .not _ => some ⟨false, 0, 0⟩
  | .and _ _ =>
      if s.gates.length = e.checkSz then some ⟨u (s.used + 128), simAnd e u s⟩ else some ⟨u s.used, 0, 0⟩
  | .reveal _ => (outs[s.outs.length]?).map (fun b => ⟨b, 0, 0⟩)
  | .poly _ => some ⟨false, if s.polys.length ≥ e.polySz ∧ s.polys ≠ [] then simPoly e u s else (0, 0)⟩

variable [DecidableEq F]

/-- Simulated messages of a program. -/
def simRun (e : BEnv F) (u : Nat → Bool) (outs : List Bool) : VerSt F → List BOp → Option (VerSt F × List (BMsg F))
  | s, [] => some (s, [])
  | s, o :: os => do
      let m ← simMsg e u outs s o
      let s' ← verStep e s m o
      let q ← simRun e u outs s' os
      some (q.1, m :: q.2)

/-- Simulated messages of the end of the session. -/
def simFin (e : BEnv F) (u : Nat → Bool) (s : VerSt F) : Option (BFin F) := do
  let p := if s.polys ≠ [] then simPoly e u s else (0, 0)
  let s1 := verFinPoly e s p
  let a := if s1.gates ≠ [] then simAnd e u s1 else (0, 0)
  let s2 ← verFinAnd e s1 a
  some ⟨p, a, e.hash s2.digest⟩

/-- The simulated session. -/
def simSession (e : BEnv F) (u : Nat → Bool) (outs : List Bool) (ops : List BOp) :
    Option (List (BMsg F) × BFin F) := do
  let r ← simRun e u outs VerSt.init ops
  let f ← simFin e u r.1
  some (r.2, f)

end
end EmpZk
