/-
Specification: a simulator for the arithmetic protocol.

The simulator knows what the verifier knows (its keys and `Delta`), the shape of the program, and the revealed values.
It never sees a private input nor the prover's correlation values.
-/
import Verif.Spec.ArithCommit

namespace EmpZk

/-- The shape of an instruction: the value of a private input is erased. -/
def AOp.erase : AOp → AOp
  | .input _ => .input 0
  | o => o

/-- The environment with other correlation values of the prover; the verifier's keys and `Delta` are kept, the prover's MACs
follow. -/
def AEnv.withU (e : AEnv) (u : Nat → Fp) : AEnv :=
  { e with u := fun n => toW (u n), mac := fun n => toW (fp (e.key n) + fp e.delta * u n) }

/-- The verifier's knowledge: the prover's correlation values are erased. -/
def AEnv.blind (e : AEnv) : AEnv := { e with u := fun _ => 0, mac := fun _ => 0 }

/-- Simulated answer to a multiplication check: the second word is random, the first is the one the verifier expects. -/
def simMulA (e : AEnv) (t : Nat → Fp) (s : AVer) : W × W :=
  match mulSumsB e.delta s.gates e.threads (e.seed s.mulBatches) with
  | none => (0, 0)
  | some w => (addMod (multMod (toW (t s.used)) e.delta) (addMod w (low64 (e.keyU s.used))), toW (t s.used))

/-- Simulated answer to a polynomial check. -/
def simPolyA (e : AEnv) (t : Nat → Fp) (s : AVer) : W × W :=
  match uniHashCoeffGen (mod64 (e.polySeed s.polyBatches)) s.polys.length with
  | none => (0, 0)
  | some chi =>
    (addMod (addMod (innPrdtSumRed chi s.polys) (low64 (e.keyU s.used))) (multMod (toW (t s.used)) e.delta),
      toW (t s.used))

/-- Simulated message of one instruction; `outs` are the values revealed in the session. -/
def simMsgA (e : AEnv) (t : Nat → Fp) (outs : List W) (s : AVer) : AOp → Option AMsg
  | .input _ => some ⟨toW (t s.used), 0, 0⟩
  | .mul _ _ =>
      if s.gates.length = e.checkSz then some ⟨toW (t (s.used + 1)), simMulA e t s⟩ else some ⟨toW (t s.used), 0, 0⟩
  | .reveal _ => (outs[s.outs.length]?).map (fun w => ⟨w, 0, 0⟩)
  | .revealCheck _ x => some ⟨x, 0, 0⟩
  | .poly _ => some ⟨0, if s.polys.length ≥ e.polySz ∧ s.polys ≠ [] then simPolyA e t s else (0, 0)⟩
  | _ => some ⟨0, 0, 0⟩

/-- Simulated messages of a program. -/
def simRunA (e : AEnv) (t : Nat → Fp) (outs : List W) : AVer → List AOp → Option (AVer × List AMsg)
  | s, [] => some (s, [])
  | s, o :: os => do
      let m ← simMsgA e t outs s o
      let s' ← averStep e s m o
      let q ← simRunA e t outs s' os
      some (q.1, m :: q.2)

/-- Simulated messages of the end of the session. -/
def simFinA (e : AEnv) (t : Nat → Fp) (s : AVer) : Option AFin := do
  let p := if s.polys ≠ [] then simPolyA e t s else (0, 0)
  let s1 ← averFinPoly e s p
  let a := if s1.gates ≠ [] then simMulA e t s1 else (0, 0)
  let s2 ← averFinMul e s1 a
  some ⟨p, a, e.hash s2.stored⟩

/-- The simulated session. -/
def simSessionA (e : AEnv) (t : Nat → Fp) (outs : List W) (ops : List AOp) : Option (List AMsg × AFin) := do
  let r ← simRunA e t outs AVer.init ops
  let f ← simFinA e t r.1
  some (r.2, f)

end EmpZk
