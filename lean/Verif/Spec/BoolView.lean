/-
Specification: what a verifier that may do anything learns from a boolean proof. The prover's correlations come from an ideal COT: the
verifier has any `Delta` (with low bit 1) and any keys (with low bit 0), the prover has a uniformly random bit `u` per correlation and the
block `key + u * Delta`.
-/
import Verif.Model.BoolProc
import Verif.Spec.ArithView
import Verif.Spec.BoolSim

namespace EmpZk

/-- The program when the correlations are `c 0`, `c 1`, .. -/
def CProg.given {C α : Type} : CProg C α → (Nat → C) → Proc α
  | .done a, _ => .done a
  | .fail, _ => .fail
  | .send bs k, c => .send bs (k.given c)
  | .recv n k, c => .recv n (fun b => (k b).given c)
  | .cor k, c => (k (c 0)).given (fun j => c (j + 1))

/-- A finite string of masks; what comes after it is never used. -/
def maskBits {m : Nat} (u : Fin m → Bool) (j : Nat) : Bool := if h : j < m then u ⟨j, h⟩ else false

/-- A party whose receives return the strings of `got` in this order sends `out`, returns `a` and leaves the strings `rest`. -/
inductive Proc.Does {α : Type} : Proc α → List (List Byte) → List (List Byte) → List Byte → α → Prop where
  | done (a : α) (rest) : Does (.done a) rest rest [] a
  | send (bs : List Byte) {k : Proc α} {got rest out a} (h : Does k got rest out a) : Does (.send bs k) got rest (bs ++ out) a
  | recv (n : Nat) (b : List Byte) {k : List Byte → Proc α} {got rest out a} (h : Does (k b) got rest out a) :
      Does (.recv n k) (b :: got) rest out a

/-- The bytes which an endpoint in state `io` puts on the wire during the calls `l`. -/
def sndWire (S : Nat) : SndSt → List SOp → List Byte
  | _, [] => []
  | io, .bit b :: l => (sendBit S io b).2 ++ sndWire S (sndRun S io [.bit b]) l
  | io, .flush :: l => (sndFlush S io).2 ++ sndWire S (sndRun S io [.flush]) l
  | io, .data bs :: l => ((sndFlush S io).2 ++ bs) ++ sndWire S (sndRun S io [.data bs]) l
  | io, .hash :: l => (sndFlush S io).2 ++ sndWire S (sndRun S io [.hash]) l
  | io, .back n :: l => (sndFlush S io).2 ++ sndWire S (sndRun S io [.back n]) l

section
variable {F : Type} [Field F] [BlockField F]

/-- The prover's correlation for the bit `u`, when the verifier has `delta` and `key`. -/
def cotOf (delta key : F) (u : Bool) : F := key + sel u delta

/-- The honest prover of a boolean proof with correlation bits `u`, as a party on the network. -/
def viewProverB {m : Nat} (ne : NetEnv F) (S : Nat) (ops : List BOp) (u : Fin m → Bool) : Proc (BPrv F) :=
  (bprvProg ne S ops).given (fun j => cotOf ne.e.delta (ne.e.key j) (maskBits u j))

end
end EmpZk
