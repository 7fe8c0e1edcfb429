/-
Specification of a boolean proof over the byte channel: what is assumed of the outside, and the sequence of calls the
verifier makes on its endpoint, as a function of the program alone.
-/
import Verif.Model.BoolNet

namespace EmpZk

section
variable {F : Type} [Field F] [BlockField F]

/-- What is assumed: the correlations are those of `FerretCOT` (external), blocks and digests have fixed sizes and can be
read back, the calls made by the two sides of `rcot` (external) mirror each other. -/
structure NetEnv.Good (ne : NetEnv F) : Prop where
  e : ne.e.Good
  dec_enc : ∀ x, ne.dec (ne.enc x) = x
  enc_length : ∀ x, (ne.enc x).length = 16
  decD_encD : ∀ x, ne.decD (ne.encD x) = x
  encD_length : ∀ x, (ne.encD x).length = 32
  ext : ∀ used k, List.Forall₂ Mirror (ne.extP used k) (ne.extV used k)

/-- Numbers on which the calls depend: correlations used, gates and statements waiting, polynomial checks run. -/
structure NetCnt where
  used : Nat
  gates : Nat
  polys : Nat
  polyB : Nat

/-- After a check of AND gates. -/
def NetCnt.andChk (c : NetCnt) : NetCnt := ⟨c.used + 128, 0, c.polys, c.polyB⟩
/-- After a check of statements. -/
def NetCnt.polyChk (c : NetCnt) : NetCnt := ⟨c.used + 128, c.gates, 0, c.polyB + 1⟩
/-- Room for one more AND gate. -/
def cntRoomA (ne : NetEnv F) (c : NetCnt) : NetCnt := if c.gates = ne.e.checkSz then c.andChk else c
/-- Room for one more statement. -/
def cntRoomP (ne : NetEnv F) (c : NetCnt) : NetCnt := if c.polys ≥ ne.e.polySz ∧ c.polys ≠ 0 then c.polyChk else c

/-- The numbers after one instruction. -/
def cntStep (ne : NetEnv F) (c : NetCnt) : BOp → NetCnt
  | .input _ => ⟨c.used + 1, c.gates, c.polys, c.polyB⟩
  | .and _ _ => ⟨(cntRoomA ne c).used + 1, (cntRoomA ne c).gates + 1, (cntRoomA ne c).polys, (cntRoomA ne c).polyB⟩
  | .poly _ => ⟨(cntRoomP ne c).used, (cntRoomP ne c).gates, (cntRoomP ne c).polys + 1, (cntRoomP ne c).polyB⟩
  | _ => c

/-- The numbers after a program. -/
def cntRun (ne : NetEnv F) (c : NetCnt) (ops : List BOp) : NetCnt := ops.foldl (cntStep ne) c

/-- The verifier's calls during a check of AND gates. -/
def andCallsV (ne : NetEnv F) (c : NetCnt) : List ROp := [.hash] ++ ne.extV c.used 128 ++ [.data 32, .flush]
/-- The verifier's calls during a check of statements. -/
def polyCallsV (ne : NetEnv F) (c : NetCnt) : List ROp :=
  [.back (ne.enc (ne.e.polySeed c.polyB))] ++ ne.extV c.used 128 ++ [.data 32]

/-- The verifier's calls during one instruction. -/
def callsV (ne : NetEnv F) (c : NetCnt) : BOp → List ROp
  | .input _ => ne.extV c.used 1 ++ [.bit]
  | .and _ _ => (if c.gates = ne.e.checkSz then andCallsV ne c else []) ++ (ne.extV (cntRoomA ne c).used 1 ++ [.bit])
  | .reveal _ => [.bit]
  | .poly _ => if c.polys ≥ ne.e.polySz ∧ c.polys ≠ 0 then polyCallsV ne c else []
  | _ => []

/-- The verifier's calls during a program. -/
def runCallsV (ne : NetEnv F) : NetCnt → List BOp → List ROp
  | _, [] => []
  | c, o :: os => callsV ne c o ++ runCallsV ne (cntStep ne c o) os

/-- The verifier's calls during `finalize_zk_bool`. -/
def finCallsV (ne : NetEnv F) (c : NetCnt) : List ROp :=
  (if c.polys ≠ 0 then polyCallsV ne c else []) ++
    ((if c.gates ≠ 0 then andCallsV ne (if c.polys ≠ 0 then c.polyChk else c) else []) ++ [.data 32, .flush])

/-- All calls of the verifier. -/
def sessionCallsV (ne : NetEnv F) (ops : List BOp) : List ROp :=
  ne.extV 0 1 ++ (runCallsV ne ⟨1, 0, 0, 0⟩ ops ++ finCallsV ne (cntRun ne ⟨1, 0, 0, 0⟩ ops))

end
end EmpZk
