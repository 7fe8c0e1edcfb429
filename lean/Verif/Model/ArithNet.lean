/-
Model of emp-zk/emp-zk-arith over the network: whole sessions of both parties as programs that send and receive bytes.
The computations are those of `Verif.Model.ArithSession`; here is added what is sent, when, by whom, and in how many bytes.
-/
import Verif.Model.ArithSession
import Verif.Model.Bytes
import Verif.Model.Proc

namespace EmpZk

/-- A session over the network. `base`: see `AEnv` (its `seed` is not used). `seed0 b`: block drawn by the verifier for the `b`-th
multiplication check (ostriple.h:349), `expand`: `PRG(&seed0).random_block` (ostriple.h:348, 351, external). `ext n`: messages of
`vole->extend(&x, 1)` when `n` outputs have been consumed, with their sender (`true`: prover); none while outputs are in stock
(vole_triple.h:216-255). Simplification: their contents are fixed, their results are `base.u`, `base.mac`, `base.key`, and all of
them go over `ios[0]`. -/
structure ANetEnv where
  base : AEnv
  seed0 : Nat → U128
  expand : U128 → Nat → U128
  ext : Nat → List (Bool × List Byte)

/-- The session as seen by `Verif.Model.ArithSession`: the seeds are those expanded from the verifier's blocks (ostriple.h:349-351). -/
def ANetEnv.env (ne : ANetEnv) : AEnv := { ne.base with seed := fun b => ne.expand (ne.seed0 b) }

/-- `sizeof(uint64_t)` bytes of a word (ostriple.h:75, 137). -/
def encW (w : W) : List Byte := leBytes 8 w.toNat
/-- The word in 8 received bytes (ostriple.h:98, 155). -/
def decW (bs : List Byte) : W := BitVec.ofNat 64 (leVal bs)
/-- A block as 16 bytes (ostriple.h:350). -/
def encBlk (b : U128) : List Byte := leBytes 16 b.toNat
/-- The block in 16 received bytes (ostriple.h:347). -/
def decBlk (bs : List Byte) : U128 := BitVec.ofNat 128 (leVal bs)
/-- `check_sum` as 16 bytes (ostriple.h:225, polynomial.h:61). -/
def encAns (a : W × W) : List Byte := encW a.1 ++ encW a.2
/-- `check_sum` from 16 received bytes (ostriple.h:232, polynomial.h:72). -/
def decAns (bs : List Byte) : W × W := (decW (bs.take 8), decW (bs.drop 8))
/-- A digest as `DIGEST_SIZE` = 32 bytes (triple_auth.h:27). -/
def encDig (h : BitVec 256) : List Byte := leBytes 32 h.toNat
/-- A digest from 32 received bytes (triple_auth.h:31). -/
def decDig (bs : List Byte) : BitVec 256 := BitVec.ofNat 256 (leVal bs)

/-- ostriple.h:164-227, 344-354, prover: the verifier's block arrives, one VOLE output is consumed, the answer is sent. -/
def aprvMulCheckN (ne : ANetEnv) (s : APrv) : Proc APrv := do
  let sd ← Proc.get 16
  let a ← Proc.ofOpt (mulCheckA s.gates ne.base.threads (ne.expand (decBlk sd)) (ne.base.cor s.used))
  Proc.script true (ne.ext s.used)
  Proc.put (encAns a)
  pure { s with used := s.used + 1, gates := [], mulBatches := s.mulBatches + 1 }

/-- ostriple.h:164-241, 344-354, verifier. -/
def averMulCheckN (ne : ANetEnv) (s : AVer) : Proc AVer := do
  Proc.put (encBlk (ne.seed0 s.mulBatches))
  Proc.script false (ne.ext s.used)
  let bs ← Proc.get 16
  Proc.ofOpt (averMulCheck ne.env s (decAns bs))

/-- polynomial.h:42-61, prover: the seed is taken as it arrives. -/
def aprvPolyCheckN (ne : ANetEnv) (s : APrv) : Proc APrv := do
  let sd ← Proc.get 8
  let a ← Proc.ofOpt (apolyCheckA s.polys (decW sd) (ne.base.cor s.used))
  Proc.script true (ne.ext s.used)
  Proc.put (encAns a)
  pure { s with used := s.used + 1, polys := [], polyBatches := s.polyBatches + 1 }

/-- polynomial.h:42-47, 62-81, verifier. -/
def averPolyCheckN (ne : ANetEnv) (s : AVer) : Proc AVer := do
  Proc.put (encW (mod64 (ne.base.polySeed s.polyBatches)))
  Proc.script false (ne.ext s.used)
  let bs ← Proc.get 16
  Proc.ofOpt (averPolyCheck ne.env s (decAns bs))

/-- ostriple.h:124-127. -/
def aprvMulRoomN (ne : ANetEnv) (s : APrv) : Proc APrv :=
  if s.gates.length = ne.env.checkSz then aprvMulCheckN ne s else pure s
/-- ostriple.h:146-149. -/
def averMulRoomN (ne : ANetEnv) (s : AVer) : Proc AVer :=
  if s.gates.length = ne.env.checkSz then averMulCheckN ne s else pure s
/-- polynomial.h:43-44, 85-86, 125-126, prover. -/
def aprvPolyRoomN (ne : ANetEnv) (s : APrv) : Proc APrv :=
  if s.polys.length ≥ ne.env.polySz ∧ s.polys ≠ [] then aprvPolyCheckN ne s else pure s
/-- polynomial.h:43-44, 85-86, 125-126, verifier. -/
def averPolyRoomN (ne : ANetEnv) (s : AVer) : Proc AVer :=
  if s.polys.length ≥ ne.env.polySz ∧ s.polys ≠ [] then averPolyCheckN ne s else pure s

/-- One instruction of the prover: ostriple.h:69-77 (input), 122-142 (multiplication), 294-302 (opening), 330-334 (zero),
zk_fp_exec_prover.h:26-68, polynomial.h:83-158. -/
def aprvStepN (ne : ANetEnv) (s : APrv) : AOp → Proc APrv
  | .input w => do
      Proc.script true (ne.ext s.used)
      let r ← Proc.ofOpt (aprvStep ne.env s (.input w))
      Proc.put (encW r.2.w)
      pure r.1
  | .mul i j => do
      let a ← Proc.ofOpt s.wires[i]?
      let b ← Proc.ofOpt s.wires[j]?
      let r ← aprvMulRoomN ne s
      Proc.script true (ne.ext r.used)
      let q ← Proc.ofOpt (aprvMulPush ne.env r a b)
      Proc.put (encW q.2)
      pure q.1
  | .reveal i => do
      let r ← Proc.ofOpt (aprvStep ne.env s (.reveal i))
      Proc.put (encW r.2.w)
      pure r.1
  | .revealCheck i x => do
      let r ← Proc.ofOpt (aprvStep ne.env s (.revealCheck i x))
      Proc.put (encW r.2.w)
      pure r.1
  | .poly st => do
      let p ← Proc.ofOpt (st.lookup s.wires)
      let r ← aprvPolyRoomN ne s
      Proc.ofOpt (aprvPolyPush ne.env r p)
  | .pub w => do
      let r ← Proc.ofOpt (aprvStep ne.env s (.pub w))
      pure r.1
  | .add i j => do
      let r ← Proc.ofOpt (aprvStep ne.env s (.add i j))
      pure r.1
  | .mulc i c => do
      let r ← Proc.ofOpt (aprvStep ne.env s (.mulc i c))
      pure r.1
  | .revealZero i => do
      let r ← Proc.ofOpt (aprvStep ne.env s (.revealZero i))
      pure r.1

/-- One instruction of the verifier: ostriple.h:92-103 (input), 144-162 (multiplication), 304-311, 320-329 (opening), 330-334 (zero),
zk_fp_exec_verifier.h:27-68, polynomial.h:83-158. -/
def averStepN (ne : ANetEnv) (s : AVer) : AOp → Proc AVer
  | .input w => do
      Proc.script false (ne.ext s.used)
      let bs ← Proc.get 8
      Proc.ofOpt (averStep ne.env s ⟨decW bs, 0, 0⟩ (.input w))
  | .mul i j => do
      let a ← Proc.ofOpt s.wires[i]?
      let b ← Proc.ofOpt s.wires[j]?
      let r ← averMulRoomN ne s
      Proc.script false (ne.ext r.used)
      let bs ← Proc.get 8
      Proc.ofOpt (averMulPush ne.env r a b (decW bs))
  | .reveal i => do
      let bs ← Proc.get 8
      Proc.ofOpt (averStep ne.env s ⟨decW bs, 0, 0⟩ (.reveal i))
  | .revealCheck i x => do
      let bs ← Proc.get 8
      Proc.ofOpt (averStep ne.env s ⟨decW bs, 0, 0⟩ (.revealCheck i x))
  | .poly st => do
      let p ← Proc.ofOpt (st.lookup s.wires)
      let r ← averPolyRoomN ne s
      Proc.ofOpt (averPolyPush ne.env r p)
  | .pub w => Proc.ofOpt (averStep ne.env s ⟨0, 0, 0⟩ (.pub w))
  | .add i j => Proc.ofOpt (averStep ne.env s ⟨0, 0, 0⟩ (.add i j))
  | .mulc i c => Proc.ofOpt (averStep ne.env s ⟨0, 0, 0⟩ (.mulc i c))
  | .revealZero i => Proc.ofOpt (averStep ne.env s ⟨0, 0, 0⟩ (.revealZero i))

/-- A whole program of the prover (emp-zk-arith/ostriple.h:69-163, 294-334 one call after the other). -/
def aprvRunN (ne : ANetEnv) : APrv → List AOp → Proc APrv
  | s, [] => pure s
  | s, o :: os => do
      let s' ← aprvStepN ne s o
      aprvRunN ne s' os

/-- A whole program of the verifier (emp-zk-arith/ostriple.h:92-163, 303-334 one call after the other). -/
def averRunN (ne : ANetEnv) : AVer → List AOp → Proc AVer
  | s, [] => pure s
  | s, o :: os => do
      let s' ← averStepN ne s o
      averRunN ne s' os

/-- emp-zk-arith.h:49, polynomial.h:34-35, 43-44, prover. -/
def aprvFinPolyN (ne : ANetEnv) (s : APrv) : Proc APrv := if s.polys ≠ [] then aprvPolyCheckN ne s else pure s
/-- emp-zk-arith.h:49, polynomial.h:34-35, 43-44, verifier. -/
def averFinPolyN (ne : ANetEnv) (s : AVer) : Proc AVer := if s.polys ≠ [] then averPolyCheckN ne s else pure s
/-- emp-zk-arith.h:50, ostriple.h:54-56, prover. -/
def aprvFinMulN (ne : ANetEnv) (s : APrv) : Proc APrv := if s.gates ≠ [] then aprvMulCheckN ne s else pure s
/-- emp-zk-arith.h:50, ostriple.h:54-56, verifier. -/
def averFinMulN (ne : ANetEnv) (s : AVer) : Proc AVer := if s.gates ≠ [] then averMulCheckN ne s else pure s

/-- emp-zk-arith.h:46-51, ostriple.h:54-57, triple_auth.h:23-28, prover. -/
def aprvFinalizeN (ne : ANetEnv) (s : APrv) : Proc APrv := do
  let p ← aprvFinPolyN ne s
  let q ← aprvFinMulN ne p
  Proc.put (encDig (ne.base.hash q.stored))
  pure q

/-- emp-zk-arith.h:46-51, ostriple.h:54-57, triple_auth.h:29-36, verifier. -/
def averFinalizeN (ne : ANetEnv) (s : AVer) : Proc AVer := do
  let p ← averFinPolyN ne s
  let q ← averFinMulN ne p
  let bs ← Proc.get 32
  pure (averFinHash ne.env q (decDig bs))

/-- The prover's process: constructor (ostriple.h:47-48: one VOLE output), program, `finalize_zk_arith`. Simplification: `setup` of
the VOLE (ostriple.h:41-46) comes before. -/
def aprvNet (ne : ANetEnv) (ops : List AOp) : Proc APrv := do
  Proc.script true (ne.ext 0)
  let s ← aprvRunN ne APrv.init ops
  aprvFinalizeN ne s

/-- The verifier's process (ostriple.h:47-48, emp-zk-arith.h:46-51). -/
def averNet (ne : ANetEnv) (ops : List AOp) : Proc AVer := do
  Proc.script false (ne.ext 0)
  let s ← averRunN ne AVer.init ops
  averFinalizeN ne s

end EmpZk
