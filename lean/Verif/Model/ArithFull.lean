/-
Model of a whole arithmetic proof, from the base OTs to the verdict, with any number of threads: emp-zk/emp-zk-arith/ostriple.h,
polynomial.h, emp-zk-arith.h on top of emp-zk/emp-vole/vole_triple.h. The prover is the receiver of the VOLE, the verifier its sender
(ostriple.h:37). Unlike in `Verif.Model.ArithNet`, the correlations are those of the VOLE protocol (`Verif.Model.SetupNet`), which runs
whenever the stock is exhausted, over all channels.
-/
import Verif.Model.SetupNet
import Verif.Model.ArithNet

namespace EmpZk

/-- Computations that may end with `error` or `abort` (`none`), one after the other (e.g. vole_triple.h:137-145). -/
def Par.bindE {T : Nat} {α β : Type} (p : Par T (Option α)) (f : α → Par T (Option β)) : Par T (Option β) :=
  p.bind fun
    | none => .done none
    | some a => f a

/-! ### buffering of the correlations -/

/-- Sizes and the extension protocol of one party: number of the extension and the reserved correlations (vole_triple.h:107-134). -/
structure VNet (T : Nat) where
  n : Nat
  M : Nat
  gen : Nat → List U128 → Par T (Option (List U128))

/-- vole_triple.h:113 `ot_limit`. -/
def VNet.limit {T : Nat} (c : VNet T) : Int := (c.n : Int) - c.M

/-- vole_triple.h:136-145 `extend(buffer)` with `buffer = data + off`. -/
def extendBufN {T : Nat} (c : VNet T) (s : VState U128) (data : List U128) (off : Int) : Par T (Option (VState U128 × List U128)) :=
  (c.gen s.round s.pre).bindE fun batch =>
  (Par.ofOpt (do
    let data ← wr data off batch
    let pre ← rd data (off + c.limit) c.M
    some ({ s with pre := pre, round := s.round + 1 }, data))).bind fun r => .done (some r)

/-- vole_triple.h:238-242. -/
def inplaceRoundsN {T : Nat} (c : VNet T) : Nat → VState U128 × List U128 × Int → Par T (Option (VState U128 × List U128 × Int))
  | 0, x => .done (some x)
  | r + 1, (s, data, pt) =>
    (extendBufN c s data pt).bindE fun x => inplaceRoundsN c r ({ x.1 with otUsed := c.limit }, x.2, pt + c.limit)

/-- vole_triple.h:227-232: what is in stock is delivered first. -/
def deliverStock {T : Nat} (c : VNet T) (s : VState U128) (data : List U128) : Option (List U128 × Int) :=
  if 0 < c.limit - s.otUsed then do
    let xs ← rd s.triples s.otUsed (c.limit - s.otUsed)
    let data ← wr data 0 xs
    some (data, c.limit - s.otUsed)
  else some (data, 0)

/-- vole_triple.h:243-248, 249-253: an extension into the own buffer, `len` of its correlations are delivered. -/
def extendCopyN {T : Nat} (c : VNet T) (s : VState U128) (data : List U128) (pt len : Int) : Par T (Option (VState U128 × List U128)) :=
  (extendBufN c s s.triples 0).bindE fun x =>
  (Par.ofOpt (do
    let xs ← rd x.2 0 len
    let data ← wr data pt xs
    some ({ x.1 with triples := x.2, otUsed := len }, data))).bind fun r => .done (some r)

/-- vole_triple.h:243-253: what is left after the in-place rounds. -/
def extendRestN {T : Nat} (c : VNet T) (last : Int) (x : VState U128 × List U128 × Int) : Par T (Option (VState U128 × List U128)) :=
  if last > c.limit then
    (extendCopyN c x.1 x.2.1 x.2.2 c.limit).bindE fun y =>
    if 0 < last - c.limit then extendCopyN c y.1 y.2 (x.2.2 + c.limit) (last - c.limit) else .done (some y)
  else if 0 < last then extendCopyN c x.1 x.2.1 x.2.2 last
  else .done (some (x.1, x.2.1))

/-- vole_triple.h:215-255 `extend(data_yz, num)` for a caller's buffer `data`. -/
def extendManyN {T : Nat} (c : VNet T) (s : VState U128) (data : List U128) (num : Int) : Par T (Option (VState U128 × List U128)) :=
  if num ≤ c.limit - s.otUsed then
    (Par.ofOpt (do
      let xs ← rd s.triples s.otUsed num
      let data ← wr data 0 xs
      some ({ s with otUsed := s.otUsed + num }, data))).bind fun r => .done (some r)
  else
    (Par.ofOpt (deliverStock c s data)).bind fun d =>
    let gened := c.limit - s.otUsed
    let roundInplace := Int.tdiv (num - gened - c.M) c.limit
    (inplaceRoundsN c roundInplace.toNat (s, d.1, d.2)).bindE fun x => extendRestN c (num - gened - roundInplace * c.limit) x

/-- `vole->extend(&x, 1)` (ostriple.h:71, 94, 128, 150, 222, 229; polynomial.h:57, 68): `x` is one element, uninitialised before. -/
def oneCorN {T : Nat} (c : VNet T) (junk : U128) (s : VState U128) : Par T (Option (U128 × VState U128)) :=
  (extendManyN c s [junk] 1).bindE fun r => (Par.ofOpt r.2[0]?).bind fun x => .done (some (x, r.1))

/-- The extensions of the verifier (vole_triple.h:118-125, 136-140); less than `M` correlations: a read outside the array. -/
def genSendN (f : ExtFns) (T : Nat) (delta : U128) (st : Nat → StageSend) (r : Nat) (p : List U128) : Par (T + 1) (Option (List U128)) :=
  if p.length < (st r).cfg.M then .fail
  else (extSendN f (st r).cfg T ⟨delta, (st r).seed, (st r).mem, ofList p, (st r).pre⟩).bind fun out => .done (some out)

/-- The extensions of the prover (vole_triple.h:127-134, 136-143). -/
def genRecvN (f : ExtFns) (T : Nat) (st : Nat → StageRecv) (r : Nat) (p : List U128) : Par (T + 1) (Option (List U128)) :=
  if p.length < (st r).cfg.M then .fail
  else extRecvN f (st r).cfg T ⟨(st r).b, (st r).mem, ofList p, (st r).pre, (st r).sd⟩

/-! ### programs of the calling thread -/

/-- A program that sends and receives bytes over `io` = `ios[0]` (ostriple.h:34) and asks for correlations (`vole->extend(&x, 1)`,
ostriple.h:71); `fail` is an undefined operation. -/
inductive VProg (α : Type) where
  | done (a : α)
  | fail
  | send (bs : List Byte) (k : VProg α)
  | recv (n : Nat) (k : List Byte → VProg α)
  | cor (k : U128 → VProg α)

namespace VProg

/-- Statements one after the other (e.g. ostriple.h:69-77). -/
def bind {α β : Type} : VProg α → (α → VProg β) → VProg β
  | .done a, f => f a
  | .fail, _ => .fail
  | .send bs k, f => .send bs (k.bind f)
  | .recv n k, f => .recv n (fun b => (k b).bind f)
  | .cor k, f => .cor (fun x => (k x).bind f)

instance : Monad VProg where
  pure := .done
  bind := VProg.bind

/-- A computation without communication; `none` is an undefined operation (e.g. ostriple.h:164-221). -/
def ofOpt {α : Type} : Option α → VProg α
  | some a => .done a
  | none => .fail

/-- `io->send_data` (ostriple.h:75). -/
def put (bs : List Byte) : VProg Unit := .send bs (.done ())

/-- `io->recv_data` (ostriple.h:98). -/
def get (n : Nat) : VProg (List Byte) := .recv n .done

/-- `vole->extend(&x, 1)` (ostriple.h:71). -/
def ask : VProg U128 := .cor .done

/-- The program with a VOLE in state `s`; `none`: `error` or `abort` in the VOLE (ostriple.h:31-52, vole_triple.h:215-255). -/
def par {T : Nat} {α σ : Type} (req : σ → Par (T + 1) (Option (U128 × σ))) : VProg α → σ → Par (T + 1) (Option (α × σ))
  | .done a, s => .done (some (a, s))
  | .fail, _ => .fail
  | .send bs k, s => (Par.one (Proc.put bs)).bind fun _ => k.par req s
  | .recv n k, s => (Par.one (Proc.get n)).bind fun b => (k b).par req s
  | .cor k, s => (req s).bindE fun r => (k r.1).par req r.2

end VProg

/-! ### the session -/

/-- A prover's environment in which the next correlation is `x` (ostriple.h:71-75). -/
def AEnv.withCor (e : AEnv) (x : U128) : AEnv := { e with u := fun _ => high64 x, mac := fun _ => low64 x }

/-- A verifier's environment in which the next correlation is `x` (ostriple.h:94-101). -/
def AEnv.withKey (e : AEnv) (x : U128) : AEnv := { e with key := fun _ => low64 x }

/-- ostriple.h:164-227, 344-354, prover (see `aprvMulCheckN`). -/
def aprvMulCheckV (ne : ANetEnv) (s : APrv) : VProg APrv := do
  let sd ← VProg.get 16
  let x ← VProg.ask
  let a ← VProg.ofOpt (mulCheckA s.gates ne.base.threads (ne.expand (decBlk sd)) x)
  VProg.put (encAns a)
  pure { s with used := s.used + 1, gates := [], mulBatches := s.mulBatches + 1 }

/-- ostriple.h:164-241, 344-354, verifier. -/
def averMulCheckV (ne : ANetEnv) (s : AVer) : VProg AVer := do
  VProg.put (encBlk (ne.seed0 s.mulBatches))
  let x ← VProg.ask
  let bs ← VProg.get 16
  VProg.ofOpt (averMulCheck (ne.env.withKey x) s (decAns bs))

/-- polynomial.h:42-61, prover. -/
def aprvPolyCheckV (ne : ANetEnv) (s : APrv) : VProg APrv := do
  let sd ← VProg.get 8
  let x ← VProg.ask
  let a ← VProg.ofOpt (apolyCheckA s.polys (decW sd) x)
  VProg.put (encAns a)
  pure { s with used := s.used + 1, polys := [], polyBatches := s.polyBatches + 1 }

/-- polynomial.h:42-47, 62-81, verifier. -/
def averPolyCheckV (ne : ANetEnv) (s : AVer) : VProg AVer := do
  VProg.put (encW (mod64 (ne.base.polySeed s.polyBatches)))
  let x ← VProg.ask
  let bs ← VProg.get 16
  VProg.ofOpt (averPolyCheck (ne.env.withKey x) s (decAns bs))

/-- ostriple.h:124-127. -/
def aprvMulRoomV (ne : ANetEnv) (s : APrv) : VProg APrv :=
  if s.gates.length = ne.env.checkSz then aprvMulCheckV ne s else pure s
/-- ostriple.h:146-149. -/
def averMulRoomV (ne : ANetEnv) (s : AVer) : VProg AVer :=
  if s.gates.length = ne.env.checkSz then averMulCheckV ne s else pure s
/-- polynomial.h:43-44, 85-86, 125-126, prover. -/
def aprvPolyRoomV (ne : ANetEnv) (s : APrv) : VProg APrv :=
  if s.polys.length ≥ ne.env.polySz ∧ s.polys ≠ [] then aprvPolyCheckV ne s else pure s
/-- polynomial.h:43-44, 85-86, 125-126, verifier. -/
def averPolyRoomV (ne : ANetEnv) (s : AVer) : VProg AVer :=
  if s.polys.length ≥ ne.env.polySz ∧ s.polys ≠ [] then averPolyCheckV ne s else pure s

/-- One instruction of the prover: ostriple.h:69-77 (input), 122-142 (multiplication), 294-302 (opening), 330-334 (zero),
zk_fp_exec_prover.h:26-68, polynomial.h:83-158. -/
def aprvStepV (ne : ANetEnv) (s : APrv) : AOp → VProg APrv
  | .input w => do
      let x ← VProg.ask
      let r ← VProg.ofOpt (aprvStep (ne.env.withCor x) s (.input w))
      VProg.put (encW r.2.w)
      pure r.1
  | .mul i j => do
      let a ← VProg.ofOpt s.wires[i]?
      let b ← VProg.ofOpt s.wires[j]?
      let r ← aprvMulRoomV ne s
      let x ← VProg.ask
      let q ← VProg.ofOpt (aprvMulPush (ne.env.withCor x) r a b)
      VProg.put (encW q.2)
      pure q.1
  | .reveal i => do
      let r ← VProg.ofOpt (aprvStep ne.env s (.reveal i))
      VProg.put (encW r.2.w)
      pure r.1
  | .revealCheck i x => do
      let r ← VProg.ofOpt (aprvStep ne.env s (.revealCheck i x))
      VProg.put (encW r.2.w)
      pure r.1
  | .poly st => do
      let p ← VProg.ofOpt (st.lookup s.wires)
      let r ← aprvPolyRoomV ne s
      VProg.ofOpt (aprvPolyPush ne.env r p)
  | .pub w => do
      let r ← VProg.ofOpt (aprvStep ne.env s (.pub w))
      pure r.1
  | .add i j => do
      let r ← VProg.ofOpt (aprvStep ne.env s (.add i j))
      pure r.1
  | .mulc i c => do
      let r ← VProg.ofOpt (aprvStep ne.env s (.mulc i c))
      pure r.1
  | .revealZero i => do
      let r ← VProg.ofOpt (aprvStep ne.env s (.revealZero i))
      pure r.1

/-- One instruction of the verifier: ostriple.h:92-103 (input), 144-162 (multiplication), 304-311, 320-329 (opening), 330-334 (zero),
zk_fp_exec_verifier.h:27-68, polynomial.h:83-158. -/
def averStepV (ne : ANetEnv) (s : AVer) : AOp → VProg AVer
  | .input w => do
      let x ← VProg.ask
      let bs ← VProg.get 8
      VProg.ofOpt (averStep (ne.env.withKey x) s ⟨decW bs, 0, 0⟩ (.input w))
  | .mul i j => do
      let a ← VProg.ofOpt s.wires[i]?
      let b ← VProg.ofOpt s.wires[j]?
      let r ← averMulRoomV ne s
      let x ← VProg.ask
      let bs ← VProg.get 8
      VProg.ofOpt (averMulPush (ne.env.withKey x) r a b (decW bs))
  | .reveal i => do
      let bs ← VProg.get 8
      VProg.ofOpt (averStep ne.env s ⟨decW bs, 0, 0⟩ (.reveal i))
  | .revealCheck i x => do
      let bs ← VProg.get 8
      VProg.ofOpt (averStep ne.env s ⟨decW bs, 0, 0⟩ (.revealCheck i x))
  | .poly st => do
      let p ← VProg.ofOpt (st.lookup s.wires)
      let r ← averPolyRoomV ne s
      VProg.ofOpt (averPolyPush ne.env r p)
  | .pub w => VProg.ofOpt (averStep ne.env s ⟨0, 0, 0⟩ (.pub w))
  | .add i j => VProg.ofOpt (averStep ne.env s ⟨0, 0, 0⟩ (.add i j))
  | .mulc i c => VProg.ofOpt (averStep ne.env s ⟨0, 0, 0⟩ (.mulc i c))
  | .revealZero i => VProg.ofOpt (averStep ne.env s ⟨0, 0, 0⟩ (.revealZero i))

/-- A whole program of the prover (emp-zk-arith/ostriple.h:69-163, 294-334 one call after the other). -/
def aprvRunV (ne : ANetEnv) : APrv → List AOp → VProg APrv
  | s, [] => pure s
  | s, o :: os => do
      let s' ← aprvStepV ne s o
      aprvRunV ne s' os

/-- A whole program of the verifier (emp-zk-arith/ostriple.h:92-163, 303-334 one call after the other). -/
def averRunV (ne : ANetEnv) : AVer → List AOp → VProg AVer
  | s, [] => pure s
  | s, o :: os => do
      let s' ← averStepV ne s o
      averRunV ne s' os

/-- emp-zk-arith.h:49, polynomial.h:34-35, 43-44, prover. -/
def aprvFinPolyV (ne : ANetEnv) (s : APrv) : VProg APrv := if s.polys ≠ [] then aprvPolyCheckV ne s else pure s
/-- emp-zk-arith.h:49, polynomial.h:34-35, 43-44, verifier. -/
def averFinPolyV (ne : ANetEnv) (s : AVer) : VProg AVer := if s.polys ≠ [] then averPolyCheckV ne s else pure s
/-- emp-zk-arith.h:50, ostriple.h:54-56, prover. -/
def aprvFinMulV (ne : ANetEnv) (s : APrv) : VProg APrv := if s.gates ≠ [] then aprvMulCheckV ne s else pure s
/-- emp-zk-arith.h:50, ostriple.h:54-56, verifier. -/
def averFinMulV (ne : ANetEnv) (s : AVer) : VProg AVer := if s.gates ≠ [] then averMulCheckV ne s else pure s

/-- emp-zk-arith.h:46-51, ostriple.h:54-57, triple_auth.h:23-28, prover. -/
def aprvFinalizeV (ne : ANetEnv) (s : APrv) : VProg APrv := do
  let p ← aprvFinPolyV ne s
  let q ← aprvFinMulV ne p
  VProg.put (encDig (ne.base.hash q.stored))
  pure q

/-- emp-zk-arith.h:46-51, ostriple.h:54-57, triple_auth.h:29-36, verifier. -/
def averFinalizeV (ne : ANetEnv) (s : AVer) : VProg AVer := do
  let p ← averFinPolyV ne s
  let q ← averFinMulV ne p
  let bs ← VProg.get 32
  pure (averFinHash ne.env q (decDig bs))

/-- The prover after `setup`: constructor (ostriple.h:47-48: one VOLE output), program, `finalize_zk_arith`. -/
def aprvProg (ne : ANetEnv) (ops : List AOp) : VProg APrv := do
  let _ ← VProg.ask
  let s ← aprvRunV ne APrv.init ops
  aprvFinalizeV ne s

/-- The verifier after `setup` (ostriple.h:47-48, emp-zk-arith.h:46-51). -/
def averProg (ne : ANetEnv) (ops : List AOp) : VProg AVer := do
  let _ ← VProg.ask
  let s ← averRunV ne AVer.init ops
  averFinalizeV ne s

/-- The state of the VOLE after `setup`: the first `M` correlations of the last extension of the setup are the ones the first main extension
uses (vole_triple.h:139-142; the others are never read), the own buffer holds anything (vole_triple.h:217). -/
def startState (n M : Nat) (outs : List (List U128)) (junk : List U128) : Option (VState U128) := do
  let out ← outs.getLast?
  some ⟨out.take M, junk, (n : Int) - M, 0⟩

/-- What the verifier brings: the words drawn in the base protocol, its part of the two extensions of the setup and of the main
extensions, the contents of uninitialised memory (vole_triple.h:147-213). -/
structure VoleVer where
  delta : U128
  g : Nat → Nat → W
  gb : Nat → Nat → W
  size : Nat
  rseed : W
  setup : List StageSend
  main : Nat → StageSend
  junk : List U128
  junk1 : U128

/-- What the prover brings (vole_triple.h:147-213). -/
structure VolePrv where
  g0 : Nat → Nat → W
  g1 : Nat → Nat → W
  gb0 : Nat → Nat → W
  gb1 : Nat → Nat → W
  size : Nat
  rx : List W
  setup : List StageRecv
  main : Nat → StageRecv
  junk : List U128
  junk1 : U128

/-- The whole verifier with `T + 1` threads: `setup`, then the session (ostriple.h:31-52, emp-zk-arith.h:46-51). `n`, `M`: sizes of the
main extension. -/
def arithVerifier (f : ExtFns) (T n M : Nat) (v : VoleVer) (ne : ANetEnv) (ops : List AOp) : Par (T + 1) (Option AVer) :=
  (volePartySendN f T v.delta v.g v.gb v.size v.rseed v.setup).bindE fun outs =>
  (Par.ofOpt (startState n M outs v.junk)).bind fun s =>
  ((averProg ne ops).par (oneCorN ⟨n, M, genSendN f T v.delta v.main⟩ v.junk1) s).bindE fun r => .done (some r.1)

/-- The whole prover with `T + 1` threads (ostriple.h:31-52, emp-zk-arith.h:46-51). -/
def arithProver (f : ExtFns) (T n M : Nat) (p : VolePrv) (ne : ANetEnv) (ops : List AOp) : Par (T + 1) (Option APrv) :=
  (volePartyRecvN f T p.g0 p.g1 p.gb0 p.gb1 p.size p.rx p.setup).bindE fun outs =>
  (Par.ofOpt (startState n M outs p.junk)).bind fun s =>
  ((aprvProg ne ops).par (oneCorN ⟨n, M, genRecvN f T p.main⟩ p.junk1) s).bindE fun r => .done (some r.1)

end EmpZk
