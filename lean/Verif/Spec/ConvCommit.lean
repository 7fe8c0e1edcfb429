/-
Specification for C108: sessions with bits, field elements and conversions for any value of the verifier's secrets, and what a prover may
claim.
-/
import Verif.Spec.ConvNet
import Verif.Spec.ArithCircuit
import Verif.Spec.ArithCommit
import Verif.Spec.MixCommit

namespace EmpZk

/-- The same instruction up to the value of an input. -/
def COp.same : COp → COp → Prop
  | .bool o, .bool o' => BOp.same o o'
  | .arith o, .arith o' => AOp.same o o'
  | o, o' => o = o'

section
variable {F : Type} [Field F] [BlockField F] [DecidableEq F]

/-- The session in which the secret of the arithmetic part is `d`; the values and MACs of the candidates for edaBits are `cand`. -/
def ConvEnv.atA (ce : ConvEnv F) (va : AView) (cand : Nat → List (Fp × Fp)) (d : Fp) : ConvEnv F :=
  { ce with base := va.env d, candA := fun k => (cand k).map lab, candB := fun k => (cand k).map (keyAt d) }

/-- Under some schedule against the prover `p` the verifier returns with `V` and accepts. -/
def ConvAccepts {α : Type} (S : Nat) (junk : List Byte) (p : SProg α) (ce : ConvEnv F) (ops : List COp) (V : CVer F) : Prop :=
  (∃ c, PReach S (pnetInit S junk p (convVerifier ce ops)) c ∧ c.q = .done V) ∧ V.b.cheats = [] ∧ V.a.accepted = true

/-- The verifier's outputs are those of the program for some inputs. -/
def OutsOf (ce : ConvEnv F) (ops : List COp) (V : CVer F) : Prop :=
  ∃ ops' cp, List.Forall₂ COp.same ops ops' ∧ cplainRun ce ops' = some cp ∧ V.outs = cp.b.outs ∧ V.a.outs.map fp = cp.a.outs

open Classical in
/-- What C108 claims, with `n` exceptional values of `Delta`: of the `Delta` for which the verifier accepts, all but `n` give outputs of
the program. -/
def ConvNetSound (ce : ConvEnv F) (va : AView) (cand : Nat → List (Fp × Fp)) (n : Nat) : Prop :=
  ∀ (S : Nat) (junk : List Byte) (ops : List COp) (p : SProg (CPrv F)), 0 < S → (∀ o ∈ ops, o.CanonC) →
    (Finset.univ.filter (fun d : Fp => ∃ V, ConvAccepts S junk p (ce.atA va cand d) ops V ∧ ¬ OutsOf ce ops V)).card ≤ n

/-! ### what the messages of a prover commit it to, in programs without conversions

The program `convC` asks the endpoint the same questions as the verifier and works on committed pairs instead of keys; it compares nothing, but
keeps a record of the messages of the arithmetic part. -/

/-- The session in which the secrets of the two parts are `d` and `d'`. -/
def ConvEnv.at (ce : ConvEnv F) (vb : BView F) (va : AView) (cand : Nat → List (Fp × Fp)) (d : F) (d' : Fp) : ConvEnv F :=
  { ce.atA va cand d' with ne := { ce.ne with e := vb.env d } }

/-- The random choices of the arithmetic part, with the expanded seeds. -/
def ConvEnv.view (ce : ConvEnv F) (va : AView) : AView := { va with seed := fun b => ce.expand (ce.seed0 b) }

/-- Committed state: bits, opened bits, field elements, messages of the arithmetic part. -/
structure CTr (F : Type) where
  b : ComSt F
  outs : List Bool
  a : ACom
  ms : List AMsg

/-- A check of multiplications, and the answer received. -/
def amulCheckC (ce : ConvEnv F) (va : AView) (k : Nat) (s : ACom) : RProg (ACom × (W × W)) :=
  .call .flush (fun _ _ => .call (.back (encBlk (ce.seed0 s.mulBatches))) (fun _ _ => .call .flush (fun _ _ =>
    (extAR ce k s.used).bind (fun _ => .call (.data 16) (fun _ bs =>
      (RProg.ofOpt (if (mulTasks s.gates.length va.threads).isSome then some (acomMulCheck (ce.view va) s (decAns bs), decAns bs) else none)).bind
        (fun r => .call .flush (fun _ _ => .done r)))))))

/-- A check of statements, and the answer received. -/
def apolyCheckC (ce : ConvEnv F) (va : AView) (k : Nat) (s : ACom) : RProg (ACom × (W × W)) :=
  .call .flush (fun _ _ => .call (.back (encW (mod64 (va.polySeed s.polyBatches)))) (fun _ _ =>
    (extAR ce k s.used).bind (fun _ => .call (.data 16) (fun _ bs => .done (acomPolyCheck (ce.view va) s (decAns bs), decAns bs)))))

/-- Room for one more multiplication. -/
def amulRoomC (ce : ConvEnv F) (va : AView) (k : Nat) (s : ACom) : RProg (ACom × (W × W)) :=
  if s.gates.length = va.checkSz then amulCheckC ce va k s else .done (s, 0, 0)

/-- Room for one more statement. -/
def apolyRoomC (ce : ConvEnv F) (va : AView) (k : Nat) (s : ACom) : RProg (ACom × (W × W)) :=
  if s.polys.length ≥ va.polySz ∧ s.polys ≠ [] then apolyCheckC ce va k s else .done (s, 0, 0)

/-- A step with its message. -/
def acomMsg (va : AView) (s : ACom) (m : AMsg) (o : AOp) : RProg (ACom × AMsg) := RProg.ofOpt ((acomStep va s m o).map (fun c => (c, m)))

/-- One arithmetic instruction, and its message. -/
def aopC (ce : ConvEnv F) (va : AView) (k : Nat) (s : ACom) : AOp → RProg (ACom × AMsg)
  | .input w => (extAR ce k s.used).bind (fun _ => .call (.data 8) (fun _ bs => acomMsg (ce.view va) s ⟨decW bs, 0, 0⟩ (.input w)))
  | .mul i j => (RProg.ofOpt s.wires[i]?).bind (fun a => (RProg.ofOpt s.wires[j]?).bind (fun b =>
      (amulRoomC ce va k s).bind (fun r => (extAR ce k r.1.used).bind (fun _ =>
        .call (.data 8) (fun _ bs => RProg.ofOpt ((acomMulPush (ce.view va) r.1 a b (fp (decW bs))).map (fun c => (c, ⟨decW bs, r.2⟩))))))))
  | .reveal i => .call (.data 8) (fun _ bs => acomMsg (ce.view va) s ⟨decW bs, 0, 0⟩ (.reveal i))
  | .revealCheck i x => .call (.data 8) (fun _ bs => acomMsg (ce.view va) s ⟨decW bs, 0, 0⟩ (.revealCheck i x))
  | .poly st => (RProg.ofOpt (st.lookup s.wires)).bind (fun p => (apolyRoomC ce va k s).bind (fun r =>
      RProg.ofOpt ((acomPolyPush (ce.view va) r.1 p).map (fun c => (c, ⟨0, r.2⟩)))))
  | .pub w => acomMsg (ce.view va) s ⟨0, 0, 0⟩ (.pub w)
  | .add i j => acomMsg (ce.view va) s ⟨0, 0, 0⟩ (.add i j)
  | .mulc i c => acomMsg (ce.view va) s ⟨0, 0, 0⟩ (.mulc i c)
  | .revealZero i => acomMsg (ce.view va) s ⟨0, 0, 0⟩ (.revealZero i)

/-- End of the arithmetic part, and the messages received. -/
def afinC (ce : ConvEnv F) (va : AView) (k : Nat) (s : ACom) : RProg (ACom × AFin) :=
  (if s.polys ≠ [] then apolyCheckC ce va k s else RProg.done (s, 0, 0)).bind (fun r1 =>
    (if r1.1.gates ≠ [] then amulCheckC ce va k r1.1 else RProg.done (r1.1, 0, 0)).bind (fun r2 =>
      .call (.data 32) (fun _ bs => .done (r2.1, ⟨r1.2, r2.2, decDig bs⟩))))

/-- One instruction. -/
def copC (ce : ConvEnv F) (vb : BView F) (va : AView) (s : CTr F) : COp → RProg (CTr F)
  | .bool o => (bopC ce.ne vb s.b o).bind (fun b =>
      .done { s with b := b, outs := s.outs ++ (b.opened.map Prod.snd).drop (s.b.opened.map Prod.snd).length })
  | .arith o => (aopC ce va edaInit.ext s.a o).bind (fun r => .done { s with a := r.1, ms := s.ms ++ [r.2] })
  | .sync => .call .flush (fun _ _ => .done s)
  | _ => .fail

/-- A program. -/
def copsC (ce : ConvEnv F) (vb : BView F) (va : AView) : CTr F → List COp → RProg (CTr F)
  | s, [] => .done s
  | s, o :: os => (copC ce vb va s o).bind (fun s1 => copsC ce vb va s1 os)

/-- A whole session: committed state, digest of the boolean part, last messages of the arithmetic part. -/
def convC (ce : ConvEnv F) (vb : BView F) (va : AView) (ops : List COp) : RProg (CTr F × F × AFin) :=
  (rcotR ce.ne 0 1).bind (fun _ => (extAR ce 0 0).bind (fun _ => (RProg.calls (ce.edV 0 1)).bind (fun _ =>
    (copsC ce vb va ⟨ComSt.init, [], ACom.init, []⟩ ops).bind (fun s => (bfinC ce.ne vb s.b).bind (fun r =>
      .call (.data 32) (fun _ _ => (afinC ce va edaInit.ext s.a).bind (fun q => .done ({ s with b := r.1, a := q.1 }, r.2, q.2))))))))

/-- The same with the flush at the end. -/
def convCommit (ce : ConvEnv F) (vb : BView F) (va : AView) (ops : List COp) : RProg (CTr F × F × AFin) :=
  (convC ce vb va ops).bind (fun b => .call .flush (fun _ _ => .done b))

omit [Field F] [BlockField F] [DecidableEq F] in
/-- No conversions. -/
def COp.Direct : COp → Prop
  | .bool _ => True
  | .arith _ => True
  | .sync => True
  | _ => False

/-- The boolean instructions of a program. -/
def convBools : List COp → List BOp
  | [] => []
  | .bool o :: os => o :: convBools os
  | _ :: os => convBools os

/-- The arithmetic instructions of a program. -/
def convAriths : List COp → List AOp
  | [] => []
  | .arith o :: os => o :: convAriths os
  | _ :: os => convAriths os

end
end EmpZk
