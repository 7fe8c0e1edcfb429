/-
A prover that does not follow the code of the conversions (C108): in one conversion of a field element to bits it sends the opened sum plus `p`.
-/
import Verif.Spec.ConvNet

namespace EmpZk

section
variable {F : Type} [Field F] [BlockField F] [DecidableEq F]

/-- As `a2bRoundS` for one element (edabits.h:221-236, auth_helper.h:26-36), but the word that is sent, and taken as public integer, is the
sum plus `p`; the MAC that goes into the digest is the one of the sum. -/
def cheatRoundS (ce : ConvEnv F) (s : CPrv F) (x : U128) : SProg (CPrv F × List (List F)) :=
  (a2bSumS ce s [x]).bind (fun d => sendS (encWs (d.2.map (fun q => high64 q.1 + PR)))
    ((a2bOutS ce.ne ce.diff d.1.b (d.2.map (fun q => (high64 q.1 + PR, q.2)))).bind (fun r =>
        .done ({ d.1 with b := r.1, hashed := d.1.hashed ++ d.2.map (fun q => Sum.inl (low64 q.1)) }, r.2))))

/-- A conversion of wire `i` by this prover (edabits.h:221-236). -/
def cheatS (ce : ConvEnv F) (s : CPrv F) (i : Nat) : SProg (CPrv F) :=
  (SProg.ofOpt s.a.wires[i]?).bind (fun x => (cheatRoundS ce s x).bind (fun r => .done (putB r)))

/-- A whole prover that follows the code for `ops1` and `ops2` and cheats in the conversion of wire `i` in between (as `convProver`). -/
def cheatProver (ce : ConvEnv F) (ops1 : List COp) (i : Nat) (ops2 : List COp) : SProg (CPrv F) :=
  ((rcotS ce.ne 0 1).bind (fun _ => (extAS ce 0 0).bind (fun _ => (SProg.calls (ce.edP 0 1)).bind (fun _ =>
    (copsS ce ⟨PrvSt.init, APrv.init, edaInit, [], ce.candA 0, [], []⟩ ops1).bind (fun s =>
      (cheatS ce s i).bind (fun s1 => (copsS ce s1 ops2).bind (fun s2 => cfinS ce s2))))))).bind (fun a => .call .flush (fun _ => .done a))

/-- The plain computation with the value `x - 2` in place of `x` in the conversion between `ops1` and `ops2`. -/
def cheatRun (ce : ConvEnv F) (ops1 : List COp) (i : Nat) (ops2 : List COp) : Option CPlain := do
  let s ← cplainRun ce ops1
  let x ← s.a.wires[i]?
  ops2.foldlM (cplainStep ce) (useEda ce 1 { s with b := { s.b with wires := s.b.wires ++ bitsFp (x - 2) } })

end
end EmpZk
