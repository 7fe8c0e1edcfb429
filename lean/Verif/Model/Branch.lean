/-
Programs that look at revealed values (`reveal`, zk_prover.h:67-74, zk_verifier.h:78-85) and choose what to do next, as code of a user does:
each party continues with what it was itself given.
-/
import Verif.Model.RamNet

namespace EmpZk

/-- A program: some instructions, after which it continues with a function of all the bits revealed to the party so far
(zk_prover.h:67-74, zk_verifier.h:78-85 fill the `bool *` of the caller); `undef`: undefined behaviour before any call. Loops that end are such
trees. -/
inductive Branch (o α : Type) where
  | fin (a : α)
  | ops (l : List o) (k : List Bool → Branch o α)
  | undef

section
variable {F α : Type} [Field F] [BlockField F] [DecidableEq F]

/-- The prover of a branching boolean program (zk_prover.h:48-74; `outs`: the results of its `reveal`s). -/
def btreeS (ne : NetEnv F) : PrvSt F → Branch BOp α → SProg (PrvSt F × α)
  | s, .fin a => .done (s, a)
  | s, .ops l k => (bopsS ne s l).bind (fun s1 => btreeS ne s1 (k s1.outs))
  | _, .undef => .fail

/-- The verifier of a branching boolean program (zk_verifier.h:60-85). -/
def btreeR (ne : NetEnv F) : VerSt F → Branch BOp α → RProg (VerSt F × α)
  | s, .fin a => .done (s, a)
  | s, .ops l k => (bopsR ne s l).bind (fun s1 => btreeR ne s1 (k s1.outs))
  | _, .undef => .fail

/-- The prover while `F2kOSTriple` exists (ram-zk/ostriple.h:13-62, zk-mem.h:19-183). -/
def mtreeS (me : MixEnv F) : MPrv F → Branch MOp α → SProg (MPrv F × α)
  | s, .fin a => .done (s, a)
  | s, .ops l k => (mopsS me s l).bind (fun s1 => mtreeS me s1 (k s1.b.outs))
  | _, .undef => .fail

/-- The verifier while `F2kOSTriple` exists (ram-zk/ostriple.h:13-62, zk-mem.h:19-183). -/
def mtreeR (me : MixEnv F) : MVer F → Branch MOp α → RProg (MVer F × α)
  | s, .fin a => .done (s, a)
  | s, .ops l k => (mopsR me s l).bind (fun s1 => mtreeR me s1 (k s1.b.outs))
  | _, .undef => .fail

/-- The verifier of a branching boolean program on received messages, as `verRun` (emp-zk-bool/ostriple.h:95-142, 261-290, polynomial.h:98-412,
zk_verifier.h:78-85). -/
def vtreeRun (e : BEnv F) : VerSt F → Branch BOp Unit → List (BMsg F) → Option (VerSt F)
  | s, .fin _, [] => some s
  | _, .fin _, _ :: _ => none
  | s, .ops l k, ms => (verRun e s l (ms.take l.length)).bind (fun s1 => vtreeRun e s1 (k s1.outs) (ms.drop l.length))
  | _, .undef, _ => none

/-- The verifier's side of a whole branching session (emp-zk-bool.h:8-41). -/
def vtreeSession (e : BEnv F) (t : Branch BOp Unit) (ms : List (BMsg F)) (fin : BFin F) : Option (VerSt F) :=
  (vtreeRun e VerSt.init t ms).bind (fun s => verFinalize e s fin)

/-- A branching session: before, during and after the life of the memory's `F2kOSTriple`. -/
abbrev SessTree := Branch BOp (Branch MOp (Branch BOp Unit))

/-- A whole prover, as `mixS` (emp-zk-bool/ostriple.h:33-73, zk-mem.h:19-31). -/
def branchS (me : MixEnv F) (t : SessTree) : SProg (MPrv F) :=
  (rcotS me.ne 0 1).bind (fun _ => (btreeS me.ne PrvSt.init t).bind (fun b => (f2kNewS me b.1).bind (fun s => (mtreeS me s b.2).bind (fun s1 =>
    (f2kDelS me s1.1).bind (fun s2 => (btreeS me.ne s2.b s1.2).bind (fun b2 => (bfinS me.ne b2.1).bind (fun b3 => .done { s2 with b := b3 })))))))

/-- A whole verifier, as `mixR` (emp-zk-bool/ostriple.h:33-73, zk-mem.h:19-31). -/
def branchR (me : MixEnv F) (t : SessTree) : RProg (MVer F) :=
  (rcotR me.ne 0 1).bind (fun _ => (btreeR me.ne VerSt.init t).bind (fun b => (f2kNewR me b.1).bind (fun s => (mtreeR me s b.2).bind (fun s1 =>
    (f2kDelR me s1.1).bind (fun s2 => (btreeR me.ne s2.b s1.2).bind (fun b2 => (bfinR me.ne b2.1).bind (fun b3 => .done { s2 with b := b3 })))))))

/-- The prover with the flush of bool_io.h:22-23 at the end. -/
def branchProver (me : MixEnv F) (t : SessTree) : SProg (MPrv F) :=
  (branchS me t).bind (fun a => .call .flush (fun _ => .done a))

/-- The verifier with the flush of bool_io.h:22-23 at the end. -/
def branchVerifier (me : MixEnv F) (t : SessTree) : RProg (MVer F) :=
  (branchR me t).bind (fun b => .call .flush (fun _ _ => .done b))

end

/-- A branching program with one memory (zk-mem.h:18-183): before it, its calls, and, after `check`, the rest. -/
abbrev RamTree := Branch BOp (Branch UOp (Branch BOp Unit))

/-- The instructions of the calls of a branching program, and of the check where it ends (zk-mem.h:57-183). -/
def uTreeGen (lib : CmpLib) (c : RamCfg) : RNet → Branch UOp (Branch BOp Unit) → Branch MOp (Branch BOp Unit)
  | g, .fin post =>
      match checkGen lib c g with
      | none => .undef
      | some l => .ops l (fun _ => .fin post)
  | g, .ops us k =>
      match uGens c g us with
      | none => .undef
      | some (l, g1) => .ops l (fun o => uTreeGen lib c g1 (k o))
  | _, .undef => .undef

/-- The instructions of a whole branching program with one memory (zk-mem.h:18-30, 57-183); `p`: the plain values of the wires so far, from which
the prover takes its inputs, see Model/RamNet.lean. -/
def ramTreeGen (lib : CmpLib) (c : RamCfg) : Plain → RamTree → SessTree
  | p, .fin t => .fin (uTreeGen lib c ⟨p.wires, 0, ramInit c, []⟩ t)
  | p, .ops l k =>
      match l.foldlM plainStep p with
      | none => .undef
      | some q => .ops l (fun o => ramTreeGen lib c q (k o))
  | _, .undef => .undef

end EmpZk
