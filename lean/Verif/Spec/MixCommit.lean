/-
Specification: what the messages of a (possibly malicious) prover commit it to in a session that mixes boolean gates with products over
F_{2^128} (see `Verif.Spec.BoolCommit` for the boolean part).

A block is committed by a pair (value, MAC) fixed independently of the verifier's `Delta`.  The program `mixC` asks the endpoint the same
questions as the verifier and works on the committed pairs instead of the keys; it compares nothing, but keeps a record of every comparison
the verifier makes.
-/
import Verif.Spec.MixNet
import Verif.Spec.BoolCommit

namespace EmpZk

section
variable {F : Type} [Field F] [BlockField F]

/-- A batch of products of two blocks under check: operands and outputs, seeds, first masking correlation, answer. -/
structure MulRec (F : Type) where
  gates : List ((F × F) × (F × F) × (F × F))
  seeds : Nat → F
  ope : Nat
  ans : F × F

/-- A batch of products of three to five blocks under check. -/
structure PrdRec (F : Type) where
  gates : List (PGate F)
  seed : F
  ans : PolyEnt F

/-- Committed state: the boolean part, the blocks, the buffers, the challenges, and the comparisons made so far (`eqs`: two blocks and the
two MACs received). -/
structure MCom (F : Type) where
  b : ComSt F
  fw : List (F × F)
  buf : F2kBuf (F × F)
  fills : Nat
  polys : List (PGate F)
  rs : List F
  muls : List (MulRec F)
  prds : List (PrdRec F)
  eqs : List ((F × F) × (F × F) × (F × F))

/-- The session in which the verifier's secret is `d`. -/
def MixEnv.at (me : MixEnv F) (v : BView F) (d : F) : MixEnv F :=
  { me with ne := { me.ne with e := v.env d }, keys := fun k => (me.auth k).map (keyF d) }

/-! ### boolean part -/

/-- A check of AND gates. -/
def andCheckC (ne : NetEnv F) (v : BView F) (s : ComSt F) : RProg (ComSt F) :=
  .call .hash (fun _ d => (rcotR ne s.used 128).bind (fun _ => .call (.data 32) (fun _ bs =>
    .call .flush (fun _ _ => .done (comAndCheck { v with chal := fun _ _ => ne.seeds d } s (ne.dec2 bs))))))

/-- A check of statements. -/
def polyCheckC (ne : NetEnv F) (v : BView F) (s : ComSt F) : RProg (ComSt F) :=
  .call (.back (ne.enc (v.polySeed s.polyBatches))) (fun _ _ => (rcotR ne s.used 128).bind (fun _ => .call (.data 32) (fun _ bs =>
    .done (comPolyCheck v s (ne.dec2 bs)))))

/-- Room for one more AND gate. -/
def andRoomC (ne : NetEnv F) (v : BView F) (s : ComSt F) : RProg (ComSt F) :=
  if s.gates.length = v.checkSz then andCheckC ne v s else .done s

/-- Room for one more statement. -/
def polyRoomC (ne : NetEnv F) (v : BView F) (s : ComSt F) : RProg (ComSt F) :=
  if s.polys.length ≥ v.polySz ∧ s.polys ≠ [] then polyCheckC ne v s else .done s

/-- One boolean instruction. -/
def bopC (ne : NetEnv F) (v : BView F) (s : ComSt F) : BOp → RProg (ComSt F)
  | .input b => (rcotR ne s.used 1).bind (fun _ => .call .bit (fun d _ => RProg.ofOpt (comStep v s ⟨d, 0, 0⟩ (.input b))))
  | .and i j => (RProg.ofOpt s.wires[i]?).bind (fun a => (RProg.ofOpt s.wires[j]?).bind (fun b =>
      (andRoomC ne v s).bind (fun s1 => (rcotR ne s1.used 1).bind (fun _ =>
        .call .bit (fun d _ => RProg.ofOpt (comAndPush v s1 a b d))))))
  | .reveal i => .call .bit (fun d _ => RProg.ofOpt (comStep v s ⟨d, 0, 0⟩ (.reveal i)))
  | .poly p => (RProg.ofOpt (p.lookup s.wires)).bind (fun q => (polyRoomC ne v s).bind (fun s1 => RProg.ofOpt (comPolyPush v s1 q)))
  | .pub b => RProg.ofOpt (comStep v s ⟨false, 0, 0⟩ (.pub b))
  | .xor i j => RProg.ofOpt (comStep v s ⟨false, 0, 0⟩ (.xor i j))
  | .not i => RProg.ofOpt (comStep v s ⟨false, 0, 0⟩ (.not i))

/-- Boolean instructions one after the other. -/
def bopsC (ne : NetEnv F) (v : BView F) : ComSt F → List BOp → RProg (ComSt F)
  | s, [] => .done s
  | s, o :: os => (bopC ne v s o).bind (fun s1 => bopsC ne v s1 os)

/-- End of the session: the remaining checks, and the digest received. -/
def bfinC (ne : NetEnv F) (v : BView F) (s : ComSt F) : RProg (ComSt F × F) :=
  (if s.polys ≠ [] then polyCheckC ne v s else RProg.done s).bind (fun s1 =>
    (if s1.gates ≠ [] then andCheckC ne v s1 else RProg.done s1).bind (fun s2 => .call (.data 32) (fun _ bs => .done (s2, ne.decD bs))))

/-! ### products over F_{2^128} -/

/-- The first buffer of correlations. -/
def f2kNewC (me : MixEnv F) (b : ComSt F) : RProg (MCom F) :=
  (RProg.calls (me.svV 0)).bind (fun _ =>
    .done ⟨{ b with used := b.used + me.svN 0 }, [], ⟨[], [], me.auth 0, 0⟩, 1, [], [], [], [], []⟩)

/-- A check of products of two blocks. -/
def f2kCheckC (me : MixEnv F) (s : MCom F) : RProg (MCom F) :=
  .call .flush (fun _ _ => .call .hash (fun _ d => (RProg.ofOpt s.buf.batch).bind (fun bt => (rcotR me.ne s.b.used 128).bind (fun _ =>
    .call (.data 32) (fun _ bs => .call .flush (fun _ _ =>
      .done { s with b := { s.b with used := s.b.used + 128 }, buf := { s.buf with left := [], rght := [] },
                     muls := s.muls ++ [⟨bt, me.ne.seeds d, s.b.used, me.ne.dec2 bs⟩] }))))))

/-- Room for one more product of two blocks. -/
def f2kRoomC (me : MixEnv F) (s : MCom F) : RProg (MCom F) := if s.buf.left.length = me.sz then f2kCheckC me s else .done s

/-- More correlations. -/
def f2kFillC (me : MixEnv F) (s : MCom F) : RProg (MCom F) :=
  if s.buf.cnt = me.sz then (RProg.calls (me.svV s.fills)).bind (fun _ =>
    .done { s with b := { s.b with used := s.b.used + me.svN s.fills }, buf := { s.buf with auth := me.auth s.fills, cnt := 0 },
                   fills := s.fills + 1 })
  else .done s

/-- A product of two blocks: the value committed is the one the message says. -/
def f2kMulC (me : MixEnv F) (s : MCom F) (a b : F × F) : RProg (MCom F) :=
  (f2kRoomC me s).bind (fun s1 => (f2kFillC me s1).bind (fun s2 =>
    .call (.data 16) (fun _ bs =>
      (RProg.ofOpt (if s2.buf.left.length < me.sz then s2.buf.auth[s2.buf.cnt]? else none)).bind (fun au =>
        .done { s2 with fw := s2.fw ++ [(au.1 + me.ne.dec bs, au.2)],
                        buf := ⟨s2.buf.left ++ [a], s2.buf.rght ++ [b], s2.buf.auth.set s2.buf.cnt (au.1 + me.ne.dec bs, au.2),
                                s2.buf.cnt + 1⟩ }))))

/-- A check of products of three to five blocks. -/
def prdtCheckC (me : MixEnv F) (s : MCom F) : RProg (MCom F) :=
  .call .flush (fun _ _ => .call .hash (fun _ d => .call (.data 80) (fun _ bs =>
    .done { s with polys := [], prds := s.prds ++ [⟨s.polys, me.blk d, dec5 me.ne bs⟩] })))

/-- Room for one more such product. -/
def prdtRoomC (me : MixEnv F) (s : MCom F) : RProg (MCom F) :=
  if s.polys.length ≥ me.cap ∧ s.polys ≠ [] then prdtCheckC me s else .done s

/-- The block committed by 130 labels: its 128 coefficients are the bits committed by the labels 0..63 and 65..128. -/
def mulCom (ls : List F) (m : F) : F × F := (packList ((ls.map lsb).take 64 ++ ((ls.map lsb).drop 65).take 64), m)

/-- A product of three to five blocks: the value committed is given by 130 committed bits. -/
def f2kMulNC (me : MixEnv F) (v : BView F) (s : MCom F) (xs : List (F × F)) : RProg (MCom F) :=
  (bopsC me.ne v s.b ((List.replicate 130 false).map BOp.input)).bind (fun b1 =>
    (RProg.ofOpt (mulLabel (b1.wires.drop s.b.wires.length))).bind (fun m =>
      (prdtRoomC me { s with b := { b1 with wires := s.b.wires } }).bind (fun s2 =>
        .done { s2 with fw := s2.fw ++ [mulCom (b1.wires.drop s.b.wires.length) m],
                        polys := s2.polys ++ [⟨xs, mulCom (b1.wires.drop s.b.wires.length) m⟩] })))

/-- One instruction. -/
def mopC (me : MixEnv F) (v : BView F) (s : MCom F) : MOp → RProg (MCom F)
  | .bool o => (bopC me.ne v s.b o).bind (fun b => .done { s with b := b })
  | .pack ws => (RProg.ofOpt (pick s.b.wires ws)).bind (fun ls => (RProg.ofOpt (innBase 0 ls ls.length)).bind (fun m =>
      .done { s with fw := s.fw ++ [(packList (ls.map lsb), m)] }))
  | .chal => .call .hash (fun _ d => .done { s with rs := s.rs ++ [me.blk d] })
  | .addc i k => (RProg.ofOpt s.fw[i]?).bind (fun x => (RProg.ofOpt s.rs[k]?).bind (fun r =>
      .done { s with fw := s.fw ++ [(x.1 + r, x.2)] }))
  | .mul i j => (RProg.ofOpt s.fw[i]?).bind (fun a => (RProg.ofOpt s.fw[j]?).bind (fun b => f2kMulC me s a b))
  | .mulN is => (RProg.ofOpt (pick s.fw is)).bind (fun xs => f2kMulNC me v s xs)
  | .eq i j => (RProg.ofOpt s.fw[i]?).bind (fun a => (RProg.ofOpt s.fw[j]?).bind (fun b =>
      .call (.data 32) (fun _ bs => .done { s with eqs := s.eqs ++ [(a, b, me.ne.dec2 bs)] })))
  | .sync => .call .flush (fun _ _ => .done s)
  | .packAt ps => (RProg.ofOpt (packPieces s.b.wires ps)).bind (fun m =>
      (RProg.ofOpt (piecesVal (s.b.wires.map lsb) ps)).bind (fun x => .done { s with fw := s.fw ++ [(x, m)] }))
  | .chals n => .call .hash (fun _ d => .done { s with rs := s.rs ++ (List.range n).map (me.prg (me.blk d)) })
  | .lin l => (RProg.ofOpt (linComb s.rs (s.fw.map Prod.fst) l)).bind (fun x =>
      (RProg.ofOpt (linComb s.rs (s.fw.map Prod.snd) l)).bind (fun m => .done { s with fw := s.fw ++ [(x, m)] }))

/-- Instructions one after the other. -/
def mopsC (me : MixEnv F) (v : BView F) : MCom F → List MOp → RProg (MCom F)
  | s, [] => .done s
  | s, o :: os => (mopC me v s o).bind (fun s1 => mopsC me v s1 os)

/-- The destructor: the remaining checks. -/
def f2kDelC (me : MixEnv F) (s : MCom F) : RProg (MCom F) :=
  (if s.polys ≠ [] then prdtCheckC me s else RProg.done s).bind (fun s1 => if s1.buf.left ≠ [] then f2kCheckC me s1 else RProg.done s1)

/-- A whole session on committed blocks, with the digest received at the end. -/
def mixC (me : MixEnv F) (v : BView F) (pre : List BOp) (ops : List MOp) (post : List BOp) : RProg (MCom F × F) :=
  (rcotR me.ne 0 1).bind (fun _ => (bopsC me.ne v ComSt.init pre).bind (fun b => (f2kNewC me b).bind (fun s => (mopsC me v s ops).bind (fun s1 =>
    (f2kDelC me s1).bind (fun s2 => (bopsC me.ne v s2.b post).bind (fun b2 => (bfinC me.ne v b2).bind (fun r =>
      .done ({ s2 with b := r.1 }, r.2))))))))

/-- The same with the flush at the end. -/
def mixCommit (me : MixEnv F) (v : BView F) (pre : List BOp) (ops : List MOp) (post : List BOp) : RProg (MCom F × F) :=
  (mixC me v pre ops post).bind (fun b => .call .flush (fun _ _ => .done b))

/-! ### what is claimed -/

omit [Field F] [BlockField F] in
/-- The same instruction up to the value of an input. -/
def MOp.same : MOp → MOp → Prop
  | .bool o, .bool o' => BOp.same o o'
  | o, o' => o = o'

omit [BlockField F] in
/-- The sequence `ch` of challenges begins with `rs`. -/
def Begins (ch : Nat → F) (rs : List F) : Prop := ∀ i r, rs[i]? = some r → ch i = r

end
end EmpZk
