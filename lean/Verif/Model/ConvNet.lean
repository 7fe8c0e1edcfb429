/-
Programs that mix boolean gates, field arithmetic and conversions between the two, over the byte channel: emp-zk/emp-zk-bool,
emp-zk/emp-zk-arith (ostriple.h, polynomial.h, triple_auth.h, emp-zk-arith.h, conversion.h) and emp-zk/edabit (edabits.h, auth_helper.h),
all on the same endpoint `ios[0]`.

Each party is a program over its endpoint (`Verif.Model.Calls`); the boolean part is that of `Verif.Model.MixNet`, the computations of the
arithmetic part are those of `Verif.Model.ArithSession`.
Simplifications: those of `Verif.Model.BoolNet` and `Verif.Model.ArithSession` (a batched input is a sequence of single ones; `error` in the
arithmetic part sets a flag); a `flush` that only one party calls directly after `send_data` or `recv_data` is left out; `VoleTriple` and
`FerretCOT` are outside: they deliver correlations and make any mirrored calls on the endpoint; the circuits of emp-tool's `Integer` (`+`,
`-`, `select`, external) are given as lists of gates.
-/
import Verif.Model.MixNet
import Verif.Model.ArithBatch
import Verif.Model.Convert

namespace EmpZk

/-- A circuit on two 62-bit operands: gates over wires 0..61 (first operand), 62..123 (second operand), and the wires of the result
(edabits.h:127-129, 157-158, 202-204, 234-235, 283-285). -/
structure Circ62 where
  ops : List BOp
  out : List Nat

/-- What such a program takes from outside: the boolean environment; the arithmetic one (`base.seed` is not used), the blocks the verifier
draws for the checks of multiplications and their expansion (ostriple.h:344-354); the calls `vole->extend(&x, 1)` makes on the endpoints when
`n` outputs were taken and `arith_candidate` was filled `k` times (vole_triple.h:216-255); the sizes of edabits.h:30-33 and `np_sz` (45); the
contents of `arith_candidate` after filling number `k` (52, 86) for each party and the calls this makes when `n` single outputs were taken; the
random point the verifier draws for generation `g` (299-301); the digest of what was put into `hash` (auth_helper.h:10, 138); the circuits
`f2_to_check[i] = ...` (edabits.h:127-129) and `in - r` with its correction (157-158). -/
structure ConvEnv (F : Type) where
  ne : NetEnv F
  base : AEnv
  seed0 : Nat → U128
  expand : U128 → Nat → U128
  avP : Nat → Nat → List SOp
  avV : Nat → Nat → List ROp
  cfg : EdaCfg
  npSz : Nat
  candA : Nat → List U128
  candB : Nat → List U128
  edP : Nat → Nat → List SOp
  edV : Nat → Nat → List ROp
  rp : Nat → Nat
  dig : List (W ⊕ F) → List Byte
  sum : Circ62
  diff : Circ62

/-- The arithmetic session with the seeds expanded from the verifier's blocks (emp-zk-arith/ostriple.h:349-351). -/
def ConvEnv.env {F : Type} (ce : ConvEnv F) : AEnv := { ce.base with seed := fun b => ce.expand (ce.seed0 b) }

/-- Instructions: boolean (emp-zk-bool); arithmetic (emp-zk-arith); conversion of one integer with the wires `ws` or of one field element
(conversion.h:7-11, 17-19); of several (13-15, 21-23); a flush of the endpoint by both parties (zk_bool_circuit_exec.h:22-26). -/
inductive COp where
  | bool (o : BOp)
  | arith (o : AOp)
  | b2a (ws : List Nat)
  | a2b (i : Nat)
  | b2aN (wss : List (List Nat))
  | a2bN (is : List Nat)
  | sync

/-- The 62 lowest bits of a word: `Integer(62, w, _)` (edabits.h:94-95, 233, 282; emp-tool external). -/
def bitsW (w : W) : List Bool := (List.range 62).map (fun i => w.getLsbD i)

/-- The number with the given bits, lowest first: `reveal<uint64_t>` (auth_helper.h:62, 78; emp-tool external). -/
def numOf : List Bool → Nat
  | [] => 0
  | b :: bs => b.toNat + 2 * numOf bs

/-- The 62 labels of each of `n` integers in a list of labels (edabits.h:93-98). -/
def chunk62 {α : Type} (n : Nat) (l : List α) : List (List α) := (List.range n).map (fun i => (l.drop (62 * i)).take 62)

/-- The 4 bytes of a `uint32_t` (edabits.h:302). -/
def encU32 (n : Nat) : List Byte := leBytes 4 n

/-- `send_data` of some bytes. Of no bytes it only pushes out waiting bits, like `flush` (bool_io.h:64-68). -/
def sendS {α : Type} (bs : List Byte) (k : SProg α) : SProg α :=
  if bs = [] then .call .flush (fun _ => k) else .call (.data bs) (fun _ => k)

/-- `recv_data` of `n` bytes. Of no bytes it only drops the rest of the buffer, like `flush` (bool_io.h:70-74). -/
def recvR {α : Type} (n : Nat) (k : List Byte → RProg α) : RProg α :=
  if n = 0 then .call .flush (fun _ _ => k []) else .call (.data n) (fun _ bs => k bs)

section
variable {F : Type} [Field F] [BlockField F]

/-! ### arithmetic part, prover -/

/-- `vole->extend(&x, 1)` (external; emp-zk-arith/ostriple.h:71, 128, 220). -/
def extAS (ce : ConvEnv F) (k used : Nat) : SProg Unit := SProg.calls (ce.avP used k)

/-- emp-zk-arith/ostriple.h:166-241, 344-354, prover; `k` is the number of times `arith_candidate` was filled. -/
def amulCheckS (ce : ConvEnv F) (k : Nat) (s : APrv) : SProg APrv :=
  .call .flush (fun _ => .call (.back 16) (fun sd => .call .flush (fun _ =>
    (SProg.ofOpt (mulCheckA s.gates ce.base.threads (ce.expand (decBlk sd)) (ce.base.cor s.used))).bind (fun a =>
      (extAS ce k s.used).bind (fun _ => .call (.data (encAns a)) (fun _ => .call .flush (fun _ =>
        .done { s with used := s.used + 1, gates := [], mulBatches := s.mulBatches + 1 })))))))

/-- emp-zk-arith/polynomial.h:42-61, prover: the seed is taken as it arrives. -/
def apolyCheckS (ce : ConvEnv F) (k : Nat) (s : APrv) : SProg APrv :=
  .call .flush (fun _ => .call (.back 8) (fun sd =>
    (SProg.ofOpt (apolyCheckA s.polys (decW sd) (ce.base.cor s.used))).bind (fun a =>
      (extAS ce k s.used).bind (fun _ => .call (.data (encAns a)) (fun _ =>
        .done { s with used := s.used + 1, polys := [], polyBatches := s.polyBatches + 1 })))))

/-- emp-zk-arith/ostriple.h:124-127. -/
def amulRoomS (ce : ConvEnv F) (k : Nat) (s : APrv) : SProg APrv :=
  if s.gates.length = ce.base.checkSz then amulCheckS ce k s else .done s

/-- emp-zk-arith/polynomial.h:43-44, 85-86, 125-126, prover. -/
def apolyRoomS (ce : ConvEnv F) (k : Nat) (s : APrv) : SProg APrv :=
  if s.polys.length ≥ ce.base.polySz ∧ s.polys ≠ [] then apolyCheckS ce k s else .done s

/-- One arithmetic instruction, prover: emp-zk-arith/ostriple.h:69-77 (input), 122-142 (multiplication), 294-302 (opening), 330-334 (zero),
zk_fp_exec_prover.h:26-68, polynomial.h:83-158. -/
def aopS (ce : ConvEnv F) (k : Nat) (s : APrv) : AOp → SProg APrv
  | .input w => (extAS ce k s.used).bind (fun _ => (SProg.ofOpt (aprvStep ce.env s (.input w))).bind (fun r =>
      .call (.data (encW r.2.w)) (fun _ => .done r.1)))
  | .mul i j => (SProg.ofOpt s.wires[i]?).bind (fun a => (SProg.ofOpt s.wires[j]?).bind (fun b =>
      (amulRoomS ce k s).bind (fun r => (extAS ce k r.used).bind (fun _ =>
        (SProg.ofOpt (aprvMulPush ce.env r a b)).bind (fun q => .call (.data (encW q.2)) (fun _ => .done q.1))))))
  | .reveal i => (SProg.ofOpt (aprvStep ce.env s (.reveal i))).bind (fun r => .call (.data (encW r.2.w)) (fun _ => .done r.1))
  | .revealCheck i x => (SProg.ofOpt (aprvStep ce.env s (.revealCheck i x))).bind (fun r =>
      .call (.data (encW r.2.w)) (fun _ => .done r.1))
  | .poly st => (SProg.ofOpt (st.lookup s.wires)).bind (fun p => (apolyRoomS ce k s).bind (fun r =>
      SProg.ofOpt (aprvPolyPush ce.env r p)))
  | .pub w => (SProg.ofOpt (aprvStep ce.env s (.pub w))).bind (fun r => .done r.1)
  | .add i j => (SProg.ofOpt (aprvStep ce.env s (.add i j))).bind (fun r => .done r.1)
  | .mulc i c => (SProg.ofOpt (aprvStep ce.env s (.mulc i c))).bind (fun r => .done r.1)
  | .revealZero i => (SProg.ofOpt (aprvStep ce.env s (.revealZero i))).bind (fun r => .done r.1)

/-- emp-zk-arith.h:49-50, polynomial.h:34-35, ostriple.h:54-57, triple_auth.h:23-28, prover. -/
def afinS (ce : ConvEnv F) (k : Nat) (s : APrv) : SProg APrv :=
  (if s.polys ≠ [] then apolyCheckS ce k s else SProg.done s).bind (fun s1 =>
    (if s1.gates ≠ [] then amulCheckS ce k s1 else SProg.done s1).bind (fun s2 =>
      .call (.data (encDig (ce.base.hash s2.stored))) (fun _ => .done s2)))

/-! ### arithmetic part, verifier -/

/-- `vole->extend(&x, 1)` (external; emp-zk-arith/ostriple.h:94, 150, 229). -/
def extAR (ce : ConvEnv F) (k used : Nat) : RProg Unit := RProg.calls (ce.avV used k)

/-- emp-zk-arith/ostriple.h:166-241, 344-354, verifier. -/
def amulCheckR (ce : ConvEnv F) (k : Nat) (s : AVer) : RProg AVer :=
  .call .flush (fun _ _ => .call (.back (encBlk (ce.seed0 s.mulBatches))) (fun _ _ => .call .flush (fun _ _ =>
    (extAR ce k s.used).bind (fun _ => .call (.data 16) (fun _ bs =>
      (RProg.ofOpt (averMulCheck ce.env s (decAns bs))).bind (fun r => .call .flush (fun _ _ => .done r)))))))

/-- emp-zk-arith/polynomial.h:42-47, 62-81, verifier. -/
def apolyCheckR (ce : ConvEnv F) (k : Nat) (s : AVer) : RProg AVer :=
  .call .flush (fun _ _ => .call (.back (encW (mod64 (ce.base.polySeed s.polyBatches)))) (fun _ _ =>
    (extAR ce k s.used).bind (fun _ => .call (.data 16) (fun _ bs => RProg.ofOpt (averPolyCheck ce.env s (decAns bs))))))

/-- emp-zk-arith/ostriple.h:146-149. -/
def amulRoomR (ce : ConvEnv F) (k : Nat) (s : AVer) : RProg AVer :=
  if s.gates.length = ce.base.checkSz then amulCheckR ce k s else .done s

/-- emp-zk-arith/polynomial.h:43-44, 85-86, 125-126, verifier. -/
def apolyRoomR (ce : ConvEnv F) (k : Nat) (s : AVer) : RProg AVer :=
  if s.polys.length ≥ ce.base.polySz ∧ s.polys ≠ [] then apolyCheckR ce k s else .done s

/-- One arithmetic instruction, verifier: emp-zk-arith/ostriple.h:92-103 (input), 144-162 (multiplication), 304-311, 320-329 (opening),
330-334 (zero), zk_fp_exec_verifier.h:27-68, polynomial.h:83-158. -/
def aopR (ce : ConvEnv F) (k : Nat) (s : AVer) : AOp → RProg AVer
  | .input w => (extAR ce k s.used).bind (fun _ => .call (.data 8) (fun _ bs =>
      RProg.ofOpt (averStep ce.env s ⟨decW bs, 0, 0⟩ (.input w))))
  | .mul i j => (RProg.ofOpt s.wires[i]?).bind (fun a => (RProg.ofOpt s.wires[j]?).bind (fun b =>
      (amulRoomR ce k s).bind (fun r => (extAR ce k r.used).bind (fun _ =>
        .call (.data 8) (fun _ bs => RProg.ofOpt (averMulPush ce.env r a b (decW bs)))))))
  | .reveal i => .call (.data 8) (fun _ bs => RProg.ofOpt (averStep ce.env s ⟨decW bs, 0, 0⟩ (.reveal i)))
  | .revealCheck i x => .call (.data 8) (fun _ bs => RProg.ofOpt (averStep ce.env s ⟨decW bs, 0, 0⟩ (.revealCheck i x)))
  | .poly st => (RProg.ofOpt (st.lookup s.wires)).bind (fun p => (apolyRoomR ce k s).bind (fun r =>
      RProg.ofOpt (averPolyPush ce.env r p)))
  | .pub w => RProg.ofOpt (averStep ce.env s ⟨0, 0, 0⟩ (.pub w))
  | .add i j => RProg.ofOpt (averStep ce.env s ⟨0, 0, 0⟩ (.add i j))
  | .mulc i c => RProg.ofOpt (averStep ce.env s ⟨0, 0, 0⟩ (.mulc i c))
  | .revealZero i => RProg.ofOpt (averStep ce.env s ⟨0, 0, 0⟩ (.revealZero i))

/-- emp-zk-arith.h:49-50, polynomial.h:34-35, ostriple.h:54-57, triple_auth.h:29-36, verifier. -/
def afinR (ce : ConvEnv F) (k : Nat) (s : AVer) : RProg AVer :=
  (if s.polys ≠ [] then apolyCheckR ce k s else RProg.done s).bind (fun s1 =>
    (if s1.gates ≠ [] then amulCheckR ce k s1 else RProg.done s1).bind (fun s2 =>
      .call (.data 32) (fun _ bs => .done (averFinHash ce.env s2 (decDig bs)))))

/-! ### edaBits and conversions, prover -/

/-- The prover: the boolean part, the arithmetic part, the positions of edabits.h:25-28, `bool_candidate` (labels), `arith_candidate`, and
what was put into `hash` of auth_helper.h:10 since the last digest; `outs` is what the program itself opened (`b.outs` has also what the
conversions opened). -/
structure CPrv (F : Type) where
  b : PrvSt F
  a : APrv
  eda : EdaState
  cand : List (List F)
  fp : List U128
  hashed : List (W ⊕ F)
  outs : List Bool

/-- A circuit of emp-tool's `Integer` on the labels `xs`, `ys`; the labels of inner gates are local variables
(edabits.h:127-129, 157-158, 234-235), prover. -/
def circS (ne : NetEnv F) (b : PrvSt F) (c : Circ62) (xs ys : List F) : SProg (PrvSt F × List F) :=
  (bopsS ne { b with wires := xs ++ ys } c.ops).bind (fun b1 => (SProg.ofOpt (pick b1.wires c.out)).bind (fun o =>
    .done ({ b1 with wires := b.wires }, o)))

/-- edabits.h:123-133: the boolean sums of the buckets of one pass, prover. -/
def sumsS (ne : NetEnv F) (c : Circ62) (cand : List (List F)) : PrvSt F → List (Nat × Nat) → SProg (PrvSt F × List (List F))
  | b, [] => .done (b, [])
  | b, p :: ps => (SProg.ofOpt cand[p.1]?).bind (fun x => (SProg.ofOpt cand[p.2]?).bind (fun y =>
      (circS ne b c x y).bind (fun r => (sumsS ne c cand r.1 ps).bind (fun q => .done (q.1, r.2 :: q.2)))))

/-- auth_helper.h:83-104, prover: the values are sent, the MACs and the labels are hashed. -/
def openS (s : CPrv F) (ms : List U128) (ls : List (List F)) : SProg (CPrv F) :=
  sendS (encWs (ms.map high64)) (.done { s with hashed := s.hashed ++ (ms.map (fun m => Sum.inl (low64 m)) ++ ls.flatten.map Sum.inr) })

/-- edabits.h:119-140: pass `j` of the bucketing, prover. -/
def passS (ce : ConvEnv F) (rp : Nat) (s : CPrv F) (j : Nat) : SProg (CPrv F) :=
  (SProg.ofOpt ((List.range ce.cfg.N).mapM (fun i => do
      let a ← s.fp[s.eda.npPt + i]?
      let b ← s.fp[partnerFp ce.cfg s.eda.npPt rp j i]?
      some (intfpAddA a b)))).bind (fun ms =>
    (sumsS ce.ne ce.sum s.cand s.b ((List.range ce.cfg.N).map (fun i => (i, partnerF2 ce.cfg rp j i)))).bind (fun r =>
      .call .flush (fun _ => openS { s with b := r.1 } ms r.2)))

/-- edabits.h:119-140: all passes, prover. -/
def passesS (ce : ConvEnv F) (rp : Nat) : CPrv F → List Nat → SProg (CPrv F)
  | s, [] => .done s
  | s, j :: js => (passS ce rp s j).bind (fun s1 => passesS ce rp s1 js)

/-- auth_helper.h:136-151, prover: the digest is sent, the hash starts anew. -/
def tripleS (ce : ConvEnv F) (s : CPrv F) : SProg (CPrv F) :=
  .call (.data (ce.dig s.hashed)) (fun _ => .done { s with hashed := [] })

/-- edabits.h:85-88, prover. -/
def refillS (ce : ConvEnv F) (s : CPrv F) : SProg (CPrv F) :=
  if ce.npSz < s.eda.npPt + ce.cfg.ell then (SProg.calls (ce.edP s.eda.ext s.a.used)).bind (fun _ =>
    .done { s with fp := ce.candA s.eda.ext })
  else .done s

/-- edabits.h:92-112, prover: the candidates are given as inputs, the random point arrives, `C` candidates are opened. Reading behind the end
of `bool_candidate` is undefined. -/
def chooseS (ce : ConvEnv F) (s : CPrv F) : SProg (CPrv F × Nat) :=
  (SProg.ofOpt (pick s.fp ((List.range ce.cfg.ell).map (s.eda.npPt + ·)))).bind (fun ms =>
    (bopsS ce.ne s.b (ms.flatMap (fun m => (bitsW (high64 m)).map BOp.input))).bind (fun b1 =>
      .call .flush (fun _ => .call (.back 4) (fun d =>
        (SProg.ofOpt (pick (chunk62 ce.cfg.ell (b1.wires.drop s.b.wires.length)) (openedIdx ce.cfg (leVal d)))).bind (fun ls =>
          (SProg.ofOpt (pick s.fp ((openedIdx ce.cfg (leVal d)).map (s.eda.npPt + ·)))).bind (fun mo =>
            (openS { s with b := { b1 with wires := s.b.wires }, cand := chunk62 ce.cfg.ell (b1.wires.drop s.b.wires.length) } mo ls).bind
              (fun s1 => .done (s1, leVal d))))))))

/-- edabits.h:82-149 `edabits_gen_backend`, prover. -/
def genS (ce : ConvEnv F) (s : CPrv F) : SProg (CPrv F) :=
  (refillS ce s).bind (fun s1 => (chooseS ce { s1 with eda := edaGen ce.cfg ce.npSz s1.eda }).bind (fun r =>
    (passesS ce r.2 r.1 (List.range ce.cfg.bm1)).bind (fun s2 => tripleS ce s2)))

/-- edabits.h:320-329 `next_edabits`, prover: the labels of the boolean half and the index of the field half. -/
def nextS (ce : ConvEnv F) (s : CPrv F) : SProg (CPrv F × List F × Nat) :=
  (if s.eda.num = 0 then genS ce { s with eda := { s.eda with npPt := s.eda.npRg } } else SProg.done s).bind (fun s1 =>
    (SProg.ofOpt s1.cand[s1.eda.off]?).bind (fun ls =>
      .done ({ s1 with eda := { s1.eda with off := s1.eda.off + 1, num := s1.eda.num - 1 } }, ls, s1.eda.npPt + s1.eda.off)))

/-- auth_helper.h:61-63, prover: the bits of an integer are opened by the boolean protocol. -/
def revealS (ne : NetEnv F) (b : PrvSt F) (xs : List F) : SProg (PrvSt F × W) :=
  (bopsS ne { b with wires := xs } ((List.range xs.length).map BOp.reveal)).bind (fun b1 =>
    .done ({ b1 with wires := b.wires }, BitVec.ofNat 64 (numOf (b1.outs.drop b.outs.length))))

/-- edabits.h:200-205 (156-158), prover: the differences to the next edaBits, with the indices of the field halves. -/
def b2aDiffS (ce : ConvEnv F) : CPrv F → List (List F) → SProg (CPrv F × List (List F × Nat))
  | s, [] => .done (s, [])
  | s, x :: xs => (nextS ce s).bind (fun n => (circS ce.ne n.1.b ce.diff x n.2.1).bind (fun r =>
      (b2aDiffS ce { n.1 with b := r.1 } xs).bind (fun q => .done (q.1, (r.2, n.2.2) :: q.2))))

/-- auth_helper.h:61-62: all differences are opened, prover. -/
def b2aOpenS (ne : NetEnv F) : PrvSt F → List (List F × Nat) → SProg (PrvSt F × List (Nat × W))
  | b, [] => .done (b, [])
  | b, d :: ds => (revealS ne b d.1).bind (fun r => (b2aOpenS ne r.1 ds).bind (fun q => .done (q.1, (d.2, r.2) :: q.2)))

/-- edabits.h:211-213 (164), prover. -/
def b2aOutA (fp : List U128) (l : List (Nat × W)) : Option (List U128) :=
  l.mapM (fun q => do
    let m ← fp[q.1]?
    some (intfpAddConstA m q.2))

/-- edabits.h:151-165 (one element, no flush) and one round 189-218 of the bulk conversion (with a flush), prover. -/
def b2aRoundS (ce : ConvEnv F) (fl : Bool) (s : CPrv F) (xs : List (List F)) : SProg (CPrv F × List U128) :=
  (b2aDiffS ce s xs).bind (fun d => (b2aOpenS ce.ne d.1.b d.2).bind (fun q =>
    if fl then .call .flush (fun _ => (SProg.ofOpt (b2aOutA d.1.fp q.2)).bind (fun o => .done ({ d.1 with b := q.1 }, o)))
    else (SProg.ofOpt (b2aOutA d.1.fp q.2)).bind (fun o => .done ({ d.1 with b := q.1 }, o))))

/-- edabits.h:189-218: the rounds of a bulk conversion, prover. Reading behind the end of `in` is undefined. -/
def b2aBulkS (ce : ConvEnv F) : CPrv F → List Nat → List (List F) → SProg (CPrv F × List U128)
  | s, [], _ => .done (s, [])
  | s, n :: ns, xs =>
    if n ≤ xs.length then (b2aRoundS ce true s (xs.take n)).bind (fun r =>
      (b2aBulkS ce r.1 ns (xs.drop n)).bind (fun q => .done (q.1, r.2 ++ q.2)))
    else .fail

/-- edabits.h:272-275 (225-227), prover: the sums with the next edaBits, with the labels of their boolean halves (the candidates do not
change before they are used in 281-286: C42). -/
def a2bSumS (ce : ConvEnv F) : CPrv F → List U128 → SProg (CPrv F × List (U128 × List F))
  | s, [] => .done (s, [])
  | s, x :: xs => (nextS ce s).bind (fun n => (SProg.ofOpt n.1.fp[n.2.2]?).bind (fun m =>
      (a2bSumS ce n.1 xs).bind (fun q => .done (q.1, (intfpAddA m x, n.2.1) :: q.2))))

/-- edabits.h:281-286 (233-235), prover: `Integer(62, sum, PUBLIC) - r` with its correction. -/
def a2bOutS (ne : NetEnv F) (c : Circ62) : PrvSt F → List (W × List F) → SProg (PrvSt F × List (List F))
  | b, [] => .done (b, [])
  | b, d :: ds => (bopsS ne { b with wires := [] } ((bitsW d.1).map BOp.pub)).bind (fun b1 =>
      (circS ne { b1 with wires := b.wires } c b1.wires d.2).bind (fun r =>
        (a2bOutS ne c r.1 ds).bind (fun q => .done (q.1, r.2 :: q.2))))

/-- edabits.h:221-236 (one element, no flush) and one round 261-291 of the bulk conversion (with a flush), with auth_helper.h:26-36, prover. -/
def a2bRoundS (ce : ConvEnv F) (fl : Bool) (s : CPrv F) (xs : List U128) : SProg (CPrv F × List (List F)) :=
  (a2bSumS ce s xs).bind (fun d => sendS (encWs (d.2.map (fun q => high64 q.1)))
    (if fl then .call .flush (fun _ => (a2bOutS ce.ne ce.diff d.1.b (d.2.map (fun q => (high64 q.1, q.2)))).bind (fun r =>
        .done ({ d.1 with b := r.1, hashed := d.1.hashed ++ d.2.map (fun q => Sum.inl (low64 q.1)) }, r.2)))
     else (a2bOutS ce.ne ce.diff d.1.b (d.2.map (fun q => (high64 q.1, q.2)))).bind (fun r =>
        .done ({ d.1 with b := r.1, hashed := d.1.hashed ++ d.2.map (fun q => Sum.inl (low64 q.1)) }, r.2))))

/-- edabits.h:261-291: the rounds of a bulk conversion, prover. -/
def a2bBulkS (ce : ConvEnv F) : CPrv F → List Nat → List U128 → SProg (CPrv F × List (List F))
  | s, [], _ => .done (s, [])
  | s, n :: ns, xs =>
    if n ≤ xs.length then (a2bRoundS ce true s (xs.take n)).bind (fun r =>
      (a2bBulkS ce r.1 ns (xs.drop n)).bind (fun q => .done (q.1, r.2 ++ q.2)))
    else .fail

/-- The result of a conversion to the field becomes wires of the arithmetic part (conversion.h:7-15), prover. -/
def putA (r : CPrv F × List U128) : CPrv F := { r.1 with a := { r.1.a with wires := r.1.a.wires ++ r.2 } }

/-- The result of a conversion to integers becomes wires of the boolean part (conversion.h:17-23), prover. -/
def putB (r : CPrv F × List (List F)) : CPrv F := { r.1 with b := { r.1.b with wires := r.1.b.wires ++ r.2.flatten } }

/-- One instruction, prover (conversion.h:7-23, edabits.h:151-292). -/
def copS (ce : ConvEnv F) (s : CPrv F) : COp → SProg (CPrv F)
  | .bool o => (bopS ce.ne s.b o).bind (fun b => .done { s with b := b, outs := s.outs ++ b.outs.drop s.b.outs.length })
  | .arith o => (aopS ce s.eda.ext s.a o).bind (fun a => .done { s with a := a })
  | .b2a ws => (SProg.ofOpt (pick s.b.wires ws)).bind (fun x => (b2aRoundS ce false s [x]).bind (fun r => .done (putA r)))
  | .a2b i => (SProg.ofOpt s.a.wires[i]?).bind (fun x => (a2bRoundS ce false s [x]).bind (fun r => .done (putB r)))
  | .b2aN wss => (SProg.ofOpt (wss.mapM (fun ws => pick s.b.wires ws))).bind (fun xs =>
      (b2aBulkS ce s (bulkRounds ce.cfg s.eda.num xs.length) xs).bind (fun r => .done (putA r)))
  | .a2bN is => (SProg.ofOpt (pick s.a.wires is)).bind (fun xs =>
      (a2bBulkS ce s (bulkRounds ce.cfg s.eda.num xs.length) xs).bind (fun r => .done (putB r)))
  | .sync => .call .flush (fun _ => .done s)

/-- A program, prover (conversion.h:7-23). -/
def copsS (ce : ConvEnv F) : CPrv F → List COp → SProg (CPrv F)
  | s, [] => .done s
  | s, o :: os => (copS ce s o).bind (fun s1 => copsS ce s1 os)

/-- `finalize_zk_bool` then `finalize_zk_arith` (emp-zk-arith.h:46-51, edabits.h:66-68), prover: the boolean part, the digest of the
conversions, the arithmetic part. -/
def cfinS (ce : ConvEnv F) (s : CPrv F) : SProg (CPrv F) :=
  (bfinS ce.ne s.b).bind (fun b => (tripleS ce { s with b := b }).bind (fun s1 =>
    (afinS ce s1.eda.ext s1.a).bind (fun a => .done { s1 with a := a })))

/-- A whole prover: `setup_zk_bool` (emp-zk-bool/ostriple.h:33-66), `setup_zk_arith` with conversions (emp-zk-arith.h:12-31: one VOLE output
emp-zk-arith/ostriple.h:47-48, then `arith_candidate` edabits.h:51-52), program, finalisation. -/
def convS (ce : ConvEnv F) (ops : List COp) : SProg (CPrv F) :=
  (rcotS ce.ne 0 1).bind (fun _ => (extAS ce 0 0).bind (fun _ => (SProg.calls (ce.edP 0 1)).bind (fun _ =>
    (copsS ce ⟨PrvSt.init, APrv.init, edaInit, [], ce.candA 0, [], []⟩ ops).bind (fun s => cfinS ce s))))

/-- The prover with the flush of bool_io.h:22-23 at the end. -/
def convProver (ce : ConvEnv F) (ops : List COp) : SProg (CPrv F) :=
  (convS ce ops).bind (fun a => .call .flush (fun _ => .done a))

/-! ### edaBits and conversions, verifier -/

/-- The verifier: keys instead of labels; see `CPrv` (edabits.h:25-28, auth_helper.h:10). -/
structure CVer (F : Type) where
  b : VerSt F
  a : AVer
  eda : EdaState
  cand : List (List F)
  fp : List U128
  hashed : List (W ⊕ F)
  outs : List Bool

variable [DecidableEq F]

/-- A circuit of emp-tool's `Integer` on keys (edabits.h:127-129, 157-158, 234-235), verifier. -/
def circR (ne : NetEnv F) (b : VerSt F) (c : Circ62) (xs ys : List F) : RProg (VerSt F × List F) :=
  (bopsR ne { b with wires := xs ++ ys } c.ops).bind (fun b1 => (RProg.ofOpt (pick b1.wires c.out)).bind (fun o =>
    .done ({ b1 with wires := b.wires }, o)))

/-- edabits.h:123-133, verifier. -/
def sumsR (ne : NetEnv F) (c : Circ62) (cand : List (List F)) : VerSt F → List (Nat × Nat) → RProg (VerSt F × List (List F))
  | b, [] => .done (b, [])
  | b, p :: ps => (RProg.ofOpt cand[p.1]?).bind (fun x => (RProg.ofOpt cand[p.2]?).bind (fun y =>
      (circR ne b c x y).bind (fun r => (sumsR ne c cand r.1 ps).bind (fun q => .done (q.1, r.2 :: q.2)))))

omit [DecidableEq F] in
/-- auth_helper.h:118-126: the keys of one integer adjusted with the bits of the received word. -/
def adjKeys (delta : F) (v : W) (ks : List F) : List F :=
  (List.range ks.length).zipWith (fun j k => if v.getLsbD j then k + delta else k) ks

omit [BlockField F] [DecidableEq F] in
/-- auth_helper.h:111-115: the word hashed for a received word. -/
def openWord (delta : W) (v : W) (k : U128) : W := addMod (low64 k) (multMod v delta)

/-- auth_helper.h:106-132, verifier: the values arrive; what the MACs and labels should be is hashed. -/
def openR (ce : ConvEnv F) (s : CVer F) (ks : List U128) (ls : List (List F)) : RProg (CVer F) :=
  recvR (8 * ks.length) (fun bs =>
    .done { s with hashed := s.hashed ++ ((List.zipWith (openWord ce.base.delta) (decWs ks.length bs) ks).map Sum.inl ++
      ((List.zipWith (adjKeys ce.ne.e.delta) (decWs ks.length bs) ls).flatten).map Sum.inr) })

/-- edabits.h:119-140: pass `j` of the bucketing, verifier. -/
def passR (ce : ConvEnv F) (rp : Nat) (s : CVer F) (j : Nat) : RProg (CVer F) :=
  (RProg.ofOpt ((List.range ce.cfg.N).mapM (fun i => do
      let a ← s.fp[s.eda.npPt + i]?
      let b ← s.fp[partnerFp ce.cfg s.eda.npPt rp j i]?
      some (intfpAddB a b)))).bind (fun ks =>
    (sumsR ce.ne ce.sum s.cand s.b ((List.range ce.cfg.N).map (fun i => (i, partnerF2 ce.cfg rp j i)))).bind (fun r =>
      .call .flush (fun _ _ => openR ce { s with b := r.1 } ks r.2)))

/-- edabits.h:119-140: all passes, verifier. -/
def passesR (ce : ConvEnv F) (rp : Nat) : CVer F → List Nat → RProg (CVer F)
  | s, [] => .done s
  | s, j :: js => (passR ce rp s j).bind (fun s1 => passesR ce rp s1 js)

/-- auth_helper.h:136-151 with edabits.h:67-68, 141-142, verifier: a different digest stops the process. -/
def tripleR (ce : ConvEnv F) (s : CVer F) : RProg (CVer F) :=
  .call (.data 32) (fun _ bs => if bs = ce.dig s.hashed then .done { s with hashed := [] } else .stop)

/-- edabits.h:85-88, verifier. -/
def refillR (ce : ConvEnv F) (s : CVer F) : RProg (CVer F) :=
  if ce.npSz < s.eda.npPt + ce.cfg.ell then (RProg.calls (ce.edV s.eda.ext s.a.used)).bind (fun _ =>
    .done { s with fp := ce.candB s.eda.ext })
  else .done s

/-- edabits.h:96-112, verifier: `Integer(62, 0, ALICE)` for each candidate; the random point of generation `gens - 1` is sent. -/
def chooseR (ce : ConvEnv F) (s : CVer F) : RProg (CVer F × Nat) :=
  (bopsR ce.ne s.b ((List.replicate (62 * ce.cfg.ell) false).map BOp.input)).bind (fun b1 =>
    .call .flush (fun _ _ => .call (.back (encU32 (ce.rp (s.eda.gens - 1)))) (fun _ _ =>
      (RProg.ofOpt (pick (chunk62 ce.cfg.ell (b1.wires.drop s.b.wires.length)) (openedIdx ce.cfg (ce.rp (s.eda.gens - 1))))).bind (fun ls =>
        (RProg.ofOpt (pick s.fp ((openedIdx ce.cfg (ce.rp (s.eda.gens - 1))).map (s.eda.npPt + ·)))).bind (fun ko =>
          (openR ce { s with b := { b1 with wires := s.b.wires }, cand := chunk62 ce.cfg.ell (b1.wires.drop s.b.wires.length) } ko ls).bind
            (fun s1 => .done (s1, ce.rp (s.eda.gens - 1))))))))

/-- edabits.h:82-149 `edabits_gen_backend`, verifier. -/
def genR (ce : ConvEnv F) (s : CVer F) : RProg (CVer F) :=
  (refillR ce s).bind (fun s1 => (chooseR ce { s1 with eda := edaGen ce.cfg ce.npSz s1.eda }).bind (fun r =>
    (passesR ce r.2 r.1 (List.range ce.cfg.bm1)).bind (fun s2 => tripleR ce s2)))

/-- edabits.h:320-329 `next_edabits`, verifier. -/
def nextR (ce : ConvEnv F) (s : CVer F) : RProg (CVer F × List F × Nat) :=
  (if s.eda.num = 0 then genR ce { s with eda := { s.eda with npPt := s.eda.npRg } } else RProg.done s).bind (fun s1 =>
    (RProg.ofOpt s1.cand[s1.eda.off]?).bind (fun ls =>
      .done ({ s1 with eda := { s1.eda with off := s1.eda.off + 1, num := s1.eda.num - 1 } }, ls, s1.eda.npPt + s1.eda.off)))

/-- auth_helper.h:77-78, verifier. -/
def revealR (ne : NetEnv F) (b : VerSt F) (xs : List F) : RProg (VerSt F × W) :=
  (bopsR ne { b with wires := xs } ((List.range xs.length).map BOp.reveal)).bind (fun b1 =>
    .done ({ b1 with wires := b.wires }, BitVec.ofNat 64 (numOf (b1.outs.drop b.outs.length))))

/-- edabits.h:200-205 (156-158), verifier. -/
def b2aDiffR (ce : ConvEnv F) : CVer F → List (List F) → RProg (CVer F × List (List F × Nat))
  | s, [] => .done (s, [])
  | s, x :: xs => (nextR ce s).bind (fun n => (circR ce.ne n.1.b ce.diff x n.2.1).bind (fun r =>
      (b2aDiffR ce { n.1 with b := r.1 } xs).bind (fun q => .done (q.1, (r.2, n.2.2) :: q.2))))

/-- auth_helper.h:77-78: all differences are opened, verifier. -/
def b2aOpenR (ne : NetEnv F) : VerSt F → List (List F × Nat) → RProg (VerSt F × List (Nat × W))
  | b, [] => .done (b, [])
  | b, d :: ds => (revealR ne b d.1).bind (fun r => (b2aOpenR ne r.1 ds).bind (fun q => .done (q.1, (d.2, r.2) :: q.2)))

/-- edabits.h:211-213 (164), verifier. -/
def b2aOutB (delta : W) (fp : List U128) (l : List (Nat × W)) : Option (List U128) :=
  l.mapM (fun q => do
    let m ← fp[q.1]?
    some (intfpAddConstB delta m q.2))

/-- edabits.h:151-165 (one element, no flush) and one round 189-218 of the bulk conversion (with a flush), verifier. -/
def b2aRoundR (ce : ConvEnv F) (fl : Bool) (s : CVer F) (xs : List (List F)) : RProg (CVer F × List U128) :=
  (b2aDiffR ce s xs).bind (fun d => (b2aOpenR ce.ne d.1.b d.2).bind (fun q =>
    if fl then .call .flush (fun _ _ => (RProg.ofOpt (b2aOutB ce.base.delta d.1.fp q.2)).bind (fun o => .done ({ d.1 with b := q.1 }, o)))
    else (RProg.ofOpt (b2aOutB ce.base.delta d.1.fp q.2)).bind (fun o => .done ({ d.1 with b := q.1 }, o))))

/-- edabits.h:189-218, verifier. -/
def b2aBulkR (ce : ConvEnv F) : CVer F → List Nat → List (List F) → RProg (CVer F × List U128)
  | s, [], _ => .done (s, [])
  | s, n :: ns, xs =>
    if n ≤ xs.length then (b2aRoundR ce true s (xs.take n)).bind (fun r =>
      (b2aBulkR ce r.1 ns (xs.drop n)).bind (fun q => .done (q.1, r.2 ++ q.2)))
    else .fail

/-- edabits.h:272-275 (225-227), verifier. -/
def a2bSumR (ce : ConvEnv F) : CVer F → List U128 → RProg (CVer F × List (U128 × List F))
  | s, [] => .done (s, [])
  | s, x :: xs => (nextR ce s).bind (fun n => (RProg.ofOpt n.1.fp[n.2.2]?).bind (fun m =>
      (a2bSumR ce n.1 xs).bind (fun q => .done (q.1, (intfpAddB m x, n.2.1) :: q.2))))

/-- edabits.h:281-286 (233-235), verifier. -/
def a2bOutR (ne : NetEnv F) (c : Circ62) : VerSt F → List (W × List F) → RProg (VerSt F × List (List F))
  | b, [] => .done (b, [])
  | b, d :: ds => (bopsR ne { b with wires := [] } ((bitsW d.1).map BOp.pub)).bind (fun b1 =>
      (circR ne { b1 with wires := b.wires } c b1.wires d.2).bind (fun r =>
        (a2bOutR ne c r.1 ds).bind (fun q => .done (q.1, r.2 :: q.2))))

/-- edabits.h:221-236 (one element, no flush) and one round 261-291 of the bulk conversion (with a flush), with auth_helper.h:38-47,
verifier. -/
def a2bRoundR (ce : ConvEnv F) (fl : Bool) (s : CVer F) (xs : List U128) : RProg (CVer F × List (List F)) :=
  (a2bSumR ce s xs).bind (fun d => recvR (8 * d.2.length) (fun bs =>
    if fl then .call .flush (fun _ _ =>
      (a2bOutR ce.ne ce.diff d.1.b (List.zipWith (fun v q => (v, q.2)) (decWs d.2.length bs) d.2)).bind (fun r =>
        .done ({ d.1 with b := r.1, hashed := d.1.hashed ++
          (List.zipWith (fun v q => openWord ce.base.delta v q.1) (decWs d.2.length bs) d.2).map Sum.inl }, r.2)))
    else (a2bOutR ce.ne ce.diff d.1.b (List.zipWith (fun v q => (v, q.2)) (decWs d.2.length bs) d.2)).bind (fun r =>
        .done ({ d.1 with b := r.1, hashed := d.1.hashed ++
          (List.zipWith (fun v q => openWord ce.base.delta v q.1) (decWs d.2.length bs) d.2).map Sum.inl }, r.2))))

/-- edabits.h:261-291, verifier. -/
def a2bBulkR (ce : ConvEnv F) : CVer F → List Nat → List U128 → RProg (CVer F × List (List F))
  | s, [], _ => .done (s, [])
  | s, n :: ns, xs =>
    if n ≤ xs.length then (a2bRoundR ce true s (xs.take n)).bind (fun r =>
      (a2bBulkR ce r.1 ns (xs.drop n)).bind (fun q => .done (q.1, r.2 ++ q.2)))
    else .fail

omit [Field F] [BlockField F] [DecidableEq F] in
/-- conversion.h:7-15, verifier. -/
def putAV (r : CVer F × List U128) : CVer F := { r.1 with a := { r.1.a with wires := r.1.a.wires ++ r.2 } }

omit [Field F] [BlockField F] [DecidableEq F] in
/-- conversion.h:17-23, verifier. -/
def putBV (r : CVer F × List (List F)) : CVer F := { r.1 with b := { r.1.b with wires := r.1.b.wires ++ r.2.flatten } }

/-- One instruction, verifier (conversion.h:7-23, edabits.h:151-292). -/
def copR (ce : ConvEnv F) (s : CVer F) : COp → RProg (CVer F)
  | .bool o => (bopR ce.ne s.b o).bind (fun b => .done { s with b := b, outs := s.outs ++ b.outs.drop s.b.outs.length })
  | .arith o => (aopR ce s.eda.ext s.a o).bind (fun a => .done { s with a := a })
  | .b2a ws => (RProg.ofOpt (pick s.b.wires ws)).bind (fun x => (b2aRoundR ce false s [x]).bind (fun r => .done (putAV r)))
  | .a2b i => (RProg.ofOpt s.a.wires[i]?).bind (fun x => (a2bRoundR ce false s [x]).bind (fun r => .done (putBV r)))
  | .b2aN wss => (RProg.ofOpt (wss.mapM (fun ws => pick s.b.wires ws))).bind (fun xs =>
      (b2aBulkR ce s (bulkRounds ce.cfg s.eda.num xs.length) xs).bind (fun r => .done (putAV r)))
  | .a2bN is => (RProg.ofOpt (pick s.a.wires is)).bind (fun xs =>
      (a2bBulkR ce s (bulkRounds ce.cfg s.eda.num xs.length) xs).bind (fun r => .done (putBV r)))
  | .sync => .call .flush (fun _ _ => .done s)

/-- A program, verifier (conversion.h:7-23). -/
def copsR (ce : ConvEnv F) : CVer F → List COp → RProg (CVer F)
  | s, [] => .done s
  | s, o :: os => (copR ce s o).bind (fun s1 => copsR ce s1 os)

/-- `finalize_zk_bool` then `finalize_zk_arith` (emp-zk-arith.h:46-51, edabits.h:66-68), verifier. -/
def cfinR (ce : ConvEnv F) (s : CVer F) : RProg (CVer F) :=
  (bfinR ce.ne s.b).bind (fun b => (tripleR ce { s with b := b }).bind (fun s1 =>
    (afinR ce s1.eda.ext s1.a).bind (fun a => .done { s1 with a := a })))

/-- A whole verifier (emp-zk-bool/ostriple.h:33-66, emp-zk-arith.h:12-31). -/
def convR (ce : ConvEnv F) (ops : List COp) : RProg (CVer F) :=
  (rcotR ce.ne 0 1).bind (fun _ => (extAR ce 0 0).bind (fun _ => (RProg.calls (ce.edV 0 1)).bind (fun _ =>
    (copsR ce ⟨VerSt.init, AVer.init, edaInit, [], ce.candB 0, [], []⟩ ops).bind (fun s => cfinR ce s))))

/-- The verifier with the flush of bool_io.h:22-23 at the end. -/
def convVerifier (ce : ConvEnv F) (ops : List COp) : RProg (CVer F) :=
  (convR ce ops).bind (fun b => .call .flush (fun _ _ => .done b))

end
end EmpZk
