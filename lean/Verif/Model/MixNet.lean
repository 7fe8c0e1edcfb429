/-
A session that mixes boolean gates with products over F_{2^128}, over the byte channel: emp-zk/emp-zk-bool/ostriple.h, polynomial.h,
triple_auth.h together with emp-zk/extensions/ram-zk/ostriple.h (`F2kOSTriple`), poly_prdt.h (`F2kPolyPrdt`) and the set-equality check of
zk-mem.h, all on the same endpoint `ios[0]`.

Each party is a program over its endpoint (`Verif.Model.Calls`).
Simplifications: those of `Verif.Model.BoolNet` (an input of `length` bits is `length` inputs of one bit; a `flush` directly after
`send_data` or `recv_data` is left out where only one party calls it: poly_prdt.h:72, zk-mem.h:322); the plain words the prover keeps beside
the labels (`list`, `sorted_list`, zk-mem.h:12, 132) are the values packed from its labels; `SVoleF2k` and `FerretCOT` are outside: they
deliver correlations and make any mirrored calls on the endpoint.
-/
import Verif.Model.BoolNet
import Verif.Model.Calls
import Verif.Model.ZkRam

namespace EmpZk

section
variable {F : Type} [Field F] [BlockField F]

/-- What a mixed session takes from outside: the environment of the boolean part; `BUFFER_SZ` (ram-zk/ostriple.h:42) and the capacity
`1 << 20` (poly_prdt.h:12); the pairs (value, MAC) and the keys the `k`-th `extend_inplace` delivers (ram-zk/ostriple.h:315-318), the calls
it makes on the endpoints (number 0: with `setup`, ostriple.h:39-40) and the number of `rcot` outputs it takes; the block read from a digest
(bool_io.h:39-43); the blocks `PRG(&seed)` expands a block to (zk-mem-ext.h:263-264, emp-tool external); the 65 bits of `Integer(65, LOW64(v), ALICE)` and `Integer(65, HIGH64(v), ALICE)` (ram-zk/ostriple.h:131-135, emp-tool
external). -/
structure MixEnv (F : Type) where
  ne : NetEnv F
  sz : Nat
  cap : Nat
  auth : Nat → List (F × F)
  keys : Nat → List F
  svP : Nat → List SOp
  svV : Nat → List ROp
  svN : Nat → Nat
  blk : List Byte → F
  prg : F → Nat → F
  lo : F → List Bool
  hi : F → List Bool

/-- Instructions of a mixed session: a boolean instruction; a block packed from labels (zk-mem.h:33-47, `gfp.base[i] = X^i`); a challenge
(zk-mem.h:316); adding challenge `k` to committed block `i` (ram-zk/ostriple.h:80-90); products of two (92-121) and of three to five
(123-193) blocks; the comparison of two committed blocks by their MACs (zk-mem.h:320-331); `sync_zk_bool` (zk-mem.h:167,
zk_bool_circuit_exec.h:22-26): a flush of the endpoint; a block packed from pieces, each with an offset into `gfp.base`
(zk-mem-ext.h:44-77); several coefficients expanded from one challenge (zk-mem-ext.h:261-264); a combination of committed blocks with
challenges as coefficients (zk-mem-ext.h:286-297), given as pairs (challenge, block). -/
inductive MOp where
  | bool (o : BOp)
  | pack (ws : List Nat)
  | chal
  | addc (i k : Nat)
  | mul (i j : Nat)
  | mulN (is : List Nat)
  | eq (i j : Nat)
  | sync
  | packAt (ps : List (Nat × List Nat))
  | chals (n : Nat)
  | lin (l : List (Nat × Nat))

/-! ### boolean part, prover -/

/-- `ferret->rcot(_, k)` (external) (emp-zk-bool/ostriple.h:55, 96, 123, 172). -/
def rcotS (ne : NetEnv F) (used k : Nat) : SProg Unit := SProg.calls (ne.extP used k)

/-- emp-zk-bool/ostriple.h:144-211, prover. -/
def andCheckS (ne : NetEnv F) (s : PrvSt F) : SProg (PrvSt F) :=
  .call .hash (fun d => (rcotS ne s.used 128).bind (fun _ =>
    (SProg.ofOpt (prvAndCheck (ne.env d 0) s)).bind (fun r => .call (.data (ne.enc2 r.2)) (fun _ => .call .flush (fun _ => .done r.1)))))

/-- emp-zk-bool/polynomial.h:42-97, prover. -/
def polyCheckS (ne : NetEnv F) (s : PrvSt F) : SProg (PrvSt F) :=
  .call (.back 16) (fun sd => (rcotS ne s.used 128).bind (fun _ =>
    .call (.data (ne.enc2 (prvPolyCheck (ne.env [] (ne.dec sd)) s).2)) (fun _ => .done (prvPolyCheck (ne.env [] (ne.dec sd)) s).1)))

/-- emp-zk-bool/ostriple.h:118-121, prover. -/
def andRoomS (ne : NetEnv F) (s : PrvSt F) : SProg (PrvSt F) := if s.gates.length = ne.e.checkSz then andCheckS ne s else .done s

/-- emp-zk-bool/polynomial.h:101-102 (and 151-152, 196-197, 263-264, 352-353), prover. -/
def polyRoomS (ne : NetEnv F) (s : PrvSt F) : SProg (PrvSt F) :=
  if s.polys.length ≥ ne.e.polySz ∧ s.polys ≠ [] then polyCheckS ne s else .done s

/-- One boolean instruction, prover (emp-zk-bool/ostriple.h:95-140, 261-274, polynomial.h:99-414). -/
def bopS (ne : NetEnv F) (s : PrvSt F) : BOp → SProg (PrvSt F)
  | .input b => (rcotS ne s.used 1).bind (fun _ =>
      (SProg.ofOpt (prvStep ne.e s (.input b))).bind (fun r => .call (.bit r.2.bit) (fun _ => .done r.1)))
  | .and i j => (SProg.ofOpt s.wires[i]?).bind (fun a => (SProg.ofOpt s.wires[j]?).bind (fun b =>
      (andRoomS ne s).bind (fun s1 => (rcotS ne s1.used 1).bind (fun _ =>
        (SProg.ofOpt (prvAndPush ne.e s1 a b)).bind (fun q => .call (.bit q.2) (fun _ => .done q.1))))))
  | .reveal i => (SProg.ofOpt (prvStep ne.e s (.reveal i))).bind (fun r => .call (.bit r.2.bit) (fun _ => .done r.1))
  | .poly p => (SProg.ofOpt (p.lookup s.wires)).bind (fun q => (polyRoomS ne s).bind (fun s1 => SProg.ofOpt (prvPolyPush ne.e s1 q)))
  | .pub b => (SProg.ofOpt (prvStep ne.e s (.pub b))).bind (fun r => .done r.1)
  | .xor i j => (SProg.ofOpt (prvStep ne.e s (.xor i j))).bind (fun r => .done r.1)
  | .not i => (SProg.ofOpt (prvStep ne.e s (.not i))).bind (fun r => .done r.1)

/-- Boolean instructions one after the other, prover (emp-zk-bool/ostriple.h:95-142, 261-290). -/
def bopsS (ne : NetEnv F) : PrvSt F → List BOp → SProg (PrvSt F)
  | s, [] => .done s
  | s, o :: os => (bopS ne s o).bind (fun s1 => bopsS ne s1 os)

/-- zk_prover.h:43-46, emp-zk-bool/ostriple.h:68-73, polynomial.h:35-36, triple_auth.h:33-38. -/
def bfinS (ne : NetEnv F) (s : PrvSt F) : SProg (PrvSt F) :=
  (if s.polys ≠ [] then polyCheckS ne s else SProg.done s).bind (fun s1 =>
    (if s1.gates ≠ [] then andCheckS ne s1 else SProg.done s1).bind (fun s2 =>
      .call (.data (ne.encD (ne.e.hash s2.digest))) (fun _ => .done s2)))

/-! ### boolean part, verifier -/

/-- `ferret->rcot(_, k)` (external) (emp-zk-bool/ostriple.h:55, 96, 123, 195). -/
def rcotR (ne : NetEnv F) (used k : Nat) : RProg Unit := RProg.calls (ne.extV used k)

variable [DecidableEq F]

/-- emp-zk-bool/ostriple.h:144-211, verifier. -/
def andCheckR (ne : NetEnv F) (s : VerSt F) : RProg (VerSt F) :=
  .call .hash (fun _ d => (rcotR ne s.used 128).bind (fun _ => .call (.data 32) (fun _ bs =>
    (RProg.ofOpt (verAndCheck (ne.env d 0) s (ne.dec2 bs))).bind (fun r => .call .flush (fun _ _ => .done r)))))

/-- emp-zk-bool/polynomial.h:42-97, verifier. -/
def polyCheckR (ne : NetEnv F) (s : VerSt F) : RProg (VerSt F) :=
  .call (.back (ne.enc (ne.e.polySeed s.polyBatches))) (fun _ _ => (rcotR ne s.used 128).bind (fun _ => .call (.data 32) (fun _ bs =>
    .done (verPolyCheck (ne.env [] (ne.e.polySeed s.polyBatches)) s (ne.dec2 bs)))))

/-- emp-zk-bool/ostriple.h:118-121, verifier. -/
def andRoomR (ne : NetEnv F) (s : VerSt F) : RProg (VerSt F) := if s.gates.length = ne.e.checkSz then andCheckR ne s else .done s

/-- emp-zk-bool/polynomial.h:101-102 (and 151-152, 196-197, 263-264, 352-353), verifier. -/
def polyRoomR (ne : NetEnv F) (s : VerSt F) : RProg (VerSt F) :=
  if s.polys.length ≥ ne.e.polySz ∧ s.polys ≠ [] then polyCheckR ne s else .done s

/-- One boolean instruction, verifier (emp-zk-bool/ostriple.h:95-140, 261-274, polynomial.h:99-414). -/
def bopR (ne : NetEnv F) (s : VerSt F) : BOp → RProg (VerSt F)
  | .input b => (rcotR ne s.used 1).bind (fun _ => .call .bit (fun d _ => RProg.ofOpt (verStep ne.e s ⟨d, 0, 0⟩ (.input b))))
  | .and i j => (RProg.ofOpt s.wires[i]?).bind (fun a => (RProg.ofOpt s.wires[j]?).bind (fun b =>
      (andRoomR ne s).bind (fun s1 => (rcotR ne s1.used 1).bind (fun _ =>
        .call .bit (fun d _ => RProg.ofOpt (verAndPush ne.e s1 a b d))))))
  | .reveal i => .call .bit (fun d _ => RProg.ofOpt (verStep ne.e s ⟨d, 0, 0⟩ (.reveal i)))
  | .poly p => (RProg.ofOpt (p.lookup s.wires)).bind (fun q => (polyRoomR ne s).bind (fun s1 => RProg.ofOpt (verPolyPush ne.e s1 q)))
  | .pub b => RProg.ofOpt (verStep ne.e s ⟨false, 0, 0⟩ (.pub b))
  | .xor i j => RProg.ofOpt (verStep ne.e s ⟨false, 0, 0⟩ (.xor i j))
  | .not i => RProg.ofOpt (verStep ne.e s ⟨false, 0, 0⟩ (.not i))

/-- Boolean instructions one after the other, verifier (emp-zk-bool/ostriple.h:95-142, 261-290). -/
def bopsR (ne : NetEnv F) : VerSt F → List BOp → RProg (VerSt F)
  | s, [] => .done s
  | s, o :: os => (bopR ne s o).bind (fun s1 => bopsR ne s1 os)

/-- zk_verifier.h:55-58, emp-zk-bool/ostriple.h:68-73, polynomial.h:35-36, triple_auth.h:39-43. -/
def bfinR (ne : NetEnv F) (s : VerSt F) : RProg (VerSt F) :=
  (if s.polys ≠ [] then polyCheckR ne s else RProg.done s).bind (fun s1 =>
    (if s1.gates ≠ [] then andCheckR ne s1 else RProg.done s1).bind (fun s2 =>
      .call (.data 32) (fun _ bs => .done (verFinHash ne.e s2 (ne.decD bs)))))

/-! ### products over F_{2^128}, prover -/

/-- The prover of a mixed session: the boolean part, the committed blocks (value, MAC), the buffers of ram-zk/ostriple.h:13-19, the number of
refills, the entries of poly_prdt.h:13-17, the challenges taken (zk-mem.h:316). -/
structure MPrv (F : Type) where
  b : PrvSt F
  fw : List (F × F)
  buf : F2kBuf (F × F)
  fills : Nat
  polys : List (PolyEnt F)
  rs : List F

omit [DecidableEq F]

/-- ram-zk/ostriple.h:31-55 (constructor) and 315-318, prover: the first buffer. -/
def f2kNewS (me : MixEnv F) (b : PrvSt F) : SProg (MPrv F) :=
  (SProg.calls (me.svP 0)).bind (fun _ => .done ⟨{ b with used := b.used + me.svN 0 }, [], ⟨[], [], me.auth 0, 0⟩, 1, [], []⟩)

/-- ram-zk/ostriple.h:197-268 `andgate_correctness_check_manage`, prover. -/
def f2kCheckS (me : MixEnv F) (s : MPrv F) : SProg (MPrv F) :=
  .call .flush (fun _ => .call .hash (fun d => (SProg.ofOpt s.buf.batch).bind (fun bt => (rcotS me.ne s.b.used 128).bind (fun _ =>
    (SProg.ofOpt (f2kCheckPrv bt me.ne.e.threads (me.ne.seeds d) (fun i => me.ne.e.mac (s.b.used + i)))).bind (fun a =>
      .call (.data (me.ne.enc2 a)) (fun _ => .call .flush (fun _ =>
        .done { s with b := { s.b with used := s.b.used + 128 }, buf := { s.buf with left := [], rght := [] } })))))))

/-- ram-zk/ostriple.h:94-97, prover. -/
def f2kRoomS (me : MixEnv F) (s : MPrv F) : SProg (MPrv F) := if s.buf.left.length = me.sz then f2kCheckS me s else .done s

/-- ram-zk/ostriple.h:98-101, 315-318, prover. -/
def f2kFillS (me : MixEnv F) (s : MPrv F) : SProg (MPrv F) :=
  if s.buf.cnt = me.sz then (SProg.calls (me.svP s.fills)).bind (fun _ =>
    .done { s with b := { s.b with used := s.b.used + me.svN s.fills }, buf := { s.buf with auth := me.auth s.fills, cnt := 0 },
                   fills := s.fills + 1 })
  else .done s

/-- ram-zk/ostriple.h:92-121 `compute_mul`, prover. The stores into the buffers of operands need `check_cnt < BUFFER_SZ`. -/
def f2kMulS (me : MixEnv F) (s : MPrv F) (a b : F × F) : SProg (MPrv F) :=
  (f2kRoomS me s).bind (fun s1 => (f2kFillS me s1).bind (fun s2 =>
    (SProg.ofOpt (if s2.buf.left.length < me.sz then s2.buf.auth[s2.buf.cnt]? else none)).bind (fun au =>
      .call (.data (me.ne.enc (f2kMulPrv au (a.1 * b.1)).2)) (fun _ =>
        .done { s2 with fw := s2.fw ++ [(f2kMulPrv au (a.1 * b.1)).1],
                        buf := ⟨s2.buf.left ++ [a], s2.buf.rght ++ [b], s2.buf.auth.set s2.buf.cnt (f2kMulPrv au (a.1 * b.1)).1,
                                s2.buf.cnt + 1⟩ }))))

/-- poly_prdt.h:51-72 `batch_check`, prover: five blocks (no mask). -/
def prdtCheckS (me : MixEnv F) (s : MPrv F) : SProg (MPrv F) :=
  .call .flush (fun _ => .call .hash (fun d =>
    .call (.data (me.ne.enc (polyBatchPrv (me.blk d) s.polys).b0 ++ (me.ne.enc (polyBatchPrv (me.blk d) s.polys).b1 ++
      (me.ne.enc (polyBatchPrv (me.blk d) s.polys).b2 ++ (me.ne.enc (polyBatchPrv (me.blk d) s.polys).b3 ++
        me.ne.enc (polyBatchPrv (me.blk d) s.polys).b4))))) (fun _ =>
      .done { s with polys := [] })))

/-- poly_prdt.h:96-97 (141-142, 209-210), prover. -/
def prdtRoomS (me : MixEnv F) (s : MPrv F) : SProg (MPrv F) :=
  if s.polys.length ≥ me.cap ∧ s.polys ≠ [] then prdtCheckS me s else .done s

omit [BlockField F] in
/-- ram-zk/ostriple.h:134-139: the label of the product from the labels of the 130 bits (the 65th of each half is not used). -/
def mulLabel (ls : List F) [BlockField F] : Option F := do
  let m ← innBase 0 ls 64
  let t ← innBase 64 (ls.drop 65) 64
  some (m + t)

/-- ram-zk/ostriple.h:123-193 `compute_mul3/4/5`, prover: the product, its 130 bits as inputs, the entry for the batch check. The labels of
the bits are local variables. -/
def f2kMulNS (me : MixEnv F) (s : MPrv F) (xs : List (F × F)) : SProg (MPrv F) :=
  (bopsS me.ne s.b ((me.lo (xs.map Prod.fst).prod ++ me.hi (xs.map Prod.fst).prod).map BOp.input)).bind (fun b1 =>
    (SProg.ofOpt (mulLabel (b1.wires.drop s.b.wires.length))).bind (fun m => (SProg.ofOpt (polyPrv xs m)).bind (fun e =>
      (prdtRoomS me { s with b := { b1 with wires := s.b.wires } }).bind (fun s2 =>
        if s2.polys.length < me.cap then .done { s2 with fw := s2.fw ++ [((xs.map Prod.fst).prod, m)], polys := s2.polys ++ [e] }
        else .fail))))

/-- zk-mem-ext.h:44-77: the sum of the inner products of some pieces with the powers of X from an offset on. -/
def packPieces (wires : List F) : List (Nat × List Nat) → Option F
  | [] => some 0
  | (off, ws) :: ps => do
      let ls ← pick wires ws
      let m ← innBase off ls ls.length
      let r ← packPieces wires ps
      some (m + r)

omit [BlockField F] in
/-- zk-mem-ext.h:286-297: a combination of blocks. -/
def linComb (rs fs : List F) : List (Nat × Nat) → Option F
  | [] => some 0
  | (k, i) :: l => do
      let r ← rs[k]?
      let x ← fs[i]?
      let q ← linComb rs fs l
      some (r * x + q)

/-- One instruction, prover (zk-mem.h:33-47, 276-293, 316-322, ram-zk/ostriple.h:80-193). -/
def mopS (me : MixEnv F) (s : MPrv F) : MOp → SProg (MPrv F)
  | .bool o => (bopS me.ne s.b o).bind (fun b => .done { s with b := b })
  | .pack ws => (SProg.ofOpt (pick s.b.wires ws)).bind (fun ls => (SProg.ofOpt (innBase 0 ls ls.length)).bind (fun m =>
      .done { s with fw := s.fw ++ [(innFrom 0 (ls.map (fun l => bit (lsb l))), m)] }))
  | .chal => .call .hash (fun d => .done { s with rs := s.rs ++ [me.blk d] })
  | .addc i k => (SProg.ofOpt s.fw[i]?).bind (fun x => (SProg.ofOpt s.rs[k]?).bind (fun r =>
      .done { s with fw := s.fw ++ [f2kAddConstPrv x r] }))
  | .mul i j => (SProg.ofOpt s.fw[i]?).bind (fun a => (SProg.ofOpt s.fw[j]?).bind (fun b => f2kMulS me s a b))
  | .mulN is => (SProg.ofOpt (pick s.fw is)).bind (fun xs => f2kMulNS me s xs)
  | .eq i j => (SProg.ofOpt s.fw[i]?).bind (fun a => (SProg.ofOpt s.fw[j]?).bind (fun b =>
      .call (.data (me.ne.enc2 (a.2, b.2))) (fun _ => .done s)))
  | .sync => .call .flush (fun _ => .done s)
  | .packAt ps => (SProg.ofOpt (packPieces s.b.wires ps)).bind (fun m =>
      (SProg.ofOpt (packPieces (s.b.wires.map (fun l => bit (lsb l))) ps)).bind (fun x => .done { s with fw := s.fw ++ [(x, m)] }))
  | .chals n => .call .hash (fun d => .done { s with rs := s.rs ++ (List.range n).map (me.prg (me.blk d)) })
  | .lin l => (SProg.ofOpt (linComb s.rs (s.fw.map Prod.fst) l)).bind (fun x =>
      (SProg.ofOpt (linComb s.rs (s.fw.map Prod.snd) l)).bind (fun m => .done { s with fw := s.fw ++ [(x, m)] }))

/-- Instructions one after the other, prover (zk-mem.h:312-331 and the calls it makes). -/
def mopsS (me : MixEnv F) : MPrv F → List MOp → SProg (MPrv F)
  | s, [] => .done s
  | s, o :: os => (mopS me s o).bind (fun s1 => mopsS me s1 os)

/-- ram-zk/ostriple.h:57-62, poly_prdt.h:39-40, 51-53, prover: the destructor. -/
def f2kDelS (me : MixEnv F) (s : MPrv F) : SProg (MPrv F) :=
  (if s.polys ≠ [] then prdtCheckS me s else SProg.done s).bind (fun s1 => if s1.buf.left ≠ [] then f2kCheckS me s1 else SProg.done s1)

/-- A whole prover: constructor of the boolean part (emp-zk-bool/ostriple.h:33-66), boolean instructions, `F2kOSTriple` with its instructions
(zk-mem.h:19-31), boolean instructions, end of the session. -/
def mixS (me : MixEnv F) (pre : List BOp) (ops : List MOp) (post : List BOp) : SProg (MPrv F) :=
  (rcotS me.ne 0 1).bind (fun _ => (bopsS me.ne PrvSt.init pre).bind (fun b => (f2kNewS me b).bind (fun s => (mopsS me s ops).bind (fun s1 =>
    (f2kDelS me s1).bind (fun s2 => (bopsS me.ne s2.b post).bind (fun b2 => (bfinS me.ne b2).bind (fun b3 => .done { s2 with b := b3 })))))))

/-! ### products over F_{2^128}, verifier -/

/-- The verifier of a mixed session; `warns` counts the lines printed by ram-zk/ostriple.h:263. -/
structure MVer (F : Type) where
  b : VerSt F
  fw : List F
  buf : F2kBuf F
  fills : Nat
  polys : List F
  rs : List F
  warns : Nat

/-- ram-zk/ostriple.h:31-55 (constructor) and 315-318, verifier. -/
def f2kNewR (me : MixEnv F) (b : VerSt F) : RProg (MVer F) :=
  (RProg.calls (me.svV 0)).bind (fun _ => .done ⟨{ b with used := b.used + me.svN 0 }, [], ⟨[], [], me.keys 0, 0⟩, 1, [], [], 0⟩)

variable [DecidableEq F]

/-- ram-zk/ostriple.h:197-268 `andgate_correctness_check_manage`, verifier. -/
def f2kCheckR (me : MixEnv F) (s : MVer F) : RProg (MVer F) :=
  .call .flush (fun _ _ => .call .hash (fun _ d => (RProg.ofOpt s.buf.batch).bind (fun bt => (rcotR me.ne s.b.used 128).bind (fun _ =>
    .call (.data 32) (fun _ bs =>
      (RProg.ofOpt (f2kCheckVer me.ne.e.delta bt me.ne.e.threads (me.ne.seeds d) (fun i => me.ne.e.key (s.b.used + i)) (me.ne.dec2 bs))).bind
        (fun ok => .call .flush (fun _ _ =>
          .done { s with b := { s.b with used := s.b.used + 128 }, buf := { s.buf with left := [], rght := [] },
                         warns := if ok then s.warns else s.warns + 1 }))))))) 

/-- ram-zk/ostriple.h:94-97, verifier. -/
def f2kRoomR (me : MixEnv F) (s : MVer F) : RProg (MVer F) := if s.buf.left.length = me.sz then f2kCheckR me s else .done s

omit [DecidableEq F] in
/-- ram-zk/ostriple.h:98-101, 315-318, verifier. -/
def f2kFillR (me : MixEnv F) (s : MVer F) : RProg (MVer F) :=
  if s.buf.cnt = me.sz then (RProg.calls (me.svV s.fills)).bind (fun _ =>
    .done { s with b := { s.b with used := s.b.used + me.svN s.fills }, buf := { s.buf with auth := me.keys s.fills, cnt := 0 },
                   fills := s.fills + 1 })
  else .done s

/-- ram-zk/ostriple.h:92-121 `compute_mul`, verifier. -/
def f2kMulR (me : MixEnv F) (s : MVer F) (a b : F) : RProg (MVer F) :=
  (f2kRoomR me s).bind (fun s1 => (f2kFillR me s1).bind (fun s2 =>
    .call (.data 16) (fun _ bs =>
      (RProg.ofOpt (if s2.buf.left.length < me.sz then s2.buf.auth[s2.buf.cnt]? else none)).bind (fun ke =>
        .done { s2 with fw := s2.fw ++ [f2kMulVer me.ne.e.delta ke (me.ne.dec bs)],
                        buf := ⟨s2.buf.left ++ [a], s2.buf.rght ++ [b], s2.buf.auth.set s2.buf.cnt (f2kMulVer me.ne.e.delta ke (me.ne.dec bs)),
                                s2.buf.cnt + 1⟩ }))))

omit [BlockField F] [DecidableEq F] in
/-- poly_prdt.h:82, 84: the five blocks received. -/
def dec5 [BlockField F] (ne : NetEnv F) (l : List Byte) : PolyEnt F :=
  ⟨ne.dec (l.take 16), ne.dec ((l.drop 16).take 16), ne.dec ((l.drop 32).take 16), ne.dec ((l.drop 48).take 16), ne.dec (l.drop 64)⟩

/-- poly_prdt.h:51-57, 73-91 `batch_check`, verifier: `error` if the equation fails. -/
def prdtCheckR (me : MixEnv F) (s : MVer F) : RProg (MVer F) :=
  .call .flush (fun _ _ => .call .hash (fun _ d => .call (.data 80) (fun _ bs =>
    if polyBatchVer me.ne.e.delta (me.blk d) s.polys (dec5 me.ne bs) then .done { s with polys := [] } else .stop)))

/-- poly_prdt.h:96-97 (141-142, 209-210), verifier. -/
def prdtRoomR (me : MixEnv F) (s : MVer F) : RProg (MVer F) :=
  if s.polys.length ≥ me.cap ∧ s.polys ≠ [] then prdtCheckR me s else .done s

/-- ram-zk/ostriple.h:123-193 `compute_mul3/4/5`, verifier: 130 received bits (the two `Integer`s are built from 0, which it does not use). -/
def f2kMulNR (me : MixEnv F) (s : MVer F) (ks : List F) : RProg (MVer F) :=
  (bopsR me.ne s.b ((List.replicate 130 false).map BOp.input)).bind (fun b1 =>
    (RProg.ofOpt (mulLabel (b1.wires.drop s.b.wires.length))).bind (fun m => (RProg.ofOpt (polyVer me.ne.e.delta ks m)).bind (fun e =>
      (prdtRoomR me { s with b := { b1 with wires := s.b.wires } }).bind (fun s2 =>
        if s2.polys.length < me.cap then .done { s2 with fw := s2.fw ++ [m], polys := s2.polys ++ [e] } else .fail))))

/-- One instruction, verifier (zk-mem.h:33-47, 276-280, 294-309, 316-331, ram-zk/ostriple.h:80-193). -/
def mopR (me : MixEnv F) (s : MVer F) : MOp → RProg (MVer F)
  | .bool o => (bopR me.ne s.b o).bind (fun b => .done { s with b := b })
  | .pack ws => (RProg.ofOpt (pick s.b.wires ws)).bind (fun ls => (RProg.ofOpt (innBase 0 ls ls.length)).bind (fun m =>
      .done { s with fw := s.fw ++ [m] }))
  | .chal => .call .hash (fun _ d => .done { s with rs := s.rs ++ [me.blk d] })
  | .addc i k => (RProg.ofOpt s.fw[i]?).bind (fun x => (RProg.ofOpt s.rs[k]?).bind (fun r =>
      .done { s with fw := s.fw ++ [f2kAddConstVer me.ne.e.delta x r] }))
  | .mul i j => (RProg.ofOpt s.fw[i]?).bind (fun a => (RProg.ofOpt s.fw[j]?).bind (fun b => f2kMulR me s a b))
  | .mulN is => (RProg.ofOpt (pick s.fw is)).bind (fun xs => f2kMulNR me s xs)
  | .eq i j => (RProg.ofOpt s.fw[i]?).bind (fun a => (RProg.ofOpt s.fw[j]?).bind (fun b =>
      .call (.data 32) (fun _ bs => if setEqVer a b (me.ne.dec2 bs).1 (me.ne.dec2 bs).2 then .done s else .stop)))
  | .sync => .call .flush (fun _ _ => .done s)
  | .packAt ps => (RProg.ofOpt (packPieces s.b.wires ps)).bind (fun m => .done { s with fw := s.fw ++ [m] })
  | .chals n => .call .hash (fun _ d => .done { s with rs := s.rs ++ (List.range n).map (me.prg (me.blk d)) })
  | .lin l => (RProg.ofOpt (linComb s.rs s.fw l)).bind (fun m => .done { s with fw := s.fw ++ [m] })

/-- Instructions one after the other, verifier (zk-mem.h:312-331 and the calls it makes). -/
def mopsR (me : MixEnv F) : MVer F → List MOp → RProg (MVer F)
  | s, [] => .done s
  | s, o :: os => (mopR me s o).bind (fun s1 => mopsR me s1 os)

/-- ram-zk/ostriple.h:57-62, poly_prdt.h:39-40, 51-53, verifier: the destructor. -/
def f2kDelR (me : MixEnv F) (s : MVer F) : RProg (MVer F) :=
  (if s.polys ≠ [] then prdtCheckR me s else RProg.done s).bind (fun s1 => if s1.buf.left ≠ [] then f2kCheckR me s1 else RProg.done s1)

/-- A whole verifier (emp-zk-bool/ostriple.h:33-66, zk-mem.h:19-31). -/
def mixR (me : MixEnv F) (pre : List BOp) (ops : List MOp) (post : List BOp) : RProg (MVer F) :=
  (rcotR me.ne 0 1).bind (fun _ => (bopsR me.ne VerSt.init pre).bind (fun b => (f2kNewR me b).bind (fun s => (mopsR me s ops).bind (fun s1 =>
    (f2kDelR me s1).bind (fun s2 => (bopsR me.ne s2.b post).bind (fun b2 => (bfinR me.ne b2).bind (fun b3 => .done { s2 with b := b3 })))))))

/-- The prover with the flush of bool_io.h:22-23 at the end. -/
def mixProver (me : MixEnv F) (pre : List BOp) (ops : List MOp) (post : List BOp) : SProg (MPrv F) :=
  (mixS me pre ops post).bind (fun a => .call .flush (fun _ => .done a))

/-- The verifier with the flush of bool_io.h:22-23 at the end. -/
def mixVerifier (me : MixEnv F) (pre : List BOp) (ops : List MOp) (post : List BOp) : RProg (MVer F) :=
  (mixR me pre ops post).bind (fun b => .call .flush (fun _ _ => .done b))

omit [Field F] [BlockField F]

/-- zk-mem.h:282-293 (and 299-309): the instructions of the product loop after its first line, for blocks `xs` and challenge `k`, when `n`
blocks exist and the running product is block `acc`; also the number of blocks and the running product afterwards. Groups of four:
`compute_mul5` with the running product first (285-286); single ones: `compute_mul` (291). -/
def chainOps (xs : List Nat) (k : Nat) : Nat → Nat → List (List Nat) → Option (List MOp × Nat × Nat)
  | n, acc, [] => some ([], n, acc)
  | n, acc, g :: gs => do
      let ws ← pick xs g
      let (rest, n', acc') ← chainOps xs k (n + g.length + 1) (n + g.length) gs
      some (ws.map (fun i => MOp.addc i k) ++
        (if g.length = 1 then MOp.mul acc n else MOp.mulN (acc :: List.range' n g.length)) :: rest, n', acc')

/-- zk-mem.h:312-331 `check_set_euqality` for the blocks `as` (`sorted_X`) and `bs` (`check_X`), `step` elements, when `n` blocks and `k`
challenges exist; `none`: an access out of bounds in the loops. -/
def setEqOps (n k step : Nat) (as bs : List Nat) : Option (List MOp) := do
  let ga ← bchGroups 4 step as.length
  let gb ← bchGroups 4 step bs.length
  let a0 ← as[0]?
  let b0 ← bs[0]?
  let (oa, n1, x) ← chainOps as k (n + 1) n ga
  let (ob, _, y) ← chainOps bs k (n1 + 1) n1 gb
  some (MOp.chal :: MOp.addc a0 k :: (oa ++ MOp.addc b0 k :: (ob ++ [MOp.eq x y])))

end
end EmpZk
