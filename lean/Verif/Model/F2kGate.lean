/-
Model of the products over F_{2^128} behind the RAM extension: emp-zk/extensions/ram-zk/ostriple.h (`F2kOSTriple`),
poly_prdt.h (`F2kPolyPrdt`) and the product loops and the set-equality check of zk-mem.h / ro-zk-mem.h / zk-mem-ext.h.

A committed block is a pair (value, MAC) on the prover's side and a key on the verifier's side; `gfmul` is `*`, XOR is `+`.
-/
import Verif.Model.BoolGate

namespace EmpZk

section
variable {F : Type} [Field F] [BlockField F]

/-! ### gates -/

/-- ostriple.h:82-84 `compute_add_const`, ALICE. -/
def f2kAddConstPrv (x : F × F) (c : F) : F × F := (x.1 + c, x.2)

/-- ostriple.h:85-89 `compute_add_const`, BOB. -/
def f2kAddConstVer (delta k c : F) : F := k + delta * c

/-- ostriple.h:108-112, 118 `compute_mul`, ALICE, with the pair `auth` of the auth buffer: the committed output and the
message `d`. `v` is the value committed; line 109 takes `v = vala * valb`, a dishonest prover may take another one. -/
def f2kMulPrv (auth : F × F) (v : F) : (F × F) × F := ((v, auth.2), v + auth.1)

/-- ostriple.h:113-118 `compute_mul`, BOB: key of the output. -/
def f2kMulVer (delta key d : F) : F := key + d * delta

/-- ostriple.h:136-139 (160-163, 185-188): label of the product built from the labels of the 64 low bits and the 64 high bits
(the 65th bit of each `Integer` is not used). `vector_inn_prdt_sum_red` is external, `pack.base[i] = X^i`. -/
def mulOutLabel (lo hi : Nat → F) : F :=
  ∑ i : Fin 64, lo i * gX ^ (i : Nat) + ∑ i : Fin 64, hi i * gX ^ (64 + (i : Nat))

/-! ### history of compute_mul -/

/-- The buffers and counters of one party (ostriple.h:14-19, 43-50). `left`/`rght` hold `check_cnt` entries; `auth` is the
whole auth buffer. `α` is (value, MAC) for the prover and a key for the verifier. -/
structure F2kBuf (α : Type) where
  left : List α
  rght : List α
  auth : List α
  cnt : Nat

/-- ostriple.h:279, 281-300: the triples (left[i], right[i], omac[i]) the check combines, `omac = auth_buffer_mac +
authf2k_cnt - check_cnt`. `none`: an index outside the auth buffer. -/
def F2kBuf.batch {α : Type} (s : F2kBuf α) : Option (List (α × α × α)) :=
  if s.cnt < s.left.length then none
  else
    (List.range s.left.length).mapM (fun i =>
      match s.left[i]?, s.rght[i]?, s.auth[s.cnt - s.left.length + i]? with
      | some a, some b, some c => some (a, b, c)
      | _, _, _ => none)

/-- ostriple.h:94-105: the part of `compute_mul` before the message: check and refill when the buffers are full, then store the
operands. `sz` is `BUFFER_SZ`, `fresh` what the next `pre_f2k_buffer_refill` (315-318) delivers. Result: the buffers, the pool
of later refills, and the batch handed to the check, if any. -/
def F2kBuf.enter {α : Type} (sz : Nat) (fresh : List (List α)) (s : F2kBuf α) (a b : α) :
    Option (F2kBuf α × List (List α) × Option (List (α × α × α))) := do
  let (s1, bt) ← if s.left.length = sz then do
                     let bt ← s.batch
                     some ({ s with left := [], rght := [] }, some bt)
                   else some (s, none)
  let (s2, fresh2) ← if s1.cnt = sz then
                       match fresh with
                       | [] => none
                       | f :: fs => some ({ s1 with auth := f, cnt := 0 }, fs)
                     else some (s1, fresh)
  some ({ s2 with left := s2.left ++ [a], rght := s2.rght ++ [b] }, fresh2, bt)

/-- ostriple.h:92-121 `compute_mul`, ALICE: output, message, batch handed to the check. -/
def f2kStepPrv (sz : Nat) (fresh : List (List (F × F))) (s : F2kBuf (F × F)) (a b : F × F) (v : F) :
    Option (F2kBuf (F × F) × List (List (F × F)) × (F × F) × F × Option (List ((F × F) × (F × F) × (F × F)))) := do
  let (s1, fresh1, bt) ← s.enter sz fresh a b
  let auth ← s1.auth[s1.cnt]?
  let (o, d) := f2kMulPrv auth v
  some ({ s1 with auth := s1.auth.set s1.cnt o, cnt := s1.cnt + 1 }, fresh1, o, d, bt)

/-- ostriple.h:92-121 `compute_mul`, BOB. -/
def f2kStepVer (delta : F) (sz : Nat) (fresh : List (List F)) (s : F2kBuf F) (a b : F) (d : F) :
    Option (F2kBuf F × List (List F) × F × Option (List (F × F × F))) := do
  let (s1, fresh1, bt) ← s.enter sz fresh a b
  let key ← s1.auth[s1.cnt]?
  let o := f2kMulVer delta key d
  some ({ s1 with auth := s1.auth.set s1.cnt o, cnt := s1.cnt + 1 }, fresh1, o, bt)

/-- A sequence of `compute_mul` calls (operands, committed value) followed by the destructor's check (ostriple.h:60-62):
outputs, messages and batches checked, in order. -/
def f2kRunPrv (sz : Nat) : List (List (F × F)) → F2kBuf (F × F) → List ((F × F) × (F × F) × F) →
    Option (List (F × F) × List F × List (List ((F × F) × (F × F) × (F × F))))
  | _, s, [] => do
      let bt ← s.batch
      some ([], [], if bt.isEmpty then [] else [bt])
  | fresh, s, (a, b, v) :: cs => do
      let (s1, fresh1, o, d, bt) ← f2kStepPrv sz fresh s a b v
      let (os, ds, bts) ← f2kRunPrv sz fresh1 s1 cs
      some (o :: os, d :: ds, bt.toList ++ bts)

/-- The same calls on the verifier's side, with the messages received
(extensions/ram-zk/ostriple.h:57-69, 92-121). -/
def f2kRunVer (delta : F) (sz : Nat) : List (List F) → F2kBuf F → List (F × F × F) →
    Option (List F × List (List (F × F × F)))
  | _, s, [] => do
      let bt ← s.batch
      some ([], if bt.isEmpty then [] else [bt])
  | fresh, s, (a, b, d) :: cs => do
      let (s1, fresh1, o, bt) ← f2kStepVer delta sz fresh s a b d
      let (os, bts) ← f2kRunVer delta sz fresh1 s1 cs
      some (o :: os, bt.toList ++ bts)

/-! ### the check of the products -/

/-- ostriple.h:206-225: ranges of the tasks. `none`: no thread (`share_seed[threads - 1]` out of bounds). -/
def splitTasksF2k (checkCnt threads : Nat) : Option (List (Nat × Nat)) :=
  if threads = 0 then none
  else if checkCnt < threads then
    some (List.replicate (threads - 1) (0, 0) ++ [(0, checkCnt)])
  else
    let taskBase := checkCnt / threads
    let leftover := taskBase + checkCnt % taskBase
    some ((List.range (threads - 1)).map (fun i => (i * taskBase, taskBase)) ++
      [((threads - 1) * taskBase, leftover)])

/-- ostriple.h:284-288: `A0`, `A1` of one buffered product (left, right, output), each a pair (value, MAC); the value of the
output (`auth_buffer_val`) is not used. -/
def fgatePrv (g : (F × F) × (F × F) × (F × F)) : F × F :=
  (g.1.2 * g.2.1.2, g.2.1.1 * g.1.2 + g.1.1 * g.2.1.2 + g.2.2.2)

/-- ostriple.h:294-297: `B` of one buffered product on keys. -/
def fgateVer (delta : F) (g : F × F × F) : F := g.1 * g.2.1 + g.2.2 * delta

/-- The sum of one worker: ostriple.h:273-274 leaves its entry of `sum` unwritten when the task is empty (`none`), else
302-308. -/
def taskSumO {α : Type} (f : α → F) (buf : List α) (seed : F) (t : Nat × Nat) : Option F :=
  if t.2 = 0 then none else some (chiSum seed ((taskSlice buf t).map f))

/-- ostriple.h:247-250, 255-256: adding up the entries of `sum` (`new block[2 * threads]`, not initialised, line 215); reading
an unwritten entry has no defined value (`none`). -/
def taskSumsO {α : Type} (f : α → F) (buf : List α) (seeds : Nat → F) : List (Nat × Nat) → Nat → Option F
  | [], _ => some 0
  | t :: ts, i => do
    let s ← taskSumO f buf (seeds i) t
    let rest ← taskSumsO f buf seeds ts (i + 1)
    some (s + rest)

/-- ostriple.h:197-251: message of ALICE; `seeds i` is `share_seed[i]`, `ope i` the 128 masking blocks. -/
def f2kCheckPrv (buf : List ((F × F) × (F × F) × (F × F))) (threads : Nat) (seeds ope : Nat → F) : Option (F × F) := do
  let tasks ← splitTasksF2k buf.length threads
  let s0 ← taskSumsO (fun g => (fgatePrv g).1) buf seeds tasks 0
  let s1 ← taskSumsO (fun g => (fgatePrv g).2) buf seeds tasks 0
  some (packBlocks ope + s0, packLsbs ope + s1)

/-- ostriple.h:252-263: the comparison made by BOB; `some false` only prints a line (262-264). -/
def f2kCheckVer [DecidableEq F] (delta : F) (buf : List (F × F × F)) (threads : Nat) (seeds ope : Nat → F) (aStar : F × F) :
    Option Bool := do
  let tasks ← splitTasksF2k buf.length threads
  let s ← taskSumsO (fgateVer delta) buf seeds tasks 0
  let w := aStar.2 * delta + aStar.1
  some (decide (w = packBlocks ope + s))

/-! ### products of three, four and five operands -/

/-- One entry of `buffer0 .. buffer4` (poly_prdt.h:24-28). -/
@[ext] structure PolyEnt (F : Type) where
  b0 : F
  b1 : F
  b2 : F
  b3 : F
  b4 : F

/-- poly_prdt.h:99-122 `polyPrdt3`, ALICE. -/
def poly3Prv (x1 m1 x2 m2 x3 m3 m4 : F) : PolyEnt F :=
  let c0 := m1 * m2
  let c1 := m1 * x2
  let c2 := m2 * x1
  let c3 := x1 * x2
  let c2 := c2 + c1
  let e0 := c0 * m3
  let e1 := c0 * x3
  let e2 := c2 * m3
  let e3 := c2 * x3
  let e4 := c3 * m3
  ⟨e0, e1 + e2, e3 + e4 + m4, 0, 0⟩

/-- poly_prdt.h:124-134 `polyPrdt3`, BOB (`delta[1] = Delta^2`, lines 31-34). -/
def poly3Ver (delta k1 k2 k3 k4 : F) : F := k1 * k2 * k3 + k4 * (delta * delta)

/-- poly_prdt.h:144-188 `polyPrdt4`, ALICE. -/
def poly4Prv (x1 m1 x2 m2 x3 m3 x4 m4 m5 : F) : PolyEnt F :=
  let c0 := m1 * m2
  let c1 := m1 * x2
  let c2 := m2 * x1
  let c3 := x1 * x2
  let c2 := c2 + c1
  let e0 := c0 * m3
  let e1 := c0 * x3
  let e2 := c2 * m3
  let e3 := c2 * x3
  let e4 := c3 * m3
  let e5 := c3 * x3
  let e2 := e2 + e1
  let e4 := e4 + e3
  let f0 := e0 * m4
  let f1 := e0 * x4
  let f2 := e2 * m4
  let f3 := e4 * m4
  let f4 := e2 * x4
  let f5 := e4 * x4
  let f6 := e5 * m4
  let f2 := f2 + f1
  let f4 := f4 + f3
  let f6 := f6 + f5
  ⟨f0, f2, f4, f6 + m5, 0⟩

/-- poly_prdt.h:190-201 `polyPrdt4`, BOB. -/
def poly4Ver (delta k1 k2 k3 k4 k5 : F) : F := k1 * k2 * k3 * k4 + k5 * (delta * delta * delta)

/-- poly_prdt.h:212-246 `polyPrdt5`, ALICE. -/
def poly5Prv (x1 m1 x2 m2 x3 m3 x4 m4 x5 m5 m6 : F) : PolyEnt F :=
  let c0 := m1 * m2
  let c1 := m1 * x2
  let c2 := m2 * x1
  let c3 := x1 * x2
  let c2 := c2 + c1
  let e0 := c0 * m3
  let e1 := c0 * x3
  let e2 := c2 * m3
  let e3 := c2 * x3
  let e4 := c3 * m3
  let e5 := c3 * x3
  let e2 := e2 + e1
  let e4 := e4 + e3
  let d0 := e0 * m4
  let d1 := e0 * x4
  let d2 := e2 * m4
  let d3 := e4 * m4
  let f0 := e2 * x4
  let f1 := e4 * x4
  let f2 := e5 * m4
  let f3 := e5 * x4
  let d2 := d2 + d1
  let f0 := f0 + d3
  let f2 := f2 + f1
  let g0 := d0 * m5
  let g1 := d0 * x5
  let g2 := d2 * m5
  let g3 := f0 * m5
  let g4 := d2 * x5
  let g5 := f2 * m5
  let h0 := f0 * x5
  let h1 := f3 * m5
  let h2 := f2 * x5
  ⟨g0, g2 + g1, g4 + g3, h0 + g5, h2 + h1 + m6⟩

/-- poly_prdt.h:248-260 `polyPrdt5`, BOB. -/
def poly5Ver (delta k1 k2 k3 k4 k5 k6 : F) : F :=
  k1 * k2 * k3 * k4 * k5 + k6 * (delta * delta * delta * delta)

/-- The entry a product of three, four or five operands (value, MAC) with output MAC `m` leaves in the buffers
(ostriple.h:140, 164, 189). -/
def polyPrv : List (F × F) → F → Option (PolyEnt F)
  | [a, b, c], m => some (poly3Prv a.1 a.2 b.1 b.2 c.1 c.2 m)
  | [a, b, c, d], m => some (poly4Prv a.1 a.2 b.1 b.2 c.1 c.2 d.1 d.2 m)
  | [a, b, c, d, e], m => some (poly5Prv a.1 a.2 b.1 b.2 c.1 c.2 d.1 d.2 e.1 e.2 m)
  | _, _ => none

/-- The same for the verifier, on keys
(extensions/ram-zk/poly_prdt.h:94-262, verifier branches). -/
def polyVer (delta : F) : List F → F → Option F
  | [a, b, c], m => some (poly3Ver delta a b c m)
  | [a, b, c, d], m => some (poly4Ver delta a b c d m)
  | [a, b, c, d, e], m => some (poly5Ver delta a b c d e m)
  | _, _ => none

/-- poly_prdt.h:59-72 `batch_check`, ALICE: the five sums sent (no mask: the `TODO` of line 69). -/
def polyBatchPrv (seed : F) (es : List (PolyEnt F)) : PolyEnt F :=
  ⟨chiSum seed (es.map PolyEnt.b0), chiSum seed (es.map PolyEnt.b1), chiSum seed (es.map PolyEnt.b2),
   chiSum seed (es.map PolyEnt.b3), chiSum seed (es.map PolyEnt.b4)⟩

/-- poly_prdt.h:73-88 `batch_check`, BOB: `true` = no `error`. -/
def polyBatchVer [DecidableEq F] (delta seed : F) (Bs : List F) (sum : PolyEnt F) : Bool :=
  decide (chiSum seed Bs = sum.b0 + (sum.b1 * delta + sum.b2 * (delta * delta) + sum.b3 * (delta * delta * delta) +
    sum.b4 * (delta * delta * delta * delta)))

/-! ### product loops -/

/-- `step - (w - 1)` on `size_t` / `uint64_t` (zk-mem.h:212, 246, 282). -/
def bchBound (w n : Nat) : Nat := (n + 2 ^ 64 - (w - 1)) % 2 ^ 64

/-- zk-mem.h:212-217 (`w = 2`), 246-252 (`w = 3`), 282-288 (`w = 4`): the batched loop as the list of index groups, and the
value of `i` after it. `len` is the number of elements; an index `≥ len` is out of bounds (`none`). `fuel` bounds the number
of iterations; each one advances `i` inside the list, so `len + 1` is enough. -/
def bchMain (w bound len : Nat) : Nat → Nat → Option (List (List Nat) × Nat)
  | 0, _ => none
  | fuel + 1, i =>
    if i < bound then
      if i + w ≤ len then do
        let (gs, j) ← bchMain w bound len fuel (i + w)
        some ((List.range w).map (i + ·) :: gs, j)
      else none
    else some ([], i)

/-- zk-mem.h:190-194, 218-222, 253-257, 289-293: the loop over single elements. -/
def bchTail (n len : Nat) : Nat → Nat → Option (List (List Nat))
  | 0, _ => none
  | fuel + 1, i =>
    if i < n then
      if i < len then do
        let gs ← bchTail n len fuel (i + 1)
        some ([i] :: gs)
      else none
    else some []

/-- zk-mem.h:185-204 `inn_prdt`: groups of indices multiplied to element 0, for `step = n` and lists of `len` elements. -/
def innGroups (n len : Nat) : Option (List (List Nat)) :=
  if len = 0 then none else bchTail n len (n + 1) 1

/-- zk-mem.h:206-310 `inn_prdt_bch2/3/4` (`w = 2, 3, 4`); ro-zk-mem.h:144-202 and zk-mem-ext.h:301-335 have the same loops. -/
def bchGroups (w n len : Nat) : Option (List (List Nat)) :=
  if len = 0 then none
  else do
    let (gs, i) ← bchMain w (bchBound w n) len (len + 1) 1
    let ts ← bchTail n len (n + 1) i
    some (gs ++ ts)

/-- One product gate of the loop: operands and output, (value, MAC) (zk-mem.h:284-293). -/
structure PGate (F : Type) where
  ins : List (F × F)
  out : F × F

/-- Elements at the indices of one group; `none`: out of bounds (`X[i + j]`, `MAC[i + j]` at zk-mem.h:213-214, 248, 284). -/
def pick {α : Type} (l : List α) (g : List Nat) : Option (List α) := g.mapM (fun i => l[i]?)

/-- zk-mem.h:282-293 and the like, ALICE: one gate per group; `outs k` is the committed output (value, MAC) of gate `k`.
`accFirst`: the running product is the first operand (zk-mem.h:285, 291) or, in batched gates, the last one
(ro-zk-mem.h:147, 169, 192). -/
def chainPrv (accFirst : Bool) (r : F) (xs : List (F × F)) (outs : Nat → F × F) :
    List (List Nat) → F × F → Nat → Option (List (PGate F) × (F × F))
  | [], acc, _ => some ([], acc)
  | g :: gs, acc, k => do
    let es ← pick xs g
    let ops := es.map (fun x => f2kAddConstPrv x r)
    let (rest, fin) ← chainPrv accFirst r xs outs gs (outs k) (k + 1)
    some (⟨if accFirst || g.length == 1 then acc :: ops else ops ++ [acc], outs k⟩ :: rest, fin)

/-- The same on keys, BOB (zk-mem.h:294-309): operand keys and output key of each gate, and the final key. -/
def chainVer (accFirst : Bool) (delta r : F) (ks : List F) (outs : Nat → F) :
    List (List Nat) → F → Nat → Option (List (List F × F) × F)
  | [], acc, _ => some ([], acc)
  | g :: gs, acc, k => do
    let es ← pick ks g
    let ops := es.map (fun x => f2kAddConstVer delta x r)
    let (rest, fin) ← chainVer accFirst delta r ks outs gs (outs k) (k + 1)
    some ((if accFirst || g.length == 1 then acc :: ops else ops ++ [acc], outs k) :: rest, fin)

/-- zk-mem.h:276-293 `inn_prdt_bch4`, ALICE (with `groups` for the other variants). -/
def productPrv (accFirst : Bool) (groups : Option (List (List Nat))) (r : F) (xs : List (F × F)) (outs : Nat → F × F) :
    Option (List (PGate F) × (F × F)) := do
  let gs ← groups
  let x0 ← xs[0]?
  chainPrv accFirst r xs outs gs (f2kAddConstPrv x0 r) 0

/-- zk-mem.h:276-280, 294-309 `inn_prdt_bch4`, BOB. -/
def productVer (accFirst : Bool) (groups : Option (List (List Nat))) (delta r : F) (ks : List F) (outs : Nat → F) :
    Option (List (List F × F) × F) := do
  let gs ← groups
  let k0 ← ks[0]?
  chainVer accFirst delta r ks outs gs (f2kAddConstVer delta k0 r) 0

/-- zk-mem.h:323-331 (ro-zk-mem.h, zk-mem-ext.h:347-355): the comparison made by BOB on the two keys and the two received
MACs; `true` = no `error`. -/
def setEqVer [DecidableEq F] (k0 k1 m0 m1 : F) : Bool := decide (k0 + m0 = k1 + m1)

end
end EmpZk
