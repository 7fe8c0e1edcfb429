/-
Model of emp-zk/emp-vole/vole_triple.h : one extension (point shares, check, LPN) and the buffering of the extended
correlations.

C `int` values are integers here (C37 shows that they stay in range). Arrays are lists; an access outside is `none`.
The buffering moves elements without looking at them and is stated for any element type (`U128` here; value and MAC of a
correlation over F_{2^128}, in two parallel arrays, are a pair).
-/
import Verif.Model.Mpfss
import Verif.Model.Lpn

namespace EmpZk

/-! ### one extension -/

/-- Sizes and public randomness of one extension: mpfss_reg.h:30-45, lpn.h:21-26, vole_triple.h:105-107.
`prp` are the words of the LPN permutation, `G0`, `G1` the two halves of the tree permutation, `digest i` the hashed check seed of the
thread of tree `i`. -/
structure ExtCfg where
  levels : Nat
  t : Nat
  k : Nat
  threads : Nat
  G0 : U128 → U128
  G1 : U128 → U128
  prp : Nat → Nat → BitVec 32

/-- mpfss_reg.h:40-45, vole_triple.h:22: `n = t * 2^log_bin_sz`. -/
def ExtCfg.n (c : ExtCfg) : Nat := c.t * 2 ^ c.levels

/-- vole_triple.h:112 `M`. -/
def ExtCfg.M (c : ExtCfg) : Nat := c.k + c.t + 1

/-- vole_triple.h:119-125 `extend_send`, first part: the trees (leaves, OT messages, sums). `key` is the array of base
correlations. -/
def extSendTrees (c : ExtCfg) (seed : Nat → U128) (mem : Nat → Mem) (key : Nat → U128) :
    Option (List (List U128 × List (U128 × U128) × W)) := mpfssSend c.G0 c.G1 c.levels c.t seed mem key

/-- vole_triple.h:119-125 `extend_send`: the hashed check word for the received `xStar`, and the output vector. -/
def extSend (c : ExtCfg) (digest : Nat → W) (delta : U128) (key : Nat → U128) (trees : List (List U128)) (xStar : W) :
    Option (W × List U128) := do
  let v ← mpfssCheckSend digest c.t delta (key c.t) trees xStar
  let out ← lpnComputeSend c.prp c.n c.k c.threads trees.flatten ((List.range c.k).map (fun j => key (c.t + 1 + j)))
  some (v, out)

/-- vole_triple.h:128-134 `extend_recv`: `x_star`, the hashed check word, and the output vector. -/
def extRecv (c : ExtCfg) (digest : Nat → W) (b : Nat → Nat → Bool) (m : Nat → Nat → U128) (mem : Nat → Mem) (share : Nat → W)
    (mac : Nat → U128) : Option (W × W × List U128) := do
  let R ← mpfssRecv c.G0 c.G1 c.levels c.t b m mem share mac
  let r ← mpfssCheckRecv digest c.levels c.t b mac R
  let out ← lpnComputeRecv c.prp c.n c.k c.threads r.2.2.flatten ((List.range c.k).map (fun j => mac (c.t + 1 + j)))
  some (r.1, r.2.1, out)

/-- vole_triple.h:119-125 `extend_send` without the check: the output vector from the base correlations alone. -/
def extSendOut (c : ExtCfg) (seed : Nat → U128) (mem : Nat → Mem) (key : Nat → U128) : Option (List U128) := do
  let S ← extSendTrees c seed mem key
  lpnComputeSend c.prp c.n c.k c.threads (S.map (fun t => t.1)).flatten ((List.range c.k).map (fun j => key (c.t + 1 + j)))

/-- The base correlations held in an array, as read by `pre[i]` (vole_triple.h:139-142); reads are below the length, see C39. -/
def ofList (p : List U128) (i : Nat) : U128 := p.getD i 0

/-- Randomness of one extension: the tree seeds (spfss_sender.h:24), the previous contents of the two parties' buffers, the
receiver's choice bits and the hashed check seeds. -/
structure ExtRound where
  seed : Nat → U128
  memS : Nat → Mem
  memR : Nat → Mem
  b : Nat → Nat → Bool
  digest : Nat → W

/-- mpfss_reg.h:107-110 with C28: the message the receiver gets in OT `j` of tree `i`. -/
def otMsg (S : List (List U128 × List (U128 × U128) × W)) (b : Nat → Nat → Bool) (i j : Nat) : U128 :=
  match S[i]? with
  | none => 0
  | some t => match t.2.1[j]? with
    | none => 0
    | some p => if b i j then p.2 else p.1

/-- spfss_sender.h:45-46, spfss_recver.h:46: the sum sent for tree `i`. -/
def otSum (S : List (List U128 × List (U128 × U128) × W)) (i : Nat) : W :=
  match S[i]? with
  | none => 0
  | some t => t.2.2

/-! ### buffering -/

variable {α : Type}

/-- `memcpy` of `xs` (or `n` writes by an extension) to `data + off` (vole_triple.h:144, 224, 231, 246, 252). -/
def wr (data : List α) (off : Int) (xs : List α) : Option (List α) :=
  if 0 ≤ off ∧ off + xs.length ≤ data.length then
    some (data.take off.toNat ++ xs ++ data.drop (off.toNat + xs.length))
  else none

/-- `memcpy` of `len` elements from `buf + off` (vole_triple.h:144, 224, 231, 246, 252). -/
def rd (buf : List α) (off len : Int) : Option (List α) :=
  if 0 ≤ off ∧ 0 ≤ len ∧ off + len ≤ buf.length then some ((buf.drop off.toNat).take len.toNat) else none

/-- vole_triple.h:34-49: one party's state. `otLimit = n - M` and `M` are in `VCfg`. `triples` is `vole_triples`
(the allocated but uninitialised buffer at first), `round` counts the extensions made so far. -/
structure VState (α : Type) where
  pre : List α
  triples : List α
  otUsed : Int
  round : Nat

/-- vole_triple.h:110-113 constants, and the extension as a function of its number and of the reserved correlations: the vectors of
`n` correlations. (All other inputs of an extension, i.e. fresh randomness and messages, depend on its number only.) -/
structure VCfg (α : Type) where
  n : Nat
  M : Nat
  gen : Nat → List α → List α

/-- vole_triple.h:113 `ot_limit`. -/
def VCfg.limit (c : VCfg α) : Int := (c.n : Int) - c.M

/-- vole_triple.h:278 `silent_ot_left`. -/
def silentLeft (c : VCfg α) (s : VState α) : Int := c.limit - s.otUsed

/-- vole_triple.h:137-145 `extend(buffer)` with `buffer = data + off`: writes the `n` correlations, then reserves the last `M`
for the next extension. -/
def extendBuf (c : VCfg α) (s : VState α) (data : List α) (off : Int) : Option (VState α × List α) := do
  let batch := c.gen s.round s.pre
  let data ← wr data off batch
  let pre ← rd data (off + c.limit) c.M
  some ({ s with pre := pre, round := s.round + 1 }, data)

/-- vole_triple.h:238-242: the loop over the in-place rounds. -/
def inplaceRounds (c : VCfg α) : Nat → VState α × List α × Int → Option (VState α × List α × Int)
  | 0, x => some x
  | r + 1, (s, data, pt) => do
    let (s, data) ← extendBuf c s data pt
    inplaceRounds c r ({ s with otUsed := c.limit }, data, pt + c.limit)

/-- vole_triple.h:216-255 `extend(data_yz, num)` for a caller's buffer `data`. -/
def extendMany (c : VCfg α) (s : VState α) (data : List α) (num : Int) : Option (VState α × List α) := do
  if num ≤ silentLeft c s then
    let xs ← rd s.triples s.otUsed num
    let data ← wr data 0 xs
    some ({ s with otUsed := s.otUsed + num }, data)
  else
    let gened := silentLeft c s
    let (data, pt) ← (if 0 < gened then do
        let xs ← rd s.triples s.otUsed gened
        let data ← wr data 0 xs
        some (data, gened)
      else some (data, 0))
    let roundInplace := Int.tdiv (num - gened - c.M) c.limit
    let last := num - gened - roundInplace * c.limit
    let roundMemcpy := decide (last > c.limit)
    let last := if roundMemcpy then last - c.limit else last
    let (s, data, pt) ← inplaceRounds c roundInplace.toNat (s, data, pt)
    let (s, data, pt) ← (if roundMemcpy then do
        let (s, tr) ← extendBuf c s s.triples 0
        let xs ← rd tr 0 c.limit
        let data ← wr data pt xs
        some ({ s with triples := tr, otUsed := c.limit }, data, pt + c.limit)
      else some (s, data, pt))
    if 0 < last then do
      let (s, tr) ← extendBuf c s s.triples 0
      let xs ← rd tr 0 last
      let data ← wr data pt xs
      some ({ s with triples := tr, otUsed := last }, data)
    else some (s, data)

/-- vole_triple.h:104-116: the state right after `setup`; `tr` is whatever the buffer contains. -/
def afterSetup (c : VCfg α) (pre0 tr : List α) : VState α := { pre := pre0, triples := tr, otUsed := c.limit, round := 0 }

/-- A sequence of requests, each with a fresh caller's buffer `bufs i` of the requested length; the delivered buffers
(vole_triple.h:216-255). -/
def extendSeq (c : VCfg α) : VState α → List (List α) → Option (VState α × List (List α))
  | s, [] => some (s, [])
  | s, d :: ds => do
    let (s, d') ← extendMany c s d d.length
    let (s, ds') ← extendSeq c s ds
    some (s, d' :: ds')

/-! ### in-place extension -/

/-- `int` range (the `int` arithmetic of vole_triple.h:216-290). -/
def fitsInt (x : Int) : Bool := decide (-2 ^ 31 ≤ x ∧ x < 2 ^ 31)

/-- vole_triple.h:273-276 `byte_memory_need_inplace` (svole.h:230-233 for F_{2^k}): `uint64_t` subtraction and division,
truncation to `int`, `int` product (`none` on overflow). -/
def memoryNeed (c : VCfg α) (tpNeed : W) : Option Int :=
  let q := (tpNeed - 1).toNat / c.limit.toNat
  let round : Int := (BitVec.ofNat 32 q).toInt
  if fitsInt (round * c.limit) then some (round * c.limit + c.n) else none

/-- vole_triple.h:264-269: the loop over the rounds. -/
def inplaceLoop (c : VCfg α) : Nat → VState α × List α × Int → Option (VState α × List α)
  | 0, (s, data, _) => some (s, data)
  | r + 1, (s, data, pt) => do
    let (s, data) ← extendBuf c s data pt
    inplaceLoop c r (s, data, pt + c.limit)

/-- vole_triple.h:257-271 `extend_inplace` (svole.h:204-228 for F_{2^k}) on a buffer `data` of `byteSpace` elements (the
parameter counts elements). The outer `none` is undefined behaviour, the inner one the `error` exit. -/
def extendInplace (c : VCfg α) (s : VState α) (data : List α) (byteSpace : Int) : Option (Option (VState α × List α × Nat)) :=
  if byteSpace < c.n then some none
  else
    let out := byteSpace - c.M
    if out.toNat % c.limit.toNat ≠ 0 then some none
    else do
      let (s, data) ← inplaceLoop c (out.toNat / c.limit.toNat) (s, data, 0)
      some (some (s, data, out.toNat))

end EmpZk
