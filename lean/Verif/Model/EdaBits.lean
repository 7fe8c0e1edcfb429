/-
Model of emp-zk/edabit/edabits.h and emp-zk/edabit/auth_helper.h : pairs of a 62-bit boolean integer and a field element with the
same value, their generation by cut and choose, and the conversions.

Integers of 62 bits are `BitVec 62`: the circuits of emp-tool's `Integer` (external: addition and subtraction modulo 2^62, `select`)
are taken at their values; the labels of their output bits are then valid labels of those values (C06).
The `uint32_t` index arithmetic is natural arithmetic: all values are below 2^32 for the sizes of the code.
-/
import Verif.Model.ArithGate

namespace EmpZk

/-- A 62-bit `Integer` (edabits.h:61-63). -/
abbrev Int62 := BitVec 62

/-- edabits.h:61 `int_boo_pr`. -/
def prI : Int62 := 2305843009213693951#62
/-- edabits.h:63 `int_boo_pr_plus_two`. -/
def prI2 : Int62 := 2305843009213693953#62

/-- edabits.h:30-33, 54-56: sizes; `bm1 = B - 1`. -/
structure EdaCfg where
  N : Nat
  bm1 : Nat
  C : Nat

/-- edabits.h:30: the constants of the code. -/
def edaCfg : EdaCfg := ⟨800000, 1, 2⟩

/-- edabits.h:54 `ell = B * N + C`. -/
def EdaCfg.ell (c : EdaCfg) : Nat := (c.bm1 + 1) * c.N + c.C
/-- edabits.h:55 `ell_faulty = ell - N`. -/
def EdaCfg.ellF (c : EdaCfg) : Nat := c.ell - c.N

/-! ### indices -/

/-- edabits.h:308-312 `fp_index`. -/
def fpIndex (c : EdaCfg) (npRg off : Nat) : Nat := if npRg ≤ off then off - c.ellF else off

/-- edabits.h:314-318 `f2_index`. -/
def f2Index (c : EdaCfg) (off : Nat) : Nat := if c.ell ≤ off then off - c.ellF else off

/-- edabits.h:106-112: the candidates opened (in `bool_candidate`; in `arith_candidate` add `np_pt`). -/
def openedIdx (c : EdaCfg) (rp : Nat) : List Nat := (List.range c.C).map (fun k => c.N + rp + k)

/-- edabits.h:116, 122, 130: index `if21` in pass `j` for bucket `i`. -/
def partnerF2 (c : EdaCfg) (rp j : Nat) : Nat → Nat
  | 0 => f2Index c (f2Index c (rp + c.N + c.C) + j)
  | i + 1 => f2Index c (partnerF2 c rp j i + c.bm1)

/-- edabits.h:115, 121, 126: index `ifp1` in pass `j` for bucket `i`; `np_rg = np_pt + ell` (edabits.h:89). -/
def partnerFp (c : EdaCfg) (npPt rp j : Nat) : Nat → Nat
  | 0 => fpIndex c (npPt + c.ell) (fpIndex c (npPt + c.ell) (npPt + c.N + rp + c.C) + j)
  | i + 1 => fpIndex c (npPt + c.ell) (partnerFp c npPt rp j i + c.bm1)

/-! ### values -/

/-- edabits.h:127-129: the boolean sum of two candidates, corrected if bit 61 is set. -/
def f2Sum (a b : Int62) : Int62 :=
  let s := a + b
  if s.getLsbD 61 then s + prI2 else s

/-- edabits.h:157-158, 202-204 and 234-235, 284-286: difference modulo 2^62, corrected if bit 61 is set. -/
def f2Diff (a b : Int62) : Int62 :=
  let d := a - b
  if d.getLsbD 61 then d + prI else d

/-- edabits.h:331-337, prover. -/
def intfpAddConstA (a : U128) (b : W) : U128 := makeBlock (addMod (high64 a) b) (low64 a)

/-- edabits.h:338-343, verifier. -/
def intfpAddConstB (delta : W) (a : U128) (b : W) : U128 := makeBlock 0 (addMod (low64 a) (PR - multMod b delta))

/-- edabits.h:345-351, prover. -/
def intfpAddA (a b : U128) : U128 := makeBlock (addMod (high64 a) (high64 b)) (addMod (low64 a) (low64 b))

/-- edabits.h:352-356, verifier. -/
def intfpAddB (a b : U128) : U128 := makeBlock 0 (addMod (low64 a) (low64 b))

/-! ### opening and checking -/

section
variable {F : Type} [Field F] [BlockField F]

/-- auth_helper.h:83-104 `open_check_send(dat_f2, dat_fp, len)`: what the prover puts into its hash: the MACs, then the labels of the
62 bits of each integer. -/
def dblOpenPrv (n : Nat) (M : Nat → U128) (bits : Nat → Nat → F) : List (W ⊕ F) :=
  (List.range n).map (fun i => Sum.inl (low64 (M i))) ++
    (List.range n).flatMap (fun i => (List.range 62).map (fun j => Sum.inr (bits i j)))

/-- auth_helper.h:106-132 `open_check_recv(dat_f2, dat_fp, len)`: what the verifier puts into its hash for the received words `val`. -/
def dblOpenVer (delta : W) (delta2 : F) (n : Nat) (K : Nat → U128) (keys : Nat → Nat → F) (val : Nat → W) : List (W ⊕ F) :=
  (List.range n).map (fun i => Sum.inl (addMod (low64 (K i)) (multMod (val i) delta))) ++
    (List.range n).flatMap (fun i => (List.range 62).map (fun j =>
      Sum.inr (if (val i).getLsbD j then keys i j + delta2 else keys i j)))

/-- edabits.h:106-141, prover: all that is hashed in one generation. `M k`, `cand k` are the labels of candidate `k`, `sums j i` the labels
of the bits of the boolean sum of bucket `i` in pass `j`. -/
def genPrv (c : EdaCfg) (rp : Nat) (M : Nat → U128) (cand : Nat → Nat → F) (sums : Nat → Nat → Nat → F) : List (W ⊕ F) :=
  dblOpenPrv c.C (fun k => M (c.N + rp + k)) (fun k => cand (c.N + rp + k)) ++
    (List.range c.bm1).flatMap (fun j => dblOpenPrv c.N (fun i => intfpAddA (M i) (M (partnerF2 c rp j i))) (sums j))

/-- edabits.h:106-141, verifier; `vo`, `vs` are the words received for the opened candidates and for the sums. -/
def genVer (c : EdaCfg) (rp : Nat) (delta : W) (delta2 : F) (K : Nat → U128) (cand : Nat → Nat → F) (sums : Nat → Nat → Nat → F)
    (vo : Nat → W) (vs : Nat → Nat → W) : List (W ⊕ F) :=
  dblOpenVer delta delta2 c.C (fun k => K (c.N + rp + k)) (fun k => cand (c.N + rp + k)) vo ++
    (List.range c.bm1).flatMap (fun j =>
      dblOpenVer delta delta2 c.N (fun i => intfpAddB (K i) (K (partnerF2 c rp j i))) (sums j) (vs j))

end

/-- edabits.h:106-142 at the level of values: `x k`, `a k` are the boolean integer and the field element of candidate `k`. `none`: an
element outside `bool_candidate` is used. -/
def edaOk (c : EdaCfg) (rp : Nat) (x : Nat → Int62) (a : Nat → Fp) : Option Bool :=
  if (openedIdx c rp).all (· < c.ell) then
    some ((openedIdx c rp).all (fun k => (x k).toNat == (a k).val) &&
      (List.range c.bm1).all (fun j => (List.range c.N).all (fun i =>
        (f2Sum (x i) (x (partnerF2 c rp j i))).toNat == (a i + a (partnerF2 c rp j i)).val)))
  else none

/-! ### consumption -/

/-- edabits.h:25-28: what remains in the buffers. `gens` counts the generations, `ext` the refills of `arith_candidate`; `npSz` is
`cot_fp->ot_limit`. -/
structure EdaState where
  npPt : Nat
  npRg : Nat
  num : Nat
  off : Nat
  gens : Nat
  ext : Nat

/-- edabits.h:45-52: after construction (one refill has been made). -/
def edaInit : EdaState := ⟨0, 0, 0, 0, 0, 1⟩

/-- edabits.h:82-89, 143-144 `edabits_gen_backend`: positions only. -/
def edaGen (c : EdaCfg) (npSz : Nat) (s : EdaState) : EdaState :=
  let s := if npSz < s.npPt + c.ell then { s with npPt := 0, ext := s.ext + 1 } else s
  { s with npRg := s.npPt + c.ell, num := c.N, off := 0, gens := s.gens + 1 }

/-- Where an edaBit comes from: generation and index of the boolean part; refill and index of the arithmetic part (edabits.h:320-329). -/
structure EdaUse where
  gen : Nat
  f2 : Nat
  ext : Nat
  fp : Nat
deriving DecidableEq

/-- edabits.h:320-329 `next_edabits`. -/
def edaNext (c : EdaCfg) (npSz : Nat) (s : EdaState) : EdaState × EdaUse :=
  let s := if s.num = 0 then edaGen c npSz { s with npPt := s.npRg } else s
  ({ s with off := s.off + 1, num := s.num - 1 }, ⟨s.gens, s.off, s.ext, s.npPt + s.off⟩)

/-- `n` calls of `next_edabits` (edabits.h:187-191, 259-263). -/
def edaTake (c : EdaCfg) (npSz : Nat) : Nat → EdaState → EdaState × List EdaUse
  | 0, s => (s, [])
  | n + 1, s =>
    let (s, u) := edaNext c npSz s
    let (s, us) := edaTake c npSz n s
    (s, u :: us)

/-- edabits.h:167-185, 187-191 (and 238-256, 259-263): number of elements of each round of a bulk conversion of `len` elements when
`num` edaBits are left. -/
def bulkRounds (c : EdaCfg) (num len : Nat) : List Nat :=
  let (round, round1, leftover) :=
    if len ≤ num then (1, len, 0)
    else
      let round := (len - num) / c.N + 2
      let leftover := (len - num) % c.N
      let (round, leftover) := if leftover = 0 then (round - 1, c.N) else (round, leftover)
      if num = 0 then (round - 1, (if round - 1 = 1 then leftover else c.N), leftover) else (round, num, leftover)
  (List.range round).map (fun j => if j = 0 then round1 else if j = round - 1 then leftover else c.N)

/-- edabits.h:187-218, 259-291: the edaBits used in each round. -/
def bulkRun (c : EdaCfg) (npSz : Nat) : List Nat → EdaState → EdaState × List (List EdaUse)
  | [], s => (s, [])
  | n :: ns, s =>
    let (s, us) := edaTake c npSz n s
    let (s, uss) := bulkRun c npSz ns s
    (s, us :: uss)

/-- edabits.h:167-219, 238-292: one bulk conversion. -/
def bulkConv (c : EdaCfg) (npSz : Nat) (len : Nat) (s : EdaState) : EdaState × List (List EdaUse) :=
  bulkRun c npSz (bulkRounds c s.num len) s

/-- A conversion: of one element (edabits.h:151-165, 221-236) or of `len` elements. -/
inductive EdaOp
  | single
  | bulk (len : Nat)

/-- Number of elements converted (edabits.h:151, 167, 221, 238). -/
def EdaOp.len : EdaOp → Nat
  | .single => 1
  | .bulk len => len

/-- One conversion: the edaBits used for elements 0, 1, ... (the bulk loops advance `counter` by the size of each round,
edabits.h:217, 290). -/
def edaOp (c : EdaCfg) (npSz : Nat) (o : EdaOp) (s : EdaState) : EdaState × List EdaUse :=
  match o with
  | .single => edaTake c npSz 1 s
  | .bulk len =>
    let (s, uss) := bulkConv c npSz len s
    (s, uss.flatten)

/-- A sequence of conversions on one object (edabits.h:151-292). -/
def edaOps (c : EdaCfg) (npSz : Nat) : List EdaOp → EdaState → EdaState × List (List EdaUse)
  | [], s => (s, [])
  | o :: os, s =>
    let (s, us) := edaOp c npSz o s
    let (s, uss) := edaOps c npSz os s
    (s, us :: uss)

end EmpZk
