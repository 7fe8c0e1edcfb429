/-
Model of emp-zk/emp-vole/utility.h : arithmetic modulo p = 2^61 - 1 on machine words.

Conventions: `uint64_t` is `BitVec 64`, `__uint128_t` is `BitVec 128`; C++ unsigned arithmetic
wraps, as `BitVec` arithmetic does.  `__m128i` used as two 64-bit lanes is `BitVec 128` too,
accessed through `lane0`/`lane1`.
-/
namespace EmpZk

/-- A `uint64_t` (utility.h:33). -/
abbrev W := BitVec 64
/-- A `__uint128_t` or a two-lane `__m128i` (utility.h:9, 47). -/
abbrev U128 := BitVec 128

/-- utility.h:14 `PR` (also `p`, `pr`, lines 9 and 11, as 128-bit constants). -/
def PR : W := 2305843009213693951#64
/-- utility.h:9,11 `p`, `pr` as `__uint128_t`. -/
def PR128 : U128 := 2305843009213693951#128

/-- emp-zk-arith/ostriple.h:7 `LOW64`: lane 0 of a 128-bit word. -/
def low64 (x : U128) : W := x.setWidth 64
/-- emp-zk-arith/ostriple.h:8 `HIGH64`: lane 1 of a 128-bit word. -/
def high64 (x : U128) : W := (x >>> 64).setWidth 64
/-- emp-tool `makeBlock(high, low)` (external), used all over, e.g. emp-zk-arith/ostriple.h:76. -/
def makeBlock (hi lo : W) : U128 := (hi.setWidth 128 <<< 64) ||| lo.setWidth 128

/-- utility.h:24-30 `mul64` (portable version; the BMI2 version at 18-21 is `mulx`, same result):
returns (low word, high word `*c`). -/
def mul64 (a b : W) : W × W :=
  let cc : U128 := a.setWidth 128 * b.setWidth 128
  (cc.setWidth 64, (cc >>> 64).setWidth 64)

/-- utility.h:33-35 `mod_pre`. -/
def modPre (x : U128) : W := ((x &&& PR128) + (x >>> 61)).setWidth 64

/-- utility.h:37-40 `mod(uint64_t)`. -/
def mod64 (x : W) : W :=
  let i := (x &&& PR) + (x >>> 61)
  if PR ≤ i then i - PR else i

/-- utility.h:42-45 `mod(T k, T pv)` at `T = __uint128_t`. -/
def mod128 (k pv : U128) : U128 :=
  let i := (k &&& pv) + (k >>> 61)
  if pv ≤ i then i - pv else i

/-- utility.h:128-134 `mult_mod(uint64_t, uint64_t)`. -/
def multMod (a b : W) : W :=
  let ec := mul64 a b
  let res := (ec.1 &&& PR) + ((ec.1 >>> 61) ^^^ (ec.2 <<< 3))
  if PR ≤ res then res - PR else res

/-- utility.h:179-182 `add_mod(uint64_t, uint64_t)`. -/
def addMod (a b : W) : W :=
  let res := a + b
  if PR ≤ res then res - PR else res

/-- utility.h:184-186 `extract_fp`: reduce the low word. -/
def extractFp (x : U128) : U128 := (mod64 (low64 x)).setWidth 128

/-! ### two-lane vectors (`__m128i`) -/

/-- `_mm_add_epi64`: lane-wise wrapping addition (intrinsic) (utility.h:85, 102, 170). -/
def vAdd (a b : U128) : U128 := makeBlock (high64 a + high64 b) (low64 a + low64 b)
/-- `_mm_sub_epi64`: lane-wise wrapping subtraction (intrinsic) (utility.h:48). -/
def vSub (a b : U128) : U128 := makeBlock (high64 a - high64 b) (low64 a - low64 b)
/-- `_mm_srli_epi64`: lane-wise logical right shift (intrinsic) (utility.h:85, 100). -/
def vSrl (a : U128) (n : Nat) : U128 := makeBlock (high64 a >>> n) (low64 a >>> n)
/-- `_mm_slli_epi64`: lane-wise left shift (intrinsic) (utility.h:101). -/
def vSll (a : U128) (n : Nat) : U128 := makeBlock (high64 a <<< n) (low64 a <<< n)
/-- `_mm_cmpgt_epi64`: lane-wise *signed* comparison, all ones if `a > b` (intrinsic) (utility.h:48). -/
def vCmpGt (a b : U128) : U128 :=
  makeBlock (if (high64 b).slt (high64 a) then -1 else 0) (if (low64 b).slt (low64 a) then -1 else 0)
/-- `_mm_andnot_si128 a b = ~a & b` (intrinsic) (utility.h:48). -/
def vAndNot (a b : U128) : U128 := ~~~a &&& b

/-- utility.h:12-13 `prs` = (PR, PR). -/
def PRs : U128 := makeBlock PR PR

/-- utility.h:47-49 `vec_partial_mod`. -/
def vecPartialMod (i : U128) : U128 := vSub i (vAndNot (vCmpGt PRs i) PRs)

/-- utility.h:84-87 `vec_mod`. -/
def vecMod (i : U128) : U128 := vecPartialMod (vAdd (i &&& PRs) (vSrl i 61))

/-- utility.h:89-104 `mult_mod(block, uint64_t)`. -/
def multModV (a : U128) (b : W) : U128 :=
  let h := mul64 (high64 a) b
  let l := mul64 (low64 a) b
  let bs0 := makeBlock h.1 l.1          -- is[1], is[0]
  let bs1 := makeBlock h.2 l.2          -- is[3], is[2]
  let t1 := bs0 &&& PRs
  let t2 := vSrl bs0 61 ^^^ vSll bs1 3
  vecPartialMod (vAdd t1 t2)

/-- utility.h:106-126 `mult_mod_bch2(block*, block*, uint64_t*)`; the pair of results. -/
def multModBch2V (a0 a1 : U128) (b0 b1 : W) : U128 × U128 :=
  -- is[0..3] low words, is[4..7] high words, lane order (L0,H0,L1,H1)
  let l0 := mul64 (low64 a0) b0
  let h0 := mul64 (high64 a0) b0
  let l1 := mul64 (low64 a1) b1
  let h1 := mul64 (high64 a1) b1
  let bs0 := makeBlock h0.1 l0.1
  let bs1 := makeBlock h1.1 l1.1
  let bs2 := makeBlock h0.2 l0.2
  let bs3 := makeBlock h1.2 l1.2
  let t10 := bs0 &&& PRs
  let t11 := bs1 &&& PRs
  let t20 := vSrl bs0 61 ^^^ vSll bs2 3
  let t21 := vSrl bs1 61 ^^^ vSll bs3 3
  (vecPartialMod (vAdd t10 t20), vecPartialMod (vAdd t11 t21))

/-- utility.h:136-147 `mult_mod_bch2(uint64_t*, uint64_t*, uint64_t*)`. -/
def multModBch2 (a b : W × W) : W × W :=
  let e0 := mul64 a.1 b.1
  let e1 := mul64 a.2 b.2
  let cb := makeBlock e1.2 e0.2
  let eb := makeBlock e1.1 e0.1
  let eb := vAdd (eb &&& PRs) (vSrl eb 61 ^^^ vSll cb 3)
  let eb := vecPartialMod eb
  (low64 eb, high64 eb)

/-- utility.h:149-167 `mult_mod_bch4(uint64_t*, uint64_t*, uint64_t*)`. -/
def multModBch4 (a b : W × W × W × W) : W × W × W × W :=
  let e0 := mul64 a.1 b.1
  let e1 := mul64 a.2.1 b.2.1
  let e2 := mul64 a.2.2.1 b.2.2.1
  let e3 := mul64 a.2.2.2 b.2.2.2
  let cb0 := makeBlock e1.2 e0.2
  let cb1 := makeBlock e3.2 e2.2
  let eb0 := makeBlock e1.1 e0.1
  let eb1 := makeBlock e3.1 e2.1
  let r0 := vecPartialMod (vAdd (eb0 &&& PRs) (vSrl eb0 61 ^^^ vSll cb0 3))
  let r1 := vecPartialMod (vAdd (eb1 &&& PRs) (vSrl eb1 61 ^^^ vSll cb1 3))
  (low64 r0, high64 r0, low64 r1, high64 r1)

/-- One 64-bit lane of the eight-lane AVX512 arithmetic at utility.h:72-76 followed by
`vec_partial_mod_bch4` (53-62), which compares four 128-bit halves with the same signed compare. -/
def avxLane (e c : W) : W :=
  let t1 := e &&& PR
  let t2 := (e >>> 61) ^^^ (c <<< 3)
  let s := t1 + t2
  s - (~~~(if s.slt PR then (-1 : W) else 0) &&& PR)

/-- utility.h:63-80 `mult_mod_bch4(block*, block*, uint64_t*)` (AVX512 form) on four blocks.
Simplification: the 512-bit register is the list of its eight lanes. -/
def multModBch4Avx (a : Fin 4 → U128) (b : Fin 4 → W) : Fin 4 → U128 := fun i =>
  let h := mul64 (high64 (a i)) (b i)     -- is[2i+1], high word in is[8+2i+1]
  let l := mul64 (low64 (a i)) (b i)      -- is[2i],   high word in is[8+2i]
  makeBlock (avxLane h.1 h.2) (avxLane l.1 l.2)

/-- utility.h:169-172 `add_mod(block, block)`. -/
def addModV (a b : U128) : U128 := vecPartialMod (vAdd a b)
/-- utility.h:174-177 `add_mod(block, uint64_t)`: the word is added to both lanes. -/
def addModVW (a : U128) (b : W) : U128 := vecPartialMod (vAdd a (makeBlock b b))

/-- utility.h:188-192 `uni_hash_coeff_gen` (word instance), loop as structural recursion:
`coeffFrom c seed n` lists the next `n` coefficients after `c`. -/
def coeffFrom (c seed : W) : Nat → List W
  | 0 => []
  | n + 1 => let c' := multMod c seed; c' :: coeffFrom c' seed n

/-- utility.h:188-192 `uni_hash_coeff_gen`; `coeff[0]` is written even for `sz = 0`
(out-of-bounds in C++), hence the result for `0` is `none` = undefined behaviour. -/
def uniHashCoeffGen (seed : W) : Nat → Option (List W)
  | 0 => none
  | n + 1 => some (seed :: coeffFrom seed seed n)

/-- utility.h:194-208 `vector_inn_prdt_sum_red`; loop body, accumulating in `res`. -/
def innPrdtLoop : W → List W → List W → W
  | res, a :: as, b :: bs => innPrdtLoop (addMod res (multMod a b)) as bs
  | res, _, _ => res

/-- utility.h:194-200 `vector_inn_prdt_sum_red(a, b, sz)` on arrays of equal length `sz`. -/
def innPrdtSumRed (a b : List W) : W := innPrdtLoop 0 a b

end EmpZk
