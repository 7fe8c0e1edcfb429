/-
Model of emp-zk/extensions/ram-zk/gfmul.h (batched multiplication of 128-bit blocks).
-/
import Verif.Model.Word
import Verif.Model.Clmul

namespace EmpZk

/-- `_mm_clmulepi64_si128(a, b, imm)` (intrinsic; gfmul.h:11-14): `hiA` is bit 0 of `imm`, `hiB` is bit 4. -/
def clmulepi64 (a b : U128) (hiA hiB : Bool) : U128 :=
  let x := if hiA then high64 a else low64 a
  let y := if hiB then high64 b else low64 b
  BitVec.ofNat 128 (clmulN x.toNat y.toNat 64)

/-- gfmul.h:10-23: one lane of `mul128_0`; also one lane of `mul128_3` (35-59), `mul128_4` (70-99) and
`mul128_6` (111-149), whose first loops are unrolled with the same four products per lane. -/
def mul128Lane (a b : U128) : U128 × U128 :=
  let tmp3 := clmulepi64 a b false false   -- 0x00
  let tmp4 := clmulepi64 a b false true    -- 0x10
  let tmp5 := clmulepi64 a b true false    -- 0x01
  let tmp6 := clmulepi64 a b true true     -- 0x11
  let tmp4 := tmp4 ^^^ tmp5
  let tmp5 := tmp4 <<< 64                  -- _mm_slli_si128(tmp4, 8): 8 bytes
  let tmp4 := tmp4 >>> 64                  -- _mm_srli_si128(tmp4, 8)
  let tmp3 := tmp3 ^^^ tmp5
  let tmp6 := tmp6 ^^^ tmp4
  (tmp3, tmp6)

/-- emp-tool `reduce(lo, hi)` (external; called at gfmul.h:31): the 256-bit string `hi:lo` modulo the
reduction polynomial. -/
def reduce (lo hi : U128) : U128 := BitVec.ofNat 128 (gfRedBy gfPoly (lo.toNat + 2^128 * hi.toNat) 127)

/-- Memory of blocks, for stating independence of aliasing (the arrays of extensions/ram-zk/gfmul.h:30-31). -/
abbrev BlockMem := Nat → U128

/-- gfmul.h:30-31 (and 65-66, 106-107, 158-159): the final loop, storing lane after lane. -/
def storeLanes (t : Nat → U128 × U128) (res : Nat) (m : BlockMem) : Nat → BlockMem
  | 0 => m
  | n + 1 => fun x =>
      if x = res + n then reduce (t n).1 (t n).2 else storeLanes t res m n x

/-- gfmul.h:27-32 `gfmul_1<N>`, and `gfmul3` (61-67), `gfmul4` (101-109), `gfmul6` (151-160): the operands are
the blocks at addresses `a i`, `b i` (for `gfmul_1` these are `a + i`, `b + i`), the result array starts at `res`.
All products are formed in local arrays before anything is stored. -/
def gfmulBatch (N : Nat) (a b : Nat → Nat) (res : Nat) (m : BlockMem) : BlockMem :=
  storeLanes (fun i => mul128Lane (m (a i)) (m (b i))) res m N

end EmpZk
