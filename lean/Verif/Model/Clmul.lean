/-
Carry-less multiplication and the field F_{2^128} = F_2[X]/(X^128+X^7+X^2+X+1), on bit strings.
The instruction `_mm_clmulepi64_si128` and emp-tool's `gfmul`/`reduce` are external to this
repository; what is modelled here is their meaning on bits.
-/
namespace EmpZk

/-- Carry-less product of `a` with the lowest `n` bits of `b`, on numbers read as bit strings.
Meaning of the instruction behind emp-zk/extensions/ram-zk/gfmul.h:8-13 (external). -/
def clmulN (a b : Nat) : Nat → Nat
  | 0 => 0
  | n + 1 => clmulN a b n ^^^ (if b.testBit n then a <<< n else 0)

/-- The reduction polynomial of emp-tool's `gfmul` (external): X^128 + X^7 + X^2 + X + 1, used at emp-zk-bool/ostriple.h:226. -/
@[irreducible] def gfPoly : Nat := 2^128 + 0x87

/-- Long division by the bit string `f` of degree 128: clears bits `128 + n - 1 … 128`.  Meaning of
emp-tool's `reduce` (external), used at emp-zk/extensions/ram-zk/gfmul.h:31. -/
def gfRedBy (f x : Nat) : Nat → Nat
  | 0 => x
  | n + 1 => gfRedBy f (if x.testBit (128 + n) then x ^^^ (f <<< n) else x) n

/-- emp-tool `gfmul` (external), the product used everywhere on blocks, e.g.
emp-zk/emp-zk-bool/ostriple.h:226. -/
def gfmulN (a b : Nat) : Nat := gfRedBy gfPoly (clmulN a b 128) 127

end EmpZk
