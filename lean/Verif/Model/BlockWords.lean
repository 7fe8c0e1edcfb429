/-
Word-level code on 128-bit blocks: clearing and setting the low bit, and collecting the low bits of 128 blocks in two
64-bit words.
-/
import Verif.Lemmas.GF128

namespace EmpZk

/-- emp-zk/emp-zk-bool/ostriple.h:59 `minusone = makeBlock(0xFFFFFFFFFFFFFFFF, 0xFFFFFFFFFFFFFFFE)`. -/
def minusOne : BitVec 128 := (0xFFFFFFFFFFFFFFFF#64 ++ 0xFFFFFFFFFFFFFFFE#64 : BitVec (64 + 64))

/-- emp-zk/emp-zk-bool/ostriple.h:60 `one = makeBlock(0, 1)`, which is `choice2[1]` (line 61). -/
def oneBlock : BitVec 128 := (0#64 ++ 1#64 : BitVec (64 + 64))

/-- emp-zk/emp-zk-bool/ostriple.h:277 `set_zero_bit`. -/
def setZeroBitW (b : BitVec 128) : BitVec 128 := b &&& minusOne

/-- emp-zk/emp-zk-bool/ostriple.h:279-282 `set_value_in_block`. -/
def setValueInBlockW (b : BitVec 128) (v : Bool) : BitVec 128 :=
  (b &&& minusOne) ^^^ (if v then oneBlock else 0)

/-- emp-zk/emp-zk-bool/ostriple.h:180-184: the loop `for j = n-1 .. 0`: shift left, add one if the bit is set. -/
def chLoop (b : Nat → Bool) : Nat → BitVec 64 → BitVec 64
  | 0, w => w
  | j + 1, w => chLoop b j (if b j then (w <<< 1) + 1#64 else w <<< 1)

/-- emp-zk/emp-zk-bool/ostriple.h:175-184: one of the two words; bits `b 63` first. -/
def chWord (b : Nat → Bool) : BitVec 64 := chLoop b 63 (if b 63 then 1#64 else 0#64)

/-- emp-zk/emp-zk-bool/ostriple.h:174-186: both words, then `makeBlock(ch_bits[1], ch_bits[0])`. -/
def chBlock (ope : Nat → GF128) : GF128 :=
  ⟨(chWord (fun j => (ope (64 * 1 + j)).getLSB) ++ chWord (fun j => (ope (64 * 0 + j)).getLSB) : BitVec (64 + 64))⟩

/-- emp-zk/emp-zk-bool/polynomial.h:62-66: the loop `for j = n-1 .. 0`: shift left, or one if the bit is set. -/
def choiceLoop (b : Nat → Bool) : Nat → BitVec 64 → BitVec 64
  | 0, w => w
  | j + 1, w => choiceLoop b j (if b j then (w <<< 1) ||| 1#64 else w <<< 1)

/-- emp-zk/emp-zk-bool/polynomial.h:60-70: both words (from zero, 64 steps each), then
`makeBlock(choice_bits[1], choice_bits[0])`. -/
def choiceBlock (ope : Nat → GF128) : GF128 :=
  ⟨(choiceLoop (fun j => (ope (1 * 64 + j)).getLSB) 64 0 ++
    choiceLoop (fun j => (ope (0 * 64 + j)).getLSB) 64 0 : BitVec (64 + 64))⟩

end EmpZk
