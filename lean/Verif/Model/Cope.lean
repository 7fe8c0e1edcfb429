/-
Model of emp-zk/emp-vole/cope.h and emp-zk/emp-vole/base_svole.h.

The base OT and the PRGs are not modelled: `g0 i j`, `g1 i j` are the raw words drawn from `G0[i]`, `G1[i]` by the
receiver of the correlation, and the other party draws from the one of the two chosen by bit `i` of its secret.
Arrays of `m * size` words (index `i * size + j`) are functions of `i` and `j`; the loops over `j` are independent.
-/
import Verif.Model.Word

namespace EmpZk

/-- cope.h:163-170 `delta64_to_bool`: the next `m` bits of `in`. -/
def deltaToBool : Nat → W → List Bool
  | 0, _ => []
  | m + 1, x => (x &&& 1 == 1) :: deltaToBool m (x >>> 1)

/-- cope.h:193-203 `prm2pr(ret, uint64_t *a, size)`: entry of `ret` after the first `n` rows. -/
def prm2prB (a : Nat → W) : Nat → U128
  | 0 => 0
  | n + 1 =>
    let tmp := mod128 ((a n).setWidth 128 <<< n) PR128
    (addMod (low64 (prm2prB a n)) (low64 tmp)).setWidth 128

/-- cope.h:172-180 `prm2pr(a)` (and one column of cope.h:182-191), after the first `n` rows. -/
def prm2prS (a : Nat → U128) : Nat → U128
  | 0 => 0
  | n + 1 =>
    let tmp := mod128 (a n <<< n) PR128
    mod128 (prm2prS a n + tmp) PR128

/-- cope.h:96-102: one entry of the sender's batch; `d` is its bit, `v` the received word, `g` the raw word. -/
def copeSendB (g : W) (d : Bool) (v : W) : W := addMod (mod64 g) (if d then v else 0)

/-- cope.h:128-133: one word sent by the receiver's batch. -/
def copeTauB (g0 g1 u : W) : W := addMod (mod64 g0) (PR - addMod (mod64 g1) u)

/-- cope.h:87-115, 83-95 `extend(ret, size)`, sender: bits `db`, raw words `g`, received words `v`.  `none`: an access
outside `delta_bool`. -/
def copeExtendSendB (db : List Bool) (m : Nat) (g v : Nat → Nat → W) (size : Nat) : Option (List U128) :=
  if db.length < m then none
  else some ((List.range size).map (fun j => prm2prB (fun i => copeSendB (g i j) (db[i]?.getD false) (v i j)) m))

/-- cope.h:143-161 `extend(ret, u, size)`, receiver: the sent words. -/
def copeMsgB (g0 g1 : Nat → Nat → W) (u : Nat → W) (i j : Nat) : W := copeTauB (g0 i j) (g1 i j) (u j)

/-- cope.h:143-161 `extend(ret, u, size)`, receiver: the result. -/
def copeExtendRecvB (m : Nat) (g0 : Nat → Nat → W) (size : Nat) : List U128 :=
  (List.range size).map (fun j => prm2prB (fun i => mod64 (g0 i j)) m)

/-- cope.h:71-90 `extend()`, sender, single: raw blocks `g`, received words `v`. -/
def copeExtendSendS (db : List Bool) (m : Nat) (g v : Nat → U128) : Option U128 :=
  if db.length < m then none
  else some (prm2prS (fun i => mod128 (extractFp (g i) + (if db[i]?.getD false then v i else 0)) PR128) m)

/-- cope.h:118-140 `extend(u)`, receiver, single: the sent words. -/
def copeMsgS (g0 g1 : Nat → U128) (u : U128) (i : Nat) : U128 :=
  mod128 (extractFp (g0 i) + (PR128 - mod128 (extractFp (g1 i) + u) PR128)) PR128

/-- cope.h:118-140 `extend(u)`, receiver, single: the result. -/
def copeExtendRecvS (m : Nat) (g0 : Nat → U128) : U128 := prm2prS (fun i => extractFp (g0 i)) m

/-- base_svole.h:61-80 `sender_check`: shares, mask share, seed, received words; `some false` is `abort()`. -/
def baseSenderCheck (delta : W) (share : List U128) (b seed : W) (xz : W × W) : Option Bool := do
  let chi ← uniHashCoeffGen seed share.length
  let y := addMod (innPrdtSumRed (share.map low64) chi) b
  some (addMod y (multMod xz.2 delta) == xz.1)

/-- base_svole.h:83-96 `recver_check`: the words sent. -/
def baseRecverCheck (share : List U128) (x : List W) (c a seed : W) : Option (W × W) := do
  let chi ← uniHashCoeffGen seed share.length
  some (addMod (innPrdtSumRed (share.map low64) chi) c, addMod (innPrdtSumRed x chi) a)

/-- base_svole.h:35-40 `triple_gen_send`: `g, v` for the shares, `gb, vb` for the mask; the check seed is drawn at line 64
and reduced. `some none` is `abort()`. -/
def tripleGenSend (delta : U128) (m : Nat) (g v gb vb : Nat → Nat → W) (size : Nat) (rseed : W) (xz : W × W) :
    Option (Option (List U128)) := do
  let db := deltaToBool m (low64 delta)
  let share ← copeExtendSendB db m g v size
  let b ← copeExtendSendB db m gb vb 1
  let b0 ← b.head?
  let ok ← baseSenderCheck (low64 delta) share (low64 b0) (mod64 rseed) xz
  some (if ok then some share else none)

/-- base_svole.h:43-58 `triple_gen_recv`: `rx` are the raw random words (size + 1 of them); result: shares `(x, mac)` and the
two words of the check. -/
def tripleGenRecv (m : Nat) (g0 gb0 : Nat → Nat → W) (rx : List W) (seed : W) : Option (List U128 × (W × W)) := do
  let x := rx.map mod64
  let size := x.length - 1
  let share := copeExtendRecvB m g0 size
  let c ← (copeExtendRecvB m gb0 1).head?
  let a ← x[size]?
  let ans ← baseRecverCheck share (x.take size) (low64 c) a seed
  some (List.zipWith (fun xi s => makeBlock xi (low64 s)) (x.take size) share, ans)

end EmpZk
