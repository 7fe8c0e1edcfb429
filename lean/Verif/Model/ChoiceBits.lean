/-
Model of the receiver's choice bits: where they come from (emp-zk/emp-vole/spfss_recver.h, mpfss_reg.h; the same text in
emp-zk/emp-vole-f2k/spfss_f2k_recver.h, mpfss.h).

An array element is `none` as long as nothing has been stored in it; using such an element is the outcome `none` (undefined behaviour:
an indeterminate value is read).
-/
import Verif.Model.Mpfss
import Verif.Model.PreOT

namespace EmpZk

/-- spfss_recver.h:14-18, 19-25 (spfss_f2k_recver.h:10-20): the receiver object: `depth` and the array `b`. -/
structure RecvObj where
  depth : Nat
  b : List (Option Bool)

/-- spfss_recver.h:19-25 constructor (spfss_f2k_recver.h:16-20): `b = new bool[depth - 1]`, without initialiser. -/
def RecvObj.new (depth : Nat) : RecvObj := { depth, b := List.replicate (depth - 1) none }

/-- Reading `b[i]` (spfss_recver.h:35, spfss_f2k_recver.h:30). -/
def RecvObj.read (o : RecvObj) (i : Nat) : Option Bool := o.b[i]?.join

/-- spfss_recver.h:32-40 `get_index` (spfss_f2k_recver.h:27-35). -/
def RecvObj.getIndex (o : RecvObj) : Nat → Option Nat
  | 0 => some 0
  | i + 1 => do
    let pos ← o.getIndex i
    let bi ← o.read i
    some (2 * pos + if bi then 0 else 1)

/-- preot.h:59-65 `choices_recver(b)` on the object's array: every `b[i]` with `i < length` is read. -/
def choicesRecverObj (st : PreRecv) (o : RecvObj) : Option (PreRecv × (Nat → Bool)) := do
  let bs ← (List.range st.length).mapM o.read
  choicesRecver st (fun i => bs.getD i false)

/-- mpfss_reg.h:85-94 (mpfss.h:93-102), receiver, for a construction `mk` of the object of each tree (the code: `RecvObj.new`): the
OT state and the indices `item_pos_recver`. -/
def mpfssChoices (mk : Nat → RecvObj) : Nat → PreRecv → Option (PreRecv × List Nat)
  | 0, st => some (st, [])
  | i + 1, st => do
    let (st, pos) ← mpfssChoices mk i st
    let (st, _) ← choicesRecverObj st (mk i)
    let p ← (mk i).getIndex ((mk i).depth - 1)
    some (st, pos ++ [p])

end EmpZk
