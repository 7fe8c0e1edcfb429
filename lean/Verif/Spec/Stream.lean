/-
Specification of the bytes one program sends to the other one in a run.
-/
import Verif.Model.Calls

namespace EmpZk

/-- Configurations reachable under some schedule, with all bytes that the program on the sending endpoint has put into the connection so far. -/
inductive PStream {α β : Type} (S : Nat) (c0 : PNet α β) : List Byte → PNet α β → Prop where
  | init : PStream S c0 [] c0
  | snd {w x : List Byte} {c c' : PNet α β} : PStream S c0 w c → stepP S c = some c' → c'.toR = c.toR ++ x → PStream S c0 (w ++ x) c'
  | rcv {w : List Byte} {c c' : PNet α β} : PStream S c0 w c → stepQ S c = .ok c' → PStream S c0 w c'

/-- The same for the bytes that the program on the receiving endpoint has sent back. -/
inductive PBack {α β : Type} (S : Nat) (c0 : PNet α β) : List Byte → PNet α β → Prop where
  | init : PBack S c0 [] c0
  | snd {w : List Byte} {c c' : PNet α β} : PBack S c0 w c → stepP S c = some c' → PBack S c0 w c'
  | rcv {w x : List Byte} {c c' : PNet α β} : PBack S c0 w c → stepQ S c = .ok c' → c'.toS = c.toS ++ x → PBack S c0 (w ++ x) c'

end EmpZk
