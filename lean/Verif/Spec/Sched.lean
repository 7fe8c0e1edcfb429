/-
Specification of runs with a number of steps, and of their ends.
-/
import Verif.Model.Calls

namespace EmpZk

/-- A run of `n` steps, in any order of the two programs. -/
inductive PRuns {α β : Type} (S : Nat) : Nat → PNet α β → PNet α β → Prop where
  | zero (c : PNet α β) : PRuns S 0 c c
  | snd {n : Nat} {c c1 c' : PNet α β} : stepP S c = some c1 → PRuns S n c1 c' → PRuns S (n + 1) c c'
  | rcv {n : Nat} {c c1 c' : PNet α β} : stepQ S c = .ok c1 → PRuns S n c1 c' → PRuns S (n + 1) c c'

/-- Neither program can go on: each has ended or waits for the other one. -/
def PNet.Stuck {α β : Type} (S : Nat) (c : PNet α β) : Prop := stepP S c = none ∧ ∀ c', stepQ S c ≠ .ok c'

/-- The program has returned, stopped, or performed an undefined operation. -/
def SProg.Ended {α : Type} (p : SProg α) : Prop := ∀ o k, p ≠ .call o k

/-- The same for the receiving program. -/
def RProg.Ended {α : Type} (q : RProg α) : Prop := ∀ o k, q ≠ .call o k

end EmpZk
