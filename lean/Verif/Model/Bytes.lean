/-
Numbers as little endian bytes: the memory representation of words and blocks that `send_data(&x, sizeof(x))` puts on the wire
(emp-zk-arith/ostriple.h:75, 138, emp-zk-bool/ostriple.h:192 and others).
-/
import Mathlib.Data.Nat.Init
import Mathlib.Tactic.NormNum
import Verif.Model.BoolIO

namespace EmpZk

/-- Little endian bytes of a number (memory of a `uint64_t` passed to `send_data`, emp-zk-arith/ostriple.h:75). -/
def leBytes : Nat → Nat → List Byte
  | 0, _ => []
  | n + 1, v => BitVec.ofNat 8 v :: leBytes n (v / 256)

/-- The number of little endian bytes (memory of a `uint64_t` filled by `recv_data`, emp-zk-arith/ostriple.h:98). -/
def leVal : List Byte → Nat
  | [] => 0
  | b :: l => b.toNat + 256 * leVal l

theorem leBytes_length (n : Nat) : ∀ v, (leBytes n v).length = n := by
  induction n with
  | zero => intro v; rfl
  | succ n ih => intro v; simp [leBytes, ih]

theorem leVal_leBytes (n : Nat) : ∀ v, v < 256 ^ n → leVal (leBytes n v) = v := by
  induction n with
  | zero => intro v h; simp at h; simp [leBytes, leVal, h]
  | succ n ih =>
    intro v h
    have : v / 256 < 256 ^ n := by rw [Nat.div_lt_iff_lt_mul (by decide)]; rw [Nat.pow_succ] at h; exact h
    simp only [leBytes, leVal, ih _ this, BitVec.toNat_ofNat]
    have := Nat.mod_add_div v 256
    omega

theorem leVal_append_zero (l : List Byte) (n : Nat) : leVal (l ++ List.replicate n 0#8) = leVal l := by
  induction l with
  | nil =>
    induction n with
    | zero => rfl
    | succ n ih => simp only [List.nil_append] at ih ⊢; simp [List.replicate_succ, leVal, ih]
  | cons b l ih => simp only [List.cons_append, leVal, ih]

end EmpZk
