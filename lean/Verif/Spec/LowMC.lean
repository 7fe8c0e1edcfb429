/-!
Specification of LowMC (Albrecht et al., EUROCRYPT 2015) on bit vectors given as functions, with the substitution box as a table.
-/
namespace EmpZk

/-- The published table of the substitution box. -/
def lowmcTable : List Nat := [0, 1, 3, 6, 7, 4, 5, 2]

/-- Sum modulo 2 of `f 0, …, f (n-1)`. -/
def parity (f : Nat → Bool) : Nat → Bool
  | 0 => false
  | n + 1 => parity f n ^^ f n

/-- Bit `j` (0 = most significant) of the box on three bits, most significant first. -/
def specBox (a b c : Bool) (j : Nat) : Bool :=
  match lowmcTable[4 * a.toNat + 2 * b.toNat + c.toNat]? with
  | some v => v.testBit (2 - j)
  | none => false

/-- Substitution layer: the box on the first `boxes` groups of three bits, the other bits unchanged. -/
def specSubst (boxes : Nat) (x : Nat → Bool) (i : Nat) : Bool :=
  if i < 3 * boxes then specBox (x (3 * (i / 3))) (x (3 * (i / 3) + 1)) (x (3 * (i / 3) + 2)) (i % 3) else x i

/-- The parameters drawn from the generator: linear layers, round constants, key matrices. -/
structure LowMCParams where
  lin : Nat → Nat → Nat → Bool
  rc : Nat → Nat → Bool
  km : Nat → Nat → Nat → Bool

/-- Round key `r`: product of key matrix `r` with the key. -/
def specRoundKey (p : LowMCParams) (keysize : Nat) (k : Nat → Bool) (r i : Nat) : Bool :=
  parity (fun j => p.km r i j && k j) keysize

/-- Linear layer of round `r` (row `i` of the matrix is the image of unit vector `i`). -/
def specLin (p : LowMCParams) (blocksize r : Nat) (x : Nat → Bool) (j : Nat) : Bool :=
  parity (fun i => p.lin r i j && x i) blocksize

/-- The state after whitening and `r` rounds. -/
def specRounds (p : LowMCParams) (boxes blocksize keysize : Nat) (k m : Nat → Bool) : Nat → Nat → Bool
  | 0 => fun i => m i ^^ specRoundKey p keysize k 0 i
  | r + 1 => fun i => (specLin p blocksize r (specSubst boxes (specRounds p boxes blocksize keysize k m r)) i ^^ p.rc r i) ^^
      specRoundKey p keysize k (r + 1) i

end EmpZk
