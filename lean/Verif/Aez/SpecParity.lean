import Verif.Aez.PropsRandom
import Mathlib.GroupTheory.Perm.Sign

/-!
# Parities: the specification of C116

A permutation of a finite set is even or odd.  Half of the permutations of the strings of `n` bytes are odd; a cipher whose permutations are all even, or
all odd, is told from a uniform permutation by anybody who sees all of its answers but two.
-/

namespace Verif.AezParity

open Verif Verif.Avg Verif.Oracle Verif.AezRandom

/-- The answers `F` encrypt the strings of `n` bytes with the permutation `π`. -/
def Encrypts (F : Ask → Bytes) (n : Nat) (π : Equiv.Perm (Block n)) : Prop := ∀ b, F (false, toBytes b) = toBytes (π b)

/-- 1 for even permutations and -1 for odd ones. -/
def parity {n : Nat} (π : Equiv.Perm (Block n)) : ℚ := ((Equiv.Perm.sign π : ℤ) : ℚ)

/-- Whether a block of 128 bits begins with the bit 1. -/
def top (x : Nat) : Bool := x.testBit 127

end Verif.AezParity
