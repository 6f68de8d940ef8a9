import Verif.Tdp.Model
import Mathlib.Data.Fintype.Basic

/-!
# What the exponentiations of an inversion work on

`mbedtls_rsa_private` multiplies the message with the blinding value before it does anything with the private exponents, so that the exponentiations, whose
operations can be observed (C88), do not work on a number that others know.  Here: the sequence of these numbers in the calls of one object, and which sequences
of messages it hides.
-/

namespace Verif.Tdp.Blind

open Verif Verif.Tdp

/-- The number that the exponentiations of each call work on (rsa.c 432-438), for the calls of `mbedtls_rsa_private` on one context: `T * Vi mod N` with the
blinding value that the call leaves in the context. -/
def operands (rng : Nat → Nat → Nat) : Rsa → Nat → List Bytes → List Nat
  | _, _, [] => []
  | k, i, y :: ys =>
    let r := rsaPrivate rng k i y
    beNat y * (match r.key.blind with | some (vi, _) => vi | none => 1) % k.N :: operands rng r.key r.next ys

/-- Specification: every message has a factor of its own, the square of the one before. -/
def blinded (N a : Nat) (ys : List Nat) : List Nat := ys.mapIdx fun j y => y * a ^ 2 ^ j % N

/-- The invertible numbers below `N`. -/
def Inv (N : Nat) : Type := { v : Fin N // Nat.gcd v.val N = 1 }

instance (N : Nat) : Fintype (Inv N) := inferInstanceAs (Fintype { v : Fin N // Nat.gcd v.val N = 1 })

/-- The numbers of `len - 1` bytes that are invertible modulo `N`: what the code draws from (rsa.c 343-345). -/
def Short (len N : Nat) : Type := { v : Fin (256 ^ (len - 1)) // Nat.gcd v.val N = 1 }

instance (len N : Nat) : Fintype (Short len N) := inferInstanceAs (Fintype { v : Fin (256 ^ (len - 1)) // Nat.gcd v.val N = 1 })

/-- A random source that gives `V` as the first blinding value. -/
def source (V : Nat) (rng : Nat → Nat → Nat) : Nat → Nat → Nat := fun i m => if m = 255 then V else rng i m

/-- The second sequence differs from the first by factors `c`, `c ^ 2`, `c ^ 4`, ... -/
def Alike (N : Nat) (ys zs : List Nat) : Prop :=
  ys.length = zs.length ∧ ∃ c, Nat.gcd c N = 1 ∧ ∀ j (h1 : j < ys.length) (h2 : j < zs.length), zs[j] % N = ys[j] * c ^ 2 ^ j % N

/-- Some number that the code can draw takes the message `y` to the operand `o`. -/
def Possible (k : Rsa) (y o : Nat) : Prop := ∃ V, V < 256 ^ (k.len - 1) ∧ Nat.gcd V k.N = 1 ∧ o * V ^ k.E % k.N = y % k.N

end Verif.Tdp.Blind
