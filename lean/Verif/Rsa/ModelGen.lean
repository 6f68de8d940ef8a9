import Verif.Rsa.Model

/-!
# RSA on limbs: key generation (`mbedtls_rsa_gen_key`, `src/mbedtls/rsa.c` 91-163)

`mbedtls_mpi_gen_prime` searches without a bound on the number of candidates, and so does `mbedtls_rsa_gen_key`: here at most `f` candidates are
tried for each prime, and at most `fuel` pairs of primes, and a search that has not ended by then has no result.
-/

namespace Verif.Rsa

open Verif Verif.Bignum

/-- The local integers of `mbedtls_rsa_gen_key`. -/
structure Loc where
  P1 : Mpi
  Q1 : Mpi
  H : Mpi
  G : Mpi

/-- A call of `mbedtls_mpi_gen_prime`; `none` when it has not ended.  The result 1, like every result but 0, ends the key generation. -/
def primeFor (g : Rng) (f : Nat) (X : Mpi) (nbits : Nat) : Run (Option Mpi) := do
  let r ← genPrime g f X nbits false
  match r with
  | .done R => Run.of (.ok (some R))
  | .one => Run.of (.err .rsa)
  | .running => Run.of (.ok none)

/-- The end of the body of the loop, rsa.c 124-136, and `continue` as the end of the body. -/
def genTest (nbits : Nat) (l : Loc) : St Loc := do
  let c ← St.get
  if cmpMpi c.P c.Q = 0 then pure l
  else do
    let N ← St.of (mulMpi c.N (.ext c.P) (.ext c.Q))
    St.put { c with N := N }
    if bitlenL N ≠ nbits then pure l
    else do
      let c := if cmpMpi c.P c.Q < 0 then { c with N := N, P := c.Q, Q := c.P } else { c with N := N }
      St.put c
      let P1 ← St.of (subInt l.P1 (.ext c.P) 1)
      let Q1 ← St.of (subInt l.Q1 (.ext c.Q) 1)
      let H ← St.of (mulMpi l.H (.ext P1) (.ext Q1))
      let G ← St.of (gcdMpi l.G c.E H)
      pure ⟨P1, Q1, H, G⟩

/-- The body of the loop, rsa.c 118-136. -/
def genRound (g : Rng) (f nbits : Nat) (l : Loc) : St (Option Loc) := do
  let c ← St.get
  let p ← St.rand (primeFor g f c.P (nbits / 2))
  match p with
  | none => pure none
  | some P => do
    St.put { c with P := P }
    let q ← St.rand (primeFor g f c.Q (nbits / 2))
    match q with
    | none => pure none
    | some Q => do
      St.put { c with P := P, Q := Q }
      let l ← genTest nbits l
      pure (some l)

/-- `do … while( mbedtls_mpi_cmp_int( &G, 1 ) != 0 )`, rsa.c 116-137. -/
def genPairs (g : Rng) (f nbits : Nat) : Nat → Loc → St (Option Loc)
  | 0, _ => pure none
  | fuel + 1, l => do
    let r ← genRound g f nbits l
    match r with
    | none => pure none
    | some l => if cmpInt l.G 1 ≠ 0 then genPairs g f nbits fuel l else pure (some l)

/-- The rest, rsa.c 145-150. -/
def genRest (l : Loc) : St Unit := do
  let c ← St.get
  let D ← St.of (invMod c.D c.E l.H)
  let DP ← St.of (modMpi c.DP (.ext D) l.P1)
  let DQ ← St.of (modMpi c.DQ (.ext D) l.Q1)
  let QP ← St.of (invMod c.QP c.Q c.P)
  St.put { c with D := D, DP := DP, DQ := DQ, QP := QP, len := (bitlenL c.N + 7) / 8 }

/-- rsa.c 114-150; `false` when the search has not ended. -/
def genBody (g : Rng) (f fuel nbits : Nat) (exponent : Int) : St Bool := do
  let c ← St.get
  let E ← St.of (lset c.E exponent)
  St.put { c with E := E }
  let r ← genPairs g f nbits fuel ⟨.null, .null, .null, .null⟩
  match r with
  | none => pure false
  | some l => do
    genRest l
    pure true

/-- An error empties the context, rsa.c 156-160. -/
def orInit (r : Out Bool × Ctx × Nat) : Out Bool × Ctx × Nat :=
  match r with
  | (.err e, _, j) => (.err e, .init, j)
  | r => r

/-- `mbedtls_rsa_gen_key`, rsa.c 91-163. -/
def rsaGenKey (g : Rng) (f fuel nbits : Nat) (exponent : Int) : St Bool := fun c i =>
  if nbits < 128 ∨ exponent < 3 then (.err .badInput, c, i)
  else if nbits % 2 ≠ 0 then (.err .badInput, c, i)
  else orInit (genBody g f fuel nbits exponent c i)

end Verif.Rsa
