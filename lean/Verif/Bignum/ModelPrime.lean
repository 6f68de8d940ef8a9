import Verif.Bignum.ModelExp

/-!
# Model of the random numbers, the primality test and the generation of primes in `src/mbedtls/bignum.c`

The random number generator `f_rng` is a function of the number of calls made before and of the number of bytes asked for; it may fail with an
error code.  A function that calls it takes the number of calls made before and returns the new number, also after an error, because
`mbedtls_mpi_gen_prime` goes on after `MBEDTLS_ERR_MPI_NOT_ACCEPTABLE`.

The search loops of `mbedtls_mpi_gen_prime` have no bound in the code; here they get a number of candidates they may try, and the result says so when
they are still running.
-/

namespace Verif.Bignum

open Verif

/-- A computation that calls the random number generator. -/
def Run (α : Type) := Nat → Out α × Nat

/-- Going on with a result. -/
def Run.next {α β : Type} (r : Out α × Nat) (f : α → Run β) : Out β × Nat :=
  match r with
  | (.ok a, j) => f a j
  | (.err e, j) => (.err e, j)
  | (.ub, j) => (.ub, j)

instance : Monad Run where
  pure a := fun i => (.ok a, i)
  bind x f := fun i => Run.next (x i) f

/-- A computation that does not call the generator. -/
def Run.of {α : Type} (x : Out α) : Run α := fun i => (x, i)

/-- A random number generator: the bytes of a call, by the number of calls before and the number of bytes asked for. -/
def Rng := Nat → Nat → Out Bytes

def Rng.draw (g : Rng) (n : Nat) : Run Bytes := fun i => (g i n, i + 1)

/-- `MBEDTLS_MPI_MAX_SIZE`, `MBEDTLS_MPI_MAX_BITS`, bignum.h 72-75. -/
def mpiMaxSize : Nat := 1024
def mpiMaxBits : Nat := 8 * mpiMaxSize

/-- `mbedtls_mpi_fill_random`, bignum.c 1811-1826. -/
def fillRandom (g : Rng) (X : Mpi) (size : Nat) : Run Mpi :=
  if size > mpiMaxSize then Run.of (.err .badInput)
  else do
    let b ← g.draw size
    Run.of (readBinary X b)

/-- `small_prime`, bignum.c 1925-1948, without the mark of the end. -/
def smallPrimes : List Nat :=
  [3, 5, 7, 11, 13, 17, 19, 23, 29, 31, 37, 41, 43, 47, 53, 59, 61, 67, 71, 73, 79, 83, 89, 97,
   101, 103, 107, 109, 113, 127, 131, 137, 139, 149, 151, 157, 163, 167, 173, 179, 181, 191, 193, 197, 199, 211, 223, 227,
   229, 233, 239, 241, 251, 257, 263, 269, 271, 277, 281, 283, 293, 307, 311, 313, 317, 331, 337, 347, 349, 353, 359, 367,
   373, 379, 383, 389, 397, 401, 409, 419, 421, 431, 433, 439, 443, 449, 457, 461, 463, 467, 479, 487, 491, 499, 503, 509,
   521, 523, 541, 547, 557, 563, 569, 571, 577, 587, 593, 599, 601, 607, 613, 617, 619, 631, 641, 643, 647, 653, 659, 661,
   673, 677, 683, 691, 701, 709, 719, 727, 733, 739, 743, 751, 757, 761, 769, 773, 787, 797, 809, 811, 821, 823, 827, 829,
   839, 853, 857, 859, 863, 877, 881, 883, 887, 907, 911, 919, 929, 937, 941, 947, 953, 967, 971, 977, 983, 991, 997]

/-- The loop of `mpi_check_small_factors`, bignum.c 1968-1977: `true` is the result 1, `false` the result 0. -/
def smallLoop (X : Mpi) : List Nat → Out Bool
  | [] => .ok false
  | q :: l =>
    if cmpInt X q ≤ 0 then .ok true
    else do
      let r ← modInt X q
      if r = 0 then .err .notAcceptable else smallLoop X l

/-- `mpi_check_small_factors`, bignum.c 1959-1981. -/
def checkSmall (X : Mpi) : Out Bool := do
  let x ← limbAt X.p 0
  if x &&& 1 = 0 then .err .notAcceptable else smallLoop X smallPrimes

/-- The number of rounds, bignum.c 2008-2012. -/
def mrRounds (i : Nat) : Nat :=
  if i ≥ 1300 then 2 else if i ≥ 850 then 3 else if i ≥ 650 then 4 else if i ≥ 350 then 8
  else if i ≥ 250 then 12 else if i ≥ 150 then 18 else 27

/-- Cutting a number to the size of another one, bignum.c 2032-2036. -/
def cutTo (A W : Mpi) : Out Mpi := if bitlenL A > bitlenL W then shiftR A (bitlenL A - bitlenL W) else .ok A

/-- The choice of a base, bignum.c 2028-2043: `c` more candidates are looked at, the one after them is drawn only to give up. -/
def drawBase (g : Rng) (W : Mpi) (size : Nat) : Nat → Mpi → Run Mpi
  | 0, A => do
    let A ← fillRandom g A size
    let _ ← Run.of (cutTo A W)
    Run.of (.err .notAcceptable)
  | c + 1, A => do
    let A ← fillRandom g A size
    let A ← Run.of (cutTo A W)
    if cmpMpi A W ≥ 0 ∨ cmpInt A 1 ≤ 0 then drawBase g W size c A else Run.of (.ok A)

/-- The number drawn first in a round, which the loop after it overwrites, bignum.c 2019-2026. -/
def firstDraw (g : Rng) (W A : Mpi) (size : Nat) : Run Mpi := do
  let A ← fillRandom g A size
  let A ← Run.of (if cmpMpi A W ≥ 0 then shiftR A (bitlenL A - bitlenL W + 1) else .ok A)
  let x ← Run.of (limbAt A.p 0)
  Run.of (.ok { A with p := A.p.set 0 (x ||| 3) })

/-- `while( j < s && mbedtls_mpi_cmp_mpi( &A, &W ) != 0 )`, bignum.c 2055-2067, for `s - j` more steps; the result is `A` and `T`. -/
def mrSquare (X W : Mpi) : Nat → Mpi → Mpi → Out (Mpi × Mpi)
  | 0, A, T => .ok (A, T)
  | d + 1, A, T =>
    if cmpMpi A W = 0 then .ok (A, T)
    else do
      let T ← mulMpi T (.ext A) (.ext A)
      let A ← modMpi A (.ext T) X
      if cmpInt A 1 = 0 then .ok (A, T) else mrSquare X W d A T

/-- The variables of `mpi_miller_rabin` that live through the rounds. -/
structure MrSt where
  A : Mpi
  T : Mpi
  RR : Mpi

/-- The part of a round after the choice of the base, bignum.c 2045-2078. -/
def mrTest (X W R : Mpi) (s : Nat) (A T RR : Mpi) : Out MrSt := do
  let e ← expMod A .self R X (some RR)
  let RR ← orUb e.2
  if cmpMpi e.1 W = 0 ∨ cmpInt e.1 1 = 0 then .ok ⟨e.1, T, RR⟩
  else do
    let q ← mrSquare X W (s - 1) e.1 T
    if cmpMpi q.1 W ≠ 0 ∨ cmpInt q.1 1 = 0 then .err .notAcceptable else .ok ⟨q.1, q.2, RR⟩

/-- `for( i = 0; i < n; i++ )`, bignum.c 2014-2079. -/
def mrLoop (g : Rng) (X W R : Mpi) (s : Nat) : Nat → MrSt → Run Unit
  | 0, _ => Run.of (.ok ())
  | n + 1, t => do
    let A ← firstDraw g W t.A (X.p.length * 8)
    let A ← drawBase g W (X.p.length * 8) 31 A
    let t ← Run.of (mrTest X W R s A t.T t.RR)
    mrLoop g X W R s n t

/-- `mpi_miller_rabin`, bignum.c 1986-2085. -/
def millerRabin (g : Rng) (X : Mpi) : Run Unit := do
  let W ← Run.of (subInt Mpi.null (.ext X) 1)
  let R ← Run.of (copy Mpi.null W)
  let R ← Run.of (shiftR R (lsb W))
  mrLoop g X W R (lsb W) (mrRounds (bitlenL X)) ⟨Mpi.null, Mpi.null, Mpi.null⟩

/-- The Miller-Rabin test unless the small factors decided, bignum.c 2108-2116. -/
def afterSmall (g : Rng) (X : Mpi) (b : Bool) : Run Unit := if b then Run.of (.ok ()) else millerRabin g X

/-- `mbedtls_mpi_is_prime`, bignum.c 2090-2117; success is the result 0. -/
def isPrime (g : Rng) (X : Mpi) : Run Unit :=
  let XX : Mpi := { X with neg := false }
  if cmpInt XX 0 = 0 ∨ cmpInt XX 1 = 0 then Run.of (.err .notAcceptable)
  else if cmpInt XX 2 = 0 then Run.of (.ok ())
  else do
    let b ← Run.of (checkSmall XX)
    afterSmall g XX b

/-- How `mbedtls_mpi_gen_prime` ends when it does not end with a negative error code. -/
inductive Gen
  /-- The result 0. -/
  | done (X : Mpi)
  /-- The result 1, which `mpi_check_small_factors` gave. -/
  | one
  /-- It has tried as many candidates as it may, and goes on. -/
  | running
  deriving DecidableEq

/-- A test with one more outcome: `MBEDTLS_ERR_MPI_NOT_ACCEPTABLE` is not an error here but a result. -/
def accepted {α : Type} (r : Run α) : Run (Option α) := fun i =>
  match r i with
  | (.ok a, j) => (.ok (some a), j)
  | (.err .notAcceptable, j) => (.ok none, j)
  | (.err e, j) => (.err e, j)
  | (.ub, j) => (.ub, j)

/-- `while( ( ret = mbedtls_mpi_is_prime( X, f_rng, p_rng ) ) != 0 )`, bignum.c 2149-2155. -/
def genLoop (g : Rng) : Nat → Mpi → Run Gen
  | 0, _ => Run.of (.ok .running)
  | f + 1, X => do
    let r ← accepted (isPrime g X)
    match r with
    | some _ => Run.of (.ok (.done X))
    | none => do
      let X ← Run.of (addInt X .self 2)
      genLoop g f X

/-- The condition at bignum.c 2185-2188; `false` is the result 1. -/
def safeTest (g : Rng) (X Y : Mpi) : Run Bool := do
  let b ← Run.of (checkSmall X)
  if b then Run.of (.ok false)
  else do
    let b ← Run.of (checkSmall Y)
    if b then Run.of (.ok false)
    else do
      millerRabin g X
      millerRabin g Y
      Run.of (.ok true)

/-- `while( 1 )`, bignum.c 2179-2203. -/
def safeLoop (g : Rng) : Nat → Mpi → Mpi → Run Gen
  | 0, _, _ => Run.of (.ok .running)
  | f + 1, X, Y => do
    let r ← accepted (safeTest g X Y)
    match r with
    | some true => Run.of (.ok (.done X))
    | some false => Run.of (.ok .one)
    | none => do
      let X ← Run.of (addInt X .self 12)
      let Y ← Run.of (addInt Y .self 6)
      safeLoop g f X Y

/-- `X->p[0] |= v`. -/
def orLow (X : Mpi) (v : Nat) : Out Mpi := do
  let x ← limbAt X.p 0
  pure { X with p := X.p.set 0 (x ||| v) }

/-- The first candidate, bignum.c 2136-2145. -/
def genStart (g : Rng) (X : Mpi) (nbits : Nat) : Run Mpi := do
  let X ← fillRandom g X (bitsToLimbs nbits * 8)
  let X ← Run.of (if bitlenL X > nbits then shiftR X (bitlenL X - nbits + 1) else .ok X)
  let X ← Run.of (setBit X (nbits - 1))
  Run.of (orLow X 1)

/-- The step to the class modulo 3, bignum.c 2169-2173. -/
def toTwoModThree (X : Mpi) (r : Nat) : Out Mpi := if r = 0 then addInt X .self 8 else if r = 1 then addInt X .self 4 else .ok X

/-- The search for a safe prime, bignum.c 2167-2203. -/
def genSafe (g : Rng) (f : Nat) (X : Mpi) : Run Gen := do
  let X ← Run.of (orLow X 2)
  let r ← Run.of (modInt X 3)
  let X ← Run.of (toTwoModThree X r)
  let Y ← Run.of (copy Mpi.null X)
  let Y ← Run.of (shiftR Y 1)
  safeLoop g f X Y

/-- `mbedtls_mpi_gen_prime`, bignum.c 2122-2213, trying at most `f` candidates. -/
def genPrime (g : Rng) (f : Nat) (X : Mpi) (nbits : Nat) (dh : Bool) : Run Gen :=
  if nbits < 3 ∨ nbits > mpiMaxBits then Run.of (.err .badInput)
  else do
    let X ← genStart g X nbits
    if dh then genSafe g f X else genLoop g f X

end Verif.Bignum
