import Verif.Bignum.ModelDiv

/-!
# Model of the greatest common divisor and the modular inverse in `src/mbedtls/bignum.c`
-/

namespace Verif.Bignum

open Verif

/-- `while( mbedtls_mpi_cmp_int( &TA, 0 ) != 0 )`, bignum.c 1777-1792; the result is `TB`. -/
def gcdLoop : Nat → Mpi → Mpi → Out Mpi
  | 0, _, _ => .ub
  | f + 1, TA, TB =>
    if cmpInt TA 0 ≠ 0 then do
      let TA ← shiftR TA (lsb TA)
      let TB ← shiftR TB (lsb TB)
      if cmpMpi TA TB ≥ 0 then do
        let TA ← subAbs TA .self (.ext TB)
        let TA ← shiftR TA 1
        gcdLoop f TA TB
      else do
        let TB ← subAbs TB .self (.ext TA)
        let TB ← shiftR TB 1
        gcdLoop f TA TB
    else .ok TB

/-- `mbedtls_mpi_gcd`, bignum.c 1755-1802; the arguments are copied first, so that they may be the destination. -/
def gcdMpi (G A B : Mpi) : Out Mpi := do
  let TA ← copy Mpi.null A
  let TB ← copy Mpi.null B
  let lz := if lsb TB < lsb TA then lsb TB else lsb TA
  let TA ← shiftR TA lz
  let TB ← shiftR TB lz
  let TA := { TA with neg := false }
  let TB := { TB with neg := false }
  let TB ← gcdLoop (fuel TA + fuel TB) TA TB
  let TB ← shiftL TB lz
  copy G TB

/-- A number and its two coefficients. -/
structure Trip where
  T : Mpi
  U1 : Mpi
  U2 : Mpi

/-- `if( ( U1.p[0] & 1 ) != 0 || ( U2.p[0] & 1 ) != 0 )`, bignum.c 1867, 1881. -/
def oneOdd (U1 U2 : Mpi) : Out Bool := do
  let u1 ← limbAt U1.p 0
  if u1 &&& 1 ≠ 0 then pure true
  else do
    let u2 ← limbAt U2.p 0
    pure (u2 &&& 1 != 0)

/-- The two changes of the coefficients, bignum.c 1869-1870, 1883-1884. -/
def adjust (TA TB : Mpi) (b : Bool) (U1 U2 : Mpi) : Out (Mpi × Mpi) :=
  if b then do
    let U1 ← addMpi U1 .self (.ext TB)
    let U2 ← subMpi U2 .self (.ext TA)
    pure (U1, U2)
  else .ok (U1, U2)

/-- `while( ( TU.p[0] & 1 ) == 0 )`, bignum.c 1863-1875 and 1877-1889. -/
def halfLoop (TA TB : Mpi) : Nat → Trip → Out Trip
  | 0, _ => .ub
  | f + 1, s => do
    let t0 ← limbAt s.T.p 0
    if t0 &&& 1 = 0 then do
      let T ← shiftR s.T 1
      let b ← oneOdd s.U1 s.U2
      let u ← adjust TA TB b s.U1 s.U2
      let U1 ← shiftR u.1 1
      let U2 ← shiftR u.2 1
      halfLoop TA TB f ⟨T, U1, U2⟩
    else .ok s

/-- The difference of two numbers with their coefficients, bignum.c 1893-1895, 1899-1901. -/
def subTrip (s t : Trip) : Out Trip := do
  let T ← subMpi s.T .self (.ext t.T)
  let U1 ← subMpi s.U1 .self (.ext t.U1)
  let U2 ← subMpi s.U2 .self (.ext t.U2)
  pure ⟨T, U1, U2⟩

/-- Which of the two is changed, bignum.c 1891-1902. -/
def invStep (u v : Trip) : Out (Trip × Trip) :=
  if cmpMpi u.T v.T ≥ 0 then do
    let u ← subTrip u v
    pure (u, v)
  else do
    let v ← subTrip v u
    pure (u, v)

/-- `do … while( mbedtls_mpi_cmp_int( &TU, 0 ) != 0 )`, bignum.c 1861-1904; the result is `V1`. -/
def invLoop (TA TB : Mpi) : Nat → Trip → Trip → Out Mpi
  | 0, _, _ => .ub
  | f + 1, u, v => do
    let u ← halfLoop TA TB (fuel u.T) u
    let v ← halfLoop TA TB (fuel v.T) v
    let s ← invStep u v
    if cmpInt s.1.T 0 ≠ 0 then invLoop TA TB f s.1 s.2 else .ok s.2.U1

/-- `mbedtls_mpi_inv_mod`, bignum.c 1831-1923; the destination is written last, so that the arguments may be the destination. -/
def invMod (X A N : Mpi) : Out Mpi :=
  if cmpInt N 1 ≤ 0 then .err .badInput
  else do
    let G ← gcdMpi Mpi.null A N
    if cmpInt G 1 ≠ 0 then .err .notAcceptable
    else do
      let TA ← modMpi Mpi.null (.ext A) N
      let TU ← copy Mpi.null TA
      let TB ← copy Mpi.null N
      let TV ← copy Mpi.null N
      let U1 ← lset Mpi.null 1
      let U2 ← lset Mpi.null 0
      let V1 ← lset Mpi.null 0
      let V2 ← lset Mpi.null 1
      let V1 ← invLoop TA TB (fuel TU + fuel TV) ⟨TU, U1, U2⟩ ⟨TV, V1, V2⟩
      let V1 ← addWhileNeg N (fuel V1) V1
      let V1 ← subWhileGe N (fuel V1) V1
      copy X V1

end Verif.Bignum
