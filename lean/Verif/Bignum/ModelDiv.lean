import Verif.Bignum.Model

/-!
# Model of the division in `src/mbedtls/bignum.c`

A `while` loop gets a number of steps it may take; a loop that takes more is reported as `.ub` (the theorems show that this does not happen).
The temporaries `T1` and `T2` are created where the code sets them to 0; the code keeps their memory.
-/

namespace Verif.Bignum

open Verif

/-- More than the absolute value of the integer. -/
def fuel (X : Mpi) : Nat := W64 ^ X.p.length + 1

/-- Reading a limb. -/
def limbAt (p : List Nat) (i : Nat) : Out Nat := orUb p[i]?

/-- Reading a limb under a condition. -/
def limbIf (b : Bool) (p : List Nat) (i : Nat) : Out Nat := if b then limbAt p i else .ok 0

/-- Writing a limb. -/
def setLimb (p : List Nat) (i v : Nat) : Out (List Nat) := if i < p.length then .ok (p.set i v) else .ub

/-- `mbedtls_int_div_int` with the 128-bit type, bignum.c 1167-1203. -/
def intDiv (u1 u0 d : Nat) : Nat :=
  if d = 0 ∨ u1 ≥ d then W64 - 1 else min ((u1 * W64 ||| u0) / d) (W64 - 1)

/-- The first estimate of a digit, bignum.c 1312-1318. -/
def qEst (x y : List Nat) (i t : Nat) : Out Nat := do
  let xi ← limbAt x i
  let yt ← limbAt y t
  if xi ≥ yt then .ok (W64 - 1)
  else do
    let x1 ← limbAt x (i - 1)
    .ok (intDiv xi x1 yt)

/-- The correction of the estimate, bignum.c 1320-1336. -/
def qLoop (T1 T2 : Mpi) : Nat → Nat → Out Nat
  | 0, _ => .ub
  | f + 1, z => do
    let z := (z + (W64 - 1)) % W64
    let T ← mulInt T1 .self z
    if cmpMpi T T2 > 0 then qLoop T1 T2 f z else .ok z

/-- The digit before the last correction, bignum.c 1312-1336. -/
def qDigit (x y : List Nat) (i t : Nat) : Out Nat := do
  let z ← qEst x y i t
  let y0 ← limbIf (t ≥ 1) y (t - 1)
  let y1 ← limbAt y t
  let x0 ← limbIf (i ≥ 2) x (i - 2)
  let x1 ← limbIf (i ≥ 1) x (i - 1)
  let x2 ← limbAt x i
  qLoop ⟨false, [y0, y1]⟩ ⟨false, [x0, x1, x2]⟩ (W64 + 1) ((z + 1) % W64)

/-- Subtracting the multiple of the divisor and adding it once if the result is negative, bignum.c 1338-1348. -/
def divStep (X Y : Mpi) (z m : Nat) : Out (Mpi × Nat) := do
  let T1 ← mulInt Mpi.null (.ext Y) z
  let T1 ← shiftL T1 (64 * m)
  let X ← subMpi X .self (.ext T1)
  if cmpInt X 0 < 0 then do
    let T1 ← copy T1 Y
    let T1 ← shiftL T1 (64 * m)
    let X ← addMpi X .self (.ext T1)
    pure (X, (z + (W64 - 1)) % W64)
  else pure (X, z)

/-- `for( i = n; i > t ; i-- )` with `i = t + m`, bignum.c 1310-1349. -/
def divLoop (Y : Mpi) (t : Nat) : Nat → Mpi → List Nat → Out (Mpi × List Nat)
  | 0, X, Z => .ok (X, Z)
  | m + 1, X, Z => do
    let z ← qDigit X.p Y.p (t + m + 1) t
    let s ← divStep X Y z m
    let Z ← setLimb Z m s.2
    divLoop Y t m s.1 Z

/-- `while( mbedtls_mpi_cmp_mpi( &X, &Y ) >= 0 )`, bignum.c 1303-1307. -/
def topLoop (Y : Mpi) (j : Nat) : Nat → Mpi → List Nat → Out (Mpi × List Nat)
  | 0, _, _ => .ub
  | f + 1, X, Z =>
    if cmpMpi X Y ≥ 0 then do
      let z ← limbAt Z j
      let X ← subMpi X .self (.ext Y)
      topLoop Y j f X (Z.set j ((z + 1) % W64))
    else .ok (X, Z)

/-- The shift that normalises the divisor, bignum.c 1290-1297. -/
def normK (Y : Mpi) : Nat := if bitlenL Y % 64 < 63 then 63 - bitlenL Y % 64 else 0

def shlIf (X : Mpi) (k : Nat) : Out Mpi := if k = 0 then .ok X else shiftL X k

/-- What the loop over the digits starts with: dividend, divisor, limbs of the quotient, number of digits, index of the highest limb of the divisor,
shift. -/
structure DivPrep where
  X : Mpi
  Y : Mpi
  Z : List Nat
  m : Nat
  t : Nat
  k : Nat

/-- The first part of `mbedtls_mpi_div_mpi`, bignum.c 1281-1308. -/
def divPrep (A B : Mpi) : Out DivPrep := do
  let X ← copy Mpi.null A
  let Y ← copy Mpi.null B
  let X := { X with neg := false }
  let Y := { Y with neg := false }
  let Z ← grow Mpi.null (A.p.length + 2)
  let Z ← lset Z 0
  let k := normK Y
  let X ← shlIf X k
  let Y ← shlIf Y k
  let n := X.p.length - 1
  let t := Y.p.length - 1
  let Y ← shiftL Y (64 * (n - t))
  let s ← topLoop Y (n - t) (fuel X) X Z.p
  let Y ← shiftR Y (64 * (n - t))
  pure ⟨s.1, Y, s.2, n - t, t, k⟩

/-- The main part of `mbedtls_mpi_div_mpi`, bignum.c 1281-1349: remainder (shifted), limbs of the quotient, shift. -/
def divCore (A B : Mpi) : Out (Mpi × List Nat × Nat) := do
  let r ← divPrep A B
  let s ← divLoop r.Y r.t r.m r.X r.Z
  pure (s.1, s.2, r.k)

def optCopy : Option Mpi → Mpi → Out (Option Mpi)
  | none, _ => .ok none
  | some X, Y => do
    let X ← copy X Y
    pure (some X)

def optLset0 : Option Mpi → Out (Option Mpi)
  | none => .ok none
  | some X => do
    let X ← lset X 0
    pure (some X)

/-- Writing the quotient, bignum.c 1351-1355. -/
def putQ (Q : Option Mpi) (Z : List Nat) (neg : Bool) : Out (Option Mpi) := do
  let Q ← optCopy Q ⟨false, Z⟩
  pure (Q.map fun Q => { Q with neg := neg })

/-- Writing the remainder, bignum.c 1357-1365. -/
def putR : Option Mpi → Mpi → Nat → Bool → Out (Option Mpi)
  | none, _, _, _ => .ok none
  | some R, X, k, neg => do
    let X ← shiftR X k
    let R ← copy R { X with neg := neg }
    pure (some (if cmpInt R 0 = 0 then { R with neg := false } else R))

/-- `mbedtls_mpi_copy` does nothing if the objects are the same, bignum.c 187. -/
def copyUnless (same : Bool) (R : Option Mpi) (A : Mpi) : Out (Option Mpi) := if same then .ok R else optCopy R A

/-- `mbedtls_mpi_div_mpi`, bignum.c 1262-1373.  `qa`: the quotient is written to `A` itself; `ra`: the remainder is written to `A` itself.
    `B` is another object. -/
def divMpi (qa ra : Bool) (Q R : Option Mpi) (A B : Mpi) : Out (Option Mpi × Option Mpi) :=
  if cmpInt B 0 = 0 then .err .divZero
  else if cmpAbs A B < 0 then do
    let Q ← optLset0 Q
    let A := if qa then Q.getD A else A
    let R ← copyUnless ra R A
    pure (Q, R)
  else do
    let s ← divCore A B
    let aneg := if qa then false else A.neg
    let Q ← putQ Q s.2.1 (xor aneg B.neg)
    let R ← putR R s.1 s.2.2 (if qa then xor aneg B.neg else A.neg)
    pure (Q, R)

/-- `while( mbedtls_mpi_cmp_int( R, 0 ) < 0 )`, bignum.c 1402-1403, 1906-1907. -/
def addWhileNeg (B : Mpi) : Nat → Mpi → Out Mpi
  | 0, _ => .ub
  | f + 1, R =>
    if cmpInt R 0 < 0 then do
      let R ← addMpi R .self (.ext B)
      addWhileNeg B f R
    else .ok R

/-- `while( mbedtls_mpi_cmp_mpi( R, B ) >= 0 )`, bignum.c 1405-1406, 1909-1910. -/
def subWhileGe (B : Mpi) : Nat → Mpi → Out Mpi
  | 0, _ => .ub
  | f + 1, R =>
    if cmpMpi R B ≥ 0 then do
      let R ← subMpi R .self (.ext B)
      subWhileGe B f R
    else .ok R

def Arg.isSelf : Arg → Bool
  | .self => true
  | .ext _ => false

/-- `mbedtls_mpi_mod_mpi`, bignum.c 1394-1411; `B` is not the destination. -/
def modMpi (R : Mpi) (A : Arg) (B : Mpi) : Out Mpi :=
  if cmpInt B 0 < 0 then .err .negative
  else do
    let s ← divMpi false A.isSelf none (some R) (A.get R) B
    let R ← orUb s.2
    let R ← addWhileNeg B (fuel R) R
    subWhileGe B (fuel R) R

/-- One step of the general case of `mbedtls_mpi_mod_int`, bignum.c 1449-1457. -/
def modIntStep (b y x : Nat) : Nat :=
  let y := ((y <<< 32) % W64) ||| (x >>> 32)
  let z := y / b
  let y := y - z * b
  let x := (x <<< 32) % W64
  let y := ((y <<< 32) % W64) ||| (x >>> 32)
  let z := y / b
  y - z * b

/-- `mbedtls_mpi_mod_int`, bignum.c 1416-1469. -/
def modInt (A : Mpi) (b : Int) : Out Nat :=
  if b = 0 then .err .divZero
  else if b < 0 then .err .negative
  else if b = 1 then .ok 0
  else if b = 2 then do
    let x ← limbAt A.p 0
    pure (x &&& 1)
  else
    let y := A.p.reverse.foldl (modIntStep b.natAbs) 0
    .ok (if A.neg ∧ y ≠ 0 then b.natAbs - y else y)

end Verif.Bignum
