import Verif.Bignum.ModelDiv

/-!
# `mbedtls_int_div_int` without a double-width type

`Verif/Bignum/ModelDiv.lean` has the version with the 128-bit type. Here is the other one (bignum.c 1204-1256, Algorithm D of Knuth on half words),
and `mbedtls_mpi_div_mpi` over any version. All operations are on 64-bit words, modulo 2^64.
-/

namespace Verif.Bignum

open Verif

/-- `radix`, bignum.c 1173. -/
def radix : Nat := 4294967296

/-- `a - b` on words. -/
def wsub (a b : Nat) : Nat := (a + (W64 - b)) % W64

/-- The correction of a half digit, bignum.c 1233-1239 and 1245-1251; at most `f` rounds (more is `.ub`). -/
def digitLoop (d0 d1 u : Nat) : Nat → Nat → Nat → Out Nat
  | 0, _, _ => .ub
  | f + 1, q, r =>
    if radix ≤ q ∨ (radix * r % W64 + u) % W64 < q * d0 % W64 then
      let q := wsub q 1
      let r := (r + d1) % W64
      if radix ≤ r then .ok q else digitLoop d0 d1 u f q r
    else .ok q

/-- `u0 >> n`: the standard gives it no meaning for `n = 64`; then the result is `over`, `none` for undefined behaviour. -/
def shrWord (over : Option Nat) (u n : Nat) : Out Nat := if n < 64 then .ok (u >>> n) else orUb over

/-- `-(mbedtls_mpi_sint)s >> ( biL - 1 )`, bignum.c 1215, for `s` ≤ 64: the sign of `-s` in all bits (the shift is arithmetic). -/
def signMask (s : Nat) : Nat := if s = 0 then 0 else W64 - 1

/-- `mbedtls_int_div_int(u1, u0, d, r)`, bignum.c 1167-1256, without `MBEDTLS_HAVE_UDBL`: quotient and `*r`. -/
def intDivHalf (over : Option Nat) (f u1 u0 d : Nat) : Out (Nat × Nat) :=
  if d = 0 ∨ u1 ≥ d then .ok (W64 - 1, W64 - 1)
  else do
    let s := clz d
    let d := d <<< s % W64
    let u1 := u1 <<< s % W64
    let low ← shrWord over u0 (64 - s)
    let u1 := u1 ||| (low &&& signMask s)
    let u0 := u0 <<< s % W64
    let d1 := d >>> 32
    let d0 := d &&& (radix - 1)
    let um := u0 >>> 32
    let ul := u0 &&& (radix - 1)
    let q1 ← digitLoop d0 d1 um f (u1 / d1) (wsub u1 (d1 * (u1 / d1) % W64))
    let rAX := (u1 * radix % W64 + wsub um (q1 * d % W64)) % W64
    let q0 ← digitLoop d0 d1 ul f (rAX / d1) (wsub rAX (rAX / d1 * d1 % W64))
    let r := wsub ((rAX * radix % W64 + ul) % W64) (q0 * d % W64) >>> s
    pure ((q1 * radix % W64 + q0) % W64, r)

/-- `mbedtls_int_div_int` with the 128-bit type, quotient and `*r`, bignum.c 1190-1203. -/
def intDivWide (u1 u0 d : Nat) : Nat × Nat :=
  if d = 0 ∨ u1 ≥ d then (W64 - 1, W64 - 1)
  else
    let n := u1 * W64 ||| u0
    let q := min (n / d) (W64 - 1)
    (q, (n - q * d) % W64)

/-! ## The division of integers over a version of `mbedtls_int_div_int` -/

/-- A version: high word, low word, divisor. -/
abbrev WordDiv := Nat → Nat → Nat → Out Nat

/-- bignum.c 1312-1318. -/
def qEstW (w : WordDiv) (x y : List Nat) (i t : Nat) : Out Nat := do
  let xi ← limbAt x i
  let yt ← limbAt y t
  if xi ≥ yt then .ok (W64 - 1)
  else do
    let x1 ← limbAt x (i - 1)
    w xi x1 yt

/-- bignum.c 1312-1336. -/
def qDigitW (w : WordDiv) (x y : List Nat) (i t : Nat) : Out Nat := do
  let z ← qEstW w x y i t
  let y0 ← limbIf (t ≥ 1) y (t - 1)
  let y1 ← limbAt y t
  let x0 ← limbIf (i ≥ 2) x (i - 2)
  let x1 ← limbIf (i ≥ 1) x (i - 1)
  let x2 ← limbAt x i
  qLoop ⟨false, [y0, y1]⟩ ⟨false, [x0, x1, x2]⟩ (W64 + 1) ((z + 1) % W64)

/-- bignum.c 1310-1349. -/
def divLoopW (w : WordDiv) (Y : Mpi) (t : Nat) : Nat → Mpi → List Nat → Out (Mpi × List Nat)
  | 0, X, Z => .ok (X, Z)
  | m + 1, X, Z => do
    let z ← qDigitW w X.p Y.p (t + m + 1) t
    let s ← divStep X Y z m
    let Z ← setLimb Z m s.2
    divLoopW w Y t m s.1 Z

/-- bignum.c 1281-1349. -/
def divCoreW (w : WordDiv) (A B : Mpi) : Out (Mpi × List Nat × Nat) := do
  let r ← divPrep A B
  let s ← divLoopW w r.Y r.t r.m r.X r.Z
  pure (s.1, s.2, r.k)

/-- `mbedtls_mpi_div_mpi`, bignum.c 1262-1373. -/
def divMpiW (w : WordDiv) (qa ra : Bool) (Q R : Option Mpi) (A B : Mpi) : Out (Option Mpi × Option Mpi) :=
  if cmpInt B 0 = 0 then .err .divZero
  else if cmpAbs A B < 0 then do
    let Q ← optLset0 Q
    let A := if qa then Q.getD A else A
    let R ← copyUnless ra R A
    pure (Q, R)
  else do
    let s ← divCoreW w A B
    let aneg := if qa then false else A.neg
    let Q ← putQ Q s.2.1 (xor aneg B.neg)
    let R ← putR R s.1 s.2.2 (if qa then xor aneg B.neg else A.neg)
    pure (Q, R)

end Verif.Bignum
