import Verif.Bignum.ModelDiv

/-!
# Model of the functions of `src/mbedtls/bignum.c` on texts, sizes and conditions

A character is its code; a text in memory is a list of characters that contains a zero, and what follows the first zero is not read.
The characters written to a buffer are collected in a list; writing more than the length of the buffer is `.ub`.
The recursion of `mpi_write_hlp` gets a number of steps it may take.
-/

namespace Verif.Bignum

open Verif

/-- `mpi_get_digit`, bignum.c 413-425. -/
def getDigit (radix c : Nat) : Out Nat :=
  let d := 255
  let d := if c ≥ 0x30 ∧ c ≤ 0x39 then c - 0x30 else d
  let d := if c ≥ 0x41 ∧ c ≤ 0x46 then c - 0x37 else d
  let d := if c ≥ 0x61 ∧ c ≤ 0x66 then c - 0x57 else d
  if d ≥ radix then .err .invalidChar else .ok d

/-- The loop for radix 16, bignum.c 454-464, from the last character. -/
def readHex : List Nat → Nat → Mpi → Out Mpi
  | [], _, X => .ok X
  | c :: rest, j, X =>
    if rest.length = 0 ∧ c = 0x2d then .ok { X with neg := true }
    else do
      let d ← getDigit 16 c
      let x ← limbAt X.p (j / 16)
      let p ← setLimb X.p (j / 16) (x ||| ((d <<< ((j % 16) <<< 2)) % W64))
      readHex rest (j + 1) { X with p := p }

/-- The loop for the other radices, bignum.c 470-489; `i` is the position, `T` the temporary. -/
def readDigits (radix : Nat) : List Nat → Nat → Mpi → Mpi → Out Mpi
  | [], _, X, _ => .ok X
  | c :: rest, i, X, T =>
    if i = 0 ∧ c = 0x2d then readDigits radix rest (i + 1) { X with neg := true } T
    else do
      let d ← getDigit radix c
      let T ← mulInt T (.ext X) radix
      let X ← if X.s = 1 then addInt X (.ext T) d else subInt X (.ext T) d
      readDigits radix rest (i + 1) X T

/-- `mbedtls_mpi_read_string`, bignum.c 430-497. -/
def readString (X : Mpi) (radix : Int) (mem : List Nat) : Out Mpi :=
  if radix < 2 ∨ radix > 16 then .err .badInput
  else if 0 ∉ mem then .ub
  else
    let s := mem.takeWhile (· != 0)
    if radix = 16 then
      if s.length > (W64 - 1) >>> 2 then .err .badInput
      else do
        let X ← grow X (bitsToLimbs (s.length <<< 2))
        let X ← lset X 0
        readHex s.reverse 0 X
    else do
      let X ← lset X 0
      readDigits radix.toNat s 0 X Mpi.null

/-- Writing a character through `*p++`. -/
def putChar (buflen : Nat) (out : List Nat) (c : Nat) : Out (List Nat) := if out.length < buflen then .ok (out ++ [c]) else .ub

/-- `mbedtls_mpi_div_int`, bignum.c 1377-1388. -/
def divInt (qa ra : Bool) (Q R : Option Mpi) (A : Mpi) (b : Int) : Out (Option Mpi × Option Mpi) := divMpi qa ra Q R A (small b)

/-- `mbedtls_mpi_div_int( X, NULL, X, b )`. -/
def divIntSelf (X : Mpi) (b : Int) : Out Mpi := do
  let s ← divInt true false (some X) none X b
  orUb s.1

/-- `mpi_write_hlp`, bignum.c 504-526. -/
def writeHlp (radix : Int) (buflen : Nat) : Nat → Mpi → List Nat → Out (List Nat)
  | 0, _, _ => .ub
  | f + 1, X, out =>
    if radix < 2 ∨ radix > 16 then .err .badInput
    else do
      let r ← modInt X radix
      let X ← divIntSelf X radix
      let out ← if cmpInt X 0 ≠ 0 then writeHlp radix buflen f X out else pure out
      putChar buflen out (if r < 10 then r + 0x30 else r + 0x37)

/-- The table of the digits, bignum.c 578-579. -/
def hexTable : List Nat := [0x30, 0x31, 0x32, 0x33, 0x34, 0x35, 0x36, 0x37, 0x38, 0x39, 0x41, 0x42, 0x43, 0x44, 0x45, 0x46]

/-- The inner loop for radix 16, bignum.c 571-581, for the limb `x = X->p[i - 1]`; the flag is `k`. -/
def hexBytes (buflen i x : Nat) : Nat → Bool → List Nat → Out (Bool × List Nat)
  | 0, k, out => .ok (k, out)
  | j + 1, k, out =>
    let c := (x >>> (j <<< 3)) &&& 0xff
    if c = 0 ∧ k = false ∧ i + (j + 1) ≠ 2 then hexBytes buflen i x j k out
    else do
      let h ← limbAt hexTable (c / 16)
      let out ← putChar buflen out h
      let l ← limbAt hexTable (c % 16)
      let out ← putChar buflen out l
      hexBytes buflen i x j true out

/-- The outer loop for radix 16, bignum.c 569-582. -/
def hexLimbs (buflen : Nat) (p : List Nat) : Nat → Bool → List Nat → Out (List Nat)
  | 0, _, out => .ok out
  | i + 1, k, out => do
    let x ← limbAt p i
    let s ← hexBytes buflen (i + 1) x 8 k out
    hexLimbs buflen p i s.1 s.2

/-- What `mbedtls_mpi_write_string` returns besides errors: the characters with the final zero (`*olen` is their number), or
    `MBEDTLS_ERR_MPI_BUFFER_TOO_SMALL` with the length announced in `*olen`. -/
inductive Written
  | text (t : List Nat)
  | small (olen : Nat)
  deriving DecidableEq

/-- The length announced, bignum.c 542-550. -/
def announced (X : Mpi) (radix : Int) : Nat :=
  let n := bitlenL X
  let n := if radix ≥ 4 then n >>> 1 else n
  let n := if radix ≥ 16 then n >>> 1 else n
  n + (3 + ((n + 1) &&& 1))

/-- The digits, bignum.c 564-592. -/
def writeBody (X : Mpi) (radix : Int) (buflen : Nat) (out : List Nat) : Out (List Nat) :=
  if radix = 16 then hexLimbs buflen X.p X.p.length false out
  else do
    let T ← copy Mpi.null X
    let T := if T.neg then { T with neg := false } else T
    writeHlp radix buflen (fuel T) T out

/-- `mbedtls_mpi_write_string`, bignum.c 531-602. -/
def writeString (X : Mpi) (radix : Int) (buflen : Nat) : Out Written :=
  if radix < 2 ∨ radix > 16 then .err .badInput
  else
    let n := announced X radix
    if buflen < n then .ok (.small n)
    else do
      let out ← if X.neg then putChar buflen [] 0x2d else pure []
      let out ← writeBody X radix buflen out
      let out ← putChar buflen out 0
      pure (.text out)

/-! ## Sizes and conditions -/

/-- `mbedtls_mpi_shrink`, bignum.c 146-177. -/
def shrink (X : Mpi) (nblimbs : Nat) : Out Mpi :=
  if X.p.length ≤ nblimbs then grow X nblimbs
  else
    let i := max (max (sig X.p) 1) nblimbs
    .ok { X with p := X.p.take i }

/-- The condition as 0 or 1, bignum.c 238, 270: `(assign | (unsigned char)-assign) >> 7`. -/
def flag (assign : Nat) : Nat := ((assign ||| ((256 - assign) % 256)) >>> 7) % 256

/-- `x * ( 1 - assign ) + y * assign` on limbs: the factors are `int` and are converted to 64 bits. -/
def pick (f x y : Nat) : Nat := (x * ((1 + (W64 - f)) % W64) + y * f) % W64

/-- The same on signs. -/
def pickSign (f : Nat) (s t : Int) : Int := s * (1 - f) + t * f

/-- The sign as a field; other values than 1 and -1 do not occur. -/
def ofSign (s : Int) : Out Bool := if s = 1 then .ok false else if s = -1 then .ok true else .ub

/-- The loops over the limbs, bignum.c 244-248 and 280-285, for two arrays of which the first is not shorter. -/
def pickLimbs (f : Nat) : List Nat → List Nat → List Nat
  | [], _ => []
  | x :: xs, [] => x * ((1 + (W64 - f)) % W64) % W64 :: pickLimbs f xs []
  | x :: xs, y :: ys => pick f x y :: pickLimbs f xs ys

/-- `mbedtls_mpi_safe_cond_assign`, bignum.c 232-252. -/
def condAssign (X Y : Mpi) (assign : Nat) : Out Mpi := do
  let f := flag assign
  let X ← grow X Y.p.length
  let s ← ofSign (pickSign f X.s Y.s)
  pure ⟨s, pickLimbs f X.p Y.p⟩

/-- `mbedtls_mpi_safe_cond_swap` of two objects, bignum.c 260-289. -/
def condSwap (X Y : Mpi) (swap : Nat) : Out (Mpi × Mpi) := do
  let f := flag swap
  let X ← grow X Y.p.length
  let Y ← grow Y X.p.length
  let s ← ofSign (pickSign f X.s Y.s)
  let t ← ofSign (pickSign f Y.s X.s)
  pure (⟨s, List.zipWith (pick f) X.p Y.p⟩, ⟨t, List.zipWith (pick f) Y.p X.p⟩)

/-- `mbedtls_mpi_swap`, bignum.c 216-223. -/
def swapMpi (X Y : Mpi) : Mpi × Mpi :=
  let T := X
  let X := Y
  let Y := T
  (X, Y)

end Verif.Bignum
