import Verif.Basic

/-!
# Model of the multi-precision integers: `src/mbedtls/bignum.c`, on the level of limbs

A limb is a number below 2^64 (x86-64: `mbedtls_mpi_uint` is `uint64_t`), an integer is a sign and a list of limbs, least significant first, of
which the higher ones may be zero; the empty list is the null pointer.  The functions get the old value of the destination, because its size
stays, and an argument may be the destination itself (`Arg.self`).

Errors are the error codes of the library; what the destination contains after an error is not modelled.  `.ub` is an access outside an array.
Memory allocation succeeds.
-/

namespace Verif.Bignum

open Verif

/-- Error codes, bignum.h 35-42. -/
inductive Err
  | alloc | invalidChar | negative | divZero | badInput | notAcceptable | tooSmall
  /-- The codes of rsa.c. -/
  | rsa
  deriving DecidableEq, Repr

/-- Results. -/
inductive Out (α : Type)
  | ok (a : α)
  | err (e : Err)
  | ub
  deriving DecidableEq

instance : Monad Out where
  pure := Out.ok
  bind x f := match x with
    | .ok a => f a
    | .err e => .err e
    | .ub => .ub

@[simp] theorem Out.bind_ok {α β : Type} (a : α) (f : α → Out β) : ((Out.ok a : Out α) >>= f) = f a := rfl
@[simp] theorem Out.bind_err {α β : Type} (e : Err) (f : α → Out β) : ((Out.err e : Out α) >>= f) = .err e := rfl
@[simp] theorem Out.bind_ub {α β : Type} (f : α → Out β) : ((Out.ub : Out α) >>= f) = .ub := rfl
@[simp] theorem Out.pure_eq {α : Type} (a : α) : (pure a : Out α) = .ok a := rfl

/-- An absent value is an access outside an array. -/
def orUb {α : Type} : Option α → Out α
  | some a => .ok a
  | none => .ub

@[simp] theorem orUb_some {α : Type} (a : α) : orUb (some a) = .ok a := rfl

/-- `mbedtls_mpi`, bignum.h 181-187. -/
structure Mpi where
  neg : Bool
  p : List Nat
  deriving DecidableEq

/-- `mbedtls_mpi_init` and `mbedtls_mpi_free`, bignum.c 83-110. -/
def Mpi.null : Mpi := ⟨false, []⟩

/-- An argument: the destination itself, or another object. -/
inductive Arg
  | self
  | ext (m : Mpi)

def Arg.get (X : Mpi) : Arg → Mpi
  | .self => X
  | .ext m => m

/-- `MBEDTLS_MPI_MAX_LIMBS`, bignum.h 49. -/
def maxLimbs : Nat := 10000

/-- `mbedtls_mpi_grow`, bignum.c 115-139. -/
def grow (X : Mpi) (nb : Nat) : Out Mpi :=
  if nb > maxLimbs then .err .alloc else .ok { X with p := X.p ++ List.replicate (nb - X.p.length) 0 }

/-- The number of limbs up to the highest one that is not zero: the loops
    `for( j = B->n; j > 0; j-- ) if( B->p[j - 1] != 0 ) break;`, bignum.c 842, 926, 1127. -/
def sig (p : List Nat) : Nat := (p.reverse.dropWhile (· == 0)).length

/-- Growing under a condition. -/
def growIf (b : Bool) (X : Mpi) (nb : Nat) : Out Mpi := if b then grow X nb else .ok X

/-- `mbedtls_mpi_copy` from another object, bignum.c 182-210. -/
def copy (X Y : Mpi) : Out Mpi :=
  if Y.p = [] then .ok Mpi.null
  else do
    let i := max (sig Y.p) 1
    let X ← grow { X with neg := Y.neg } i
    pure { X with p := Y.p.take i ++ List.replicate (X.p.length - i) 0 }

/-- `mbedtls_mpi_copy`, bignum.c 187. -/
def copyArg (X : Mpi) : Arg → Out Mpi
  | .self => .ok X
  | .ext Y => copy X Y

/-- The temporary copy of an argument that is the destination, bignum.c 912-916, 1121-1122. -/
def unalias (X : Mpi) : Arg → Out Mpi
  | .self => copy Mpi.null X
  | .ext m => .ok m

/-- `mbedtls_mpi_lset`, bignum.c 296-309. -/
def lset (X : Mpi) (z : Int) : Out Mpi := do
  let X ← grow X 1
  pure ⟨decide (z < 0), z.natAbs :: List.replicate (X.p.length - 1) 0⟩

/-- `mbedtls_mpi_get_bit`, bignum.c 314-320. -/
def getBit (X : Mpi) (pos : Nat) : Nat :=
  match X.p[pos / 64]? with
  | none => 0
  | some x => (x >>> (pos % 64)) &&& 1

/-- `mbedtls_mpi_set_bit` for the value 1, bignum.c 325-348. -/
def setBit (X : Mpi) (pos : Nat) : Out Mpi := do
  let X ← growIf (X.p.length * 64 ≤ pos) X (pos / 64 + 1)
  match X.p[pos / 64]? with
  | none => .ub
  | some x => pure { X with p := X.p.set (pos / 64) (x ||| (1 <<< (pos % 64))) }

/-- `mbedtls_mpi_lsb`, bignum.c 353-363. -/
def lsbLoop : List Nat → Nat → Nat
  | [], _ => 0
  | x :: r, count =>
    match (List.range 64).find? fun j => (x >>> j) &&& 1 != 0 with
    | some j => count + j
    | none => lsbLoop r (count + 64)

def lsb (X : Mpi) : Nat := lsbLoop X.p 0

/-- `mbedtls_clz`, bignum.c 368-381. -/
def clz (x : Nat) : Nat := ((List.range 64).find? fun j => x &&& (1 <<< (63 - j)) != 0).getD 64

/-- `mbedtls_mpi_bitlen`, bignum.c 386-400. -/
def bitlenL (X : Mpi) : Nat :=
  if X.p.length = 0 then 0
  else
    let i := max (sig X.p) 1 - 1
    i * 64 + (64 - clz (X.p.getD i 0))

/-- `mbedtls_mpi_size`, bignum.c 405-408. -/
def size (X : Mpi) : Nat := (bitlenL X + 7) >>> 3

/-- `CHARS_TO_LIMBS` and `BITS_TO_LIMBS`, bignum.c 77-78. -/
def charsToLimbs (i : Nat) : Nat := i / 8 + if i % 8 ≠ 0 then 1 else 0
def bitsToLimbs (i : Nat) : Nat := i / 64 + if i % 64 ≠ 0 then 1 else 0

/-- The loop of `mbedtls_mpi_read_binary`, bignum.c 621-622, over the bytes from the last one. -/
def readLoop : List UInt8 → Nat → List Nat → Out (List Nat)
  | [], _, p => .ok p
  | b :: r, j, p =>
    match p[j / 8]? with
    | none => .ub
    | some x => readLoop r (j + 1) (p.set (j / 8) (x ||| (b.toNat <<< ((j % 8) <<< 3))))

/-- `mbedtls_mpi_read_binary`, bignum.c 609-627. -/
def readBinary (X : Mpi) (buf : Bytes) : Out Mpi := do
  let b := buf.dropWhile (· == 0)
  let X ← grow X (charsToLimbs b.length)
  let X ← lset X 0
  let p ← readLoop b.reverse 0 X.p
  pure { X with p := p }

/-- `mbedtls_mpi_write_binary`, bignum.c 632-647. -/
def writeBinary (X : Mpi) (buflen : Nat) : Out Bytes :=
  let n := size X
  if buflen < n then .err .tooSmall
  else if n > 8 * X.p.length then .ub
  else .ok (((List.range n).map fun j => UInt8.ofNat (X.p.getD (j / 8) 0 >>> ((j % 8) <<< 3))) ++ List.replicate (buflen - n) 0).reverse

/-- The loops of `mbedtls_mpi_shift_l`, bignum.c 671-692. -/
def shlLimbs (v0 : Nat) (p : List Nat) : List Nat := List.replicate (min v0 p.length) 0 ++ p.take (p.length - v0)

def shlBits (t : Nat) : Nat → List Nat → List Nat
  | _, [] => []
  | r0, x :: r => (((x <<< t) % W64) ||| r0) :: shlBits t (x >>> (64 - t)) r

def shlAll (v0 t1 : Nat) (p : List Nat) : List Nat :=
  let p := if v0 > 0 then shlLimbs v0 p else p
  if t1 > 0 then p.take v0 ++ shlBits t1 0 (p.drop v0) else p

/-- `mbedtls_mpi_shift_l`, bignum.c 652-697. -/
def shiftL (X : Mpi) (count : Nat) : Out Mpi := do
  let v0 := count / 64
  let t1 := count % 64
  let i := (bitlenL X + count) % W64
  let X ← growIf (X.p.length * 64 < i) X (bitsToLimbs i)
  pure { X with p := shlAll v0 t1 X.p }

/-- The second loop of `mbedtls_mpi_shift_r`, bignum.c 729-737, from the highest limb. -/
def shrBits (t : Nat) : Nat → List Nat → List Nat
  | _, [] => []
  | r0, x :: r => ((x >>> t) ||| r0) :: shrBits t ((x <<< (64 - t)) % W64) r

/-- `mbedtls_mpi_shift_r`, bignum.c 702-740. -/
def shiftR (X : Mpi) (count : Nat) : Out Mpi :=
  let v0 := count / 64
  let v1 := count % 64
  if v0 > X.p.length ∨ (v0 = X.p.length ∧ v1 > 0) then lset X 0
  else
    let p := if v0 > 0 then X.p.drop v0 ++ List.replicate v0 0 else X.p
    .ok { X with p := if v1 > 0 then (shrBits v1 0 p.reverse).reverse else p }

/-- The last loop of the comparisons, bignum.c 763-767, 795-799. -/
def cmpLoop : List Nat → List Nat → Int
  | x :: xs, y :: ys => if x > y then 1 else if x < y then -1 else cmpLoop xs ys
  | _, _ => 0

/-- `mbedtls_mpi_cmp_abs`, bignum.c 745-770. -/
def cmpAbs (X Y : Mpi) : Int :=
  let i := sig X.p
  let j := sig Y.p
  if i = 0 ∧ j = 0 then 0
  else if i > j then 1
  else if j > i then -1
  else cmpLoop (X.p.take i).reverse (Y.p.take j).reverse

/-- The field `s`. -/
def Mpi.s (X : Mpi) : Int := if X.neg then -1 else 1

/-- `mbedtls_mpi_cmp_mpi`, bignum.c 775-803. -/
def cmpMpi (X Y : Mpi) : Int :=
  let i := sig X.p
  let j := sig Y.p
  if i = 0 ∧ j = 0 then 0
  else if i > j then X.s
  else if j > i then -Y.s
  else if X.s > 0 ∧ Y.s < 0 then 1
  else if Y.s > 0 ∧ X.s < 0 then -1
  else X.s * cmpLoop (X.p.take i).reverse (Y.p.take j).reverse

/-- An integer of one limb on the stack. -/
def small (z : Int) : Mpi := ⟨decide (z < 0), [z.natAbs]⟩

/-- `mbedtls_mpi_cmp_int`, bignum.c 808-819. -/
def cmpInt (X : Mpi) (z : Int) : Int := cmpMpi X (small z)

/-- `while( c != 0 )` of `mbedtls_mpi_add_abs`, bignum.c 862-871; at the end of the array it grows by one limb. -/
def carryUp : Nat → List Nat → List Nat
  | 0, p => p
  | c + 1, [] => [c + 1]
  | c + 1, x :: r =>
    let y := (x + (c + 1)) % W64
    y :: carryUp (if y < c + 1 then 1 else 0) r

/-- The `for` loop of `mbedtls_mpi_add_abs`, bignum.c 855-860, followed by the `while` loop. -/
def addLoop : Nat → List Nat → List Nat → List Nat
  | c, [], p => carryUp c p
  | _, _ :: _, [] => []
  | c, o :: os, x :: xs =>
    let y := (x + c) % W64
    let c1 := if y < c then 1 else 0
    let z := (y + o) % W64
    z :: addLoop (c1 + if z < o then 1 else 0) os xs

/-- The exchange of the arguments, bignum.c 830-833. -/
def swapSelf (A B : Arg) : Arg × Arg :=
  match B with
  | .self => (.self, A)
  | .ext m => (A, .ext m)

/-- `mbedtls_mpi_add_abs`, bignum.c 824-875. -/
def addAbs (X : Mpi) (A B : Arg) : Out Mpi := do
  let AB := swapSelf A B
  let X ← copyArg X AB.1
  let X := { X with neg := false }
  let b := (AB.2.get X).p
  let j := sig b
  let X ← grow X j
  let p := addLoop 0 (b.take j) X.p
  if p.length > X.p.length ∧ p.length > maxLimbs then .err .alloc else pure { X with p := p }

/-- The `while` loop of `mpi_sub_hlp`, bignum.c 891-895. -/
def borrowUp : Nat → List Nat → Option (List Nat)
  | 0, d => some d
  | _ + 1, [] => none
  | c + 1, x :: r => do
    let z := if x < c + 1 then 1 else 0
    let r ← borrowUp z r
    pure ((x + W64 - (c + 1)) % W64 :: r)

/-- `mpi_sub_hlp`, bignum.c 880-896. -/
def subLoop : Nat → List Nat → List Nat → Option (List Nat)
  | c, [], d => borrowUp c d
  | _, _ :: _, [] => none
  | c, s :: ss, x :: xs => do
    let z := if x < c then 1 else 0
    let y := (x + W64 - c) % W64
    let r ← subLoop ((if y < s then 1 else 0) + z) ss xs
    pure ((y + W64 - s) % W64 :: r)

def subHlp (s d : List Nat) : Option (List Nat) := subLoop 0 s d

/-- `mbedtls_mpi_sub_abs`, bignum.c 901-939. -/
def subAbs (X : Mpi) (A B : Arg) : Out Mpi :=
  if cmpAbs (A.get X) (B.get X) < 0 then .err .negative
  else do
    let TB ← unalias X B
    let X ← copyArg X A
    let p ← orUb (subHlp (TB.p.take (sig TB.p)) X.p)
    pure ⟨false, p⟩

/-- `mbedtls_mpi_add_mpi`, bignum.c 944-970. -/
def addMpi (X : Mpi) (A B : Arg) : Out Mpi :=
  let s := (A.get X).neg
  if s ≠ (B.get X).neg then
    if cmpAbs (A.get X) (B.get X) ≥ 0 then do
      let X ← subAbs X A B
      pure { X with neg := s }
    else do
      let X ← subAbs X B A
      pure { X with neg := !s }
  else do
    let X ← addAbs X A B
    pure { X with neg := s }

/-- `mbedtls_mpi_sub_mpi`, bignum.c 975-1001. -/
def subMpi (X : Mpi) (A B : Arg) : Out Mpi :=
  let s := (A.get X).neg
  if s = (B.get X).neg then
    if cmpAbs (A.get X) (B.get X) ≥ 0 then do
      let X ← subAbs X A B
      pure { X with neg := s }
    else do
      let X ← subAbs X B A
      pure { X with neg := !s }
  else do
    let X ← addAbs X A B
    pure { X with neg := s }

/-- `mbedtls_mpi_add_int` and `mbedtls_mpi_sub_int`, bignum.c 1006-1035. -/
def addInt (X : Mpi) (A : Arg) (b : Int) : Out Mpi := addMpi X A (.ext (small b))
def subInt (X : Mpi) (A : Arg) (b : Int) : Out Mpi := subMpi X A (.ext (small b))

/-- `MULADDC_CORE` for x86-64, bn_mul.h 167-177: the limb and the next carry. -/
def muladdc (s b c d : Nat) : Nat × Nat :=
  let rax := s * b % W64
  let rdx := s * b / W64
  let rax1 := (rax + c) % W64
  let rdx1 := (rdx + (rax + c) / W64) % W64
  ((d + rax1) % W64, (rdx1 + (d + rax1) / W64) % W64)

/-- The loop at the end of `mpi_mul_hlp`, bignum.c 1103-1106. -/
def mulFinish : Nat → List Nat → Option (List Nat)
  | _, [] => none
  | c, x :: r =>
    let y := (x + c) % W64
    if y < c then do
      let r ← mulFinish 1 r
      pure (y :: r)
    else some (y :: r)

/-- `mpi_mul_hlp`, bignum.c 1046-1108 (the unrolled loops together). -/
def mulLoop (b : Nat) : Nat → List Nat → List Nat → Option (List Nat)
  | c, [], d => mulFinish c d
  | _, _ :: _, [] => none
  | c, s :: ss, x :: xs => do
    let m := muladdc s b c x
    let r ← mulLoop b m.2 ss xs
    pure (m.1 :: r)

def mulHlp (s d : List Nat) (b : Nat) : Option (List Nat) := mulLoop b 0 s d

/-- The loop of `mbedtls_mpi_mul_mpi`, bignum.c 1133-1134. -/
def mulRows (s b : List Nat) : Nat → List Nat → Option (List Nat)
  | 0, x => some x
  | j + 1, x => do
    let y ← mulHlp s (x.drop j) (b.getD j 0)
    mulRows s b j (x.take j ++ y)

/-- `mbedtls_mpi_mul_mpi`, bignum.c 1113-1143. -/
def mulMpi (X : Mpi) (A B : Arg) : Out Mpi := do
  let TA ← unalias X A
  let TB ← unalias X B
  let i := sig TA.p
  let j := sig TB.p
  let X ← grow X (i + j)
  let X ← lset X 0
  let p ← orUb (mulRows (TA.p.take i) TB.p j X.p)
  pure ⟨xor TA.neg TB.neg, p⟩

/-- `mbedtls_mpi_mul_int`, bignum.c 1148-1160. -/
def mulInt (X : Mpi) (A : Arg) (b : Nat) : Out Mpi := mulMpi X A (.ext ⟨false, [b]⟩)

end Verif.Bignum
