import Verif.Io.Pem
import Verif.Tdp.Model

/-!
# Model of `src/mbedtls/asn1write.c` and `src/mbedtls/asn1parse.c`

A negative return code is `.exc .runtimeError`.

The writer fills a buffer from its end: `avail` is the number of free bytes before the cursor, `out` holds the bytes from the cursor to the
end of the buffer.  Pushing a byte without free space and reading a byte that was not written are undefined behaviour.

The parser works on the bytes between the cursor and `end`; reading beyond them is undefined behaviour (also where the enclosing
buffer is larger, so that the model is stricter than C).
-/

namespace Verif.Io

open Verif Verif.Tdp

/-- A negative return code. -/
def err {α : Type} : Res α := .exc .runtimeError

/-! ## Writing -/

/-- The writer: `*p - start` and the bytes from `*p` to the end of the buffer. -/
structure Wr where
  avail : Nat
  out : Bytes

/-- `*--(*p) = b`. -/
def push (w : Wr) (b : UInt8) : Res Wr := if w.avail = 0 then .ub else .ok ⟨w.avail - 1, b :: w.out⟩

/-- Pushing bytes in order. -/
def pushAll (w : Wr) : Bytes → Res Wr
  | [] => .ok w
  | b :: r => do
    let w ← push w b
    pushAll w r

/-- `mbedtls_asn1_write_len`, asn1write.c 46-104. -/
def writeLen (w : Wr) (len : Nat) : Res (Wr × Nat) :=
  if len < 0x80 then
    if w.avail < 1 then err
    else (fun w => (w, 1)) <$> pushAll w [UInt8.ofNat len]
  else if len ≤ 0xFF then
    if w.avail < 2 then err
    else (fun w => (w, 2)) <$> pushAll w [UInt8.ofNat len, 0x81]
  else if len ≤ 0xFFFF then
    if w.avail < 3 then err
    else (fun w => (w, 3)) <$> pushAll w [UInt8.ofNat (len &&& 0xFF), UInt8.ofNat ((len >>> 8) &&& 0xFF), 0x82]
  else if len ≤ 0xFFFFFF then
    if w.avail < 4 then err
    else (fun w => (w, 4)) <$> pushAll w [UInt8.ofNat (len &&& 0xFF), UInt8.ofNat ((len >>> 8) &&& 0xFF), UInt8.ofNat ((len >>> 16) &&& 0xFF), 0x83]
  else if len ≤ 0xFFFFFFFF then
    if w.avail < 5 then err
    else (fun w => (w, 5)) <$> pushAll w [UInt8.ofNat (len &&& 0xFF), UInt8.ofNat ((len >>> 8) &&& 0xFF), UInt8.ofNat ((len >>> 16) &&& 0xFF),
      UInt8.ofNat ((len >>> 24) &&& 0xFF), 0x84]
  else err

/-- `mbedtls_asn1_write_tag`, asn1write.c 106-114. -/
def writeTag (w : Wr) (tag : UInt8) : Res (Wr × Nat) :=
  if w.avail < 1 then err else (fun w => (w, 1)) <$> push w tag

/-- `MBEDTLS_ASN1_CHK_ADD`, asn1write.h 36-42: `len += ret`. -/
def chkAdd (a : Wr × Nat) (f : Wr → Res (Wr × Nat)) : Res (Wr × Nat) := do
  let r ← f a.1
  pure (r.1, a.2 + r.2)

/-- Storing `b` below the cursor (`*p -= len` and a copy), for a size that has been checked. -/
def pushBlock (w : Wr) (b : Bytes) : Res Wr := if w.avail < b.length then .ub else .ok ⟨w.avail - b.length, b ++ w.out⟩

/-- `mbedtls_asn1_write_raw_buffer`, asn1write.c 116-129. -/
def writeRaw (w : Wr) (buf : Bytes) : Res (Wr × Nat) :=
  if w.avail < buf.length then err else (fun w => (w, buf.length)) <$> pushBlock w buf

/-- Length and tag after the content, as all the writers do. -/
def writeHeader (a : Wr × Nat) (tag : UInt8) : Res (Wr × Nat) := do
  let a ← chkAdd a fun w => writeLen w a.2
  chkAdd a fun w => writeTag w tag

/-- The sign byte of an INTEGER, asn1write.c 150-157 (`c` is the condition on the number): reads `**p`. -/
def writeSign (c : Bool) (a : Wr × Nat) : Res (Wr × Nat) :=
  if c then do
    let b ← rd a.1.out 0
    if b.toNat &&& 0x80 ≠ 0 then
      if a.1.avail < 1 then err else (fun w => (w, a.2 + 1)) <$> push a.1 0x00
    else .ok a
  else .ok a

/-- `mbedtls_asn1_write_mpi`, asn1write.c 132-166, for a non-negative number. -/
def writeMpi (w : Wr) (x : Nat) : Res (Wr × Nat) :=
  let len := mpiSize x
  if w.avail < len then err
  else do
    let b ← orThrow .runtimeError (mpiWrite x len)
    let w ← pushBlock w b
    let a ← writeSign true (w, len)
    writeHeader a 0x02

/-- `mbedtls_asn1_write_null`, asn1write.c 169-180. -/
def writeNull (w : Wr) : Res (Wr × Nat) := do
  let a ← chkAdd (w, 0) fun w => writeLen w 0
  chkAdd a fun w => writeTag w 0x05

/-- `mbedtls_asn1_write_oid`, asn1write.c 182-194. -/
def writeOid (w : Wr) (oid : Bytes) : Res (Wr × Nat) := do
  let a ← chkAdd (w, 0) fun w => writeRaw w oid
  writeHeader a 0x06

/-- `mbedtls_asn1_write_algorithm_identifier` with `par_len = 0`, asn1write.c 196-215. -/
def writeAlg (w : Wr) (oid : Bytes) : Res (Wr × Nat) := do
  let a ← chkAdd (w, 0) writeNull
  let a ← chkAdd a fun w => writeOid w oid
  writeHeader a 0x30

/-- `mbedtls_asn1_write_int`, asn1write.c 234-266, for a non-negative value. -/
def writeInt (w : Wr) (val : Nat) : Res (Wr × Nat) :=
  if w.avail < 1 then err
  else do
    let w ← push w (UInt8.ofNat val)
    let a ← writeSign (val > 0) (w, 1)
    writeHeader a 0x02

/-! ## Parsing -/

/-- The first `n` bytes, which are read. -/
def takeN (r : Bytes) (n : Nat) : Res Bytes := if r.length < n then .ub else .ok (r.take n)

/-- The length in the long form: `k` bytes, asn1parse.c 66-100. -/
def longLen (r : Bytes) (k : Nat) : Res (Nat × Bytes) :=
  if r.length < k + 1 then err
  else do
    let b ← takeN (r.drop 1) k
    pure (b.foldl (fun acc c => (acc <<< 8) ||| c.toNat) 0, r.drop (k + 1))

/-- The check at the end of `mbedtls_asn1_get_len`, asn1parse.c 106-107. -/
def checkLen (a : Nat × Bytes) : Res (Nat × Bytes) := if a.1 > a.2.length then err else .ok a

/-- The decoding part of `mbedtls_asn1_get_len`, asn1parse.c 58-104. -/
def lenField (r : Bytes) : Res (Nat × Bytes) :=
  if r.length < 1 then err
  else do
    let c ← rd r 0
    if c.toNat &&& 0x80 = 0 then .ok (c.toNat, r.drop 1)
    else match c.toNat &&& 0x7F with
      | 1 => longLen r 1
      | 2 => longLen r 2
      | 3 => longLen r 3
      | 4 => longLen r 4
      | _ => err

/-- `mbedtls_asn1_get_len`, asn1parse.c 54-110: the length and the bytes after it. -/
def getLen (r : Bytes) : Res (Nat × Bytes) := do
  let a ← lenField r
  checkLen a

/-- `mbedtls_asn1_get_tag`, asn1parse.c 112-125. -/
def getTag (r : Bytes) (tag : UInt8) : Res (Nat × Bytes) :=
  if r.length < 1 then err
  else do
    let c ← rd r 0
    if c ≠ tag then err else getLen (r.drop 1)

/-- `mbedtls_asn1_get_int`, asn1parse.c 146-168. -/
def getInt (r : Bytes) : Res (Nat × Bytes) := do
  let a ← getTag r 0x02
  if a.1 = 0 ∨ a.1 > 4 then err
  else do
    let c ← rd a.2 0
    if c.toNat &&& 0x80 ≠ 0 then err
    else do
      let b ← takeN a.2 a.1
      pure (b.foldl (fun acc c => (acc <<< 8) ||| c.toNat) 0, a.2.drop a.1)

/-- `mbedtls_mpi_read_binary`, bignum.c 609-627: fails for more than 10000 limbs (leading zeros do not count). -/
def mpiRead (b : Bytes) : Option Nat :=
  let n := (b.dropWhile (· = 0)).length
  if n / 8 + (if n % 8 ≠ 0 then 1 else 0) > 10000 then none else some (beNat b)

/-- `mbedtls_asn1_get_mpi`, asn1parse.c 171-186. -/
def getMpi (r : Bytes) : Res (Nat × Bytes) := do
  let a ← getTag r 0x02
  let b ← takeN a.2 a.1
  let x ← orThrow .runtimeError (mpiRead b)
  pure (x, a.2.drop a.1)

/-- `mbedtls_asn1_get_bitstring_null`, asn1parse.c 222-234. -/
def getBits (r : Bytes) : Res (Nat × Bytes) := do
  let a ← getTag r 0x03
  if a.1 < 2 then err
  else do
    let c ← rd a.2 0
    if c ≠ 0 then err else .ok (a.1 - 1, a.2.drop 1)

/-- What `mbedtls_asn1_get_alg` returns: the identifier, tag and length of the parameters (zero if there are none). -/
structure Alg where
  oid : Bytes
  ptag : UInt8
  plen : Nat

/-- The parameters, asn1parse.c 313-330, of the bytes `r` after the identifier. -/
def getParams (oid r after : Bytes) : Res (Alg × Bytes) :=
  if r = [] then .ok (⟨oid, 0, 0⟩, after)
  else do
    let t ← rd r 0
    let a ← getLen (r.drop 1)
    if a.2.drop a.1 ≠ [] then err else .ok (⟨oid, t, a.1⟩, after)

/-- `mbedtls_asn1_get_alg`, asn1parse.c 291-333. -/
def getAlg (r : Bytes) : Res (Alg × Bytes) := do
  let a ← getTag r 0x30
  if a.2.length < 1 then err
  else do
    let _ ← rd a.2 0
    let o ← getTag (a.2.take a.1) 0x06
    let oid ← takeN o.2 o.1
    getParams oid (o.2.drop o.1) (a.2.drop a.1)

end Verif.Io
