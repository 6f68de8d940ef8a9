import Verif.Io.Base64

/-!
# Model of `src/mbedtls/pem.c`

`strstr` is the C library function: it is modelled by its specification on the bytes before the first zero byte, and is undefined behaviour
if there is none.  `calloc` is assumed to succeed (also for size 0).
-/

namespace Verif.Io

open Verif

/-- The bytes before the first zero byte. -/
def cstr : Bytes → Bytes
  | [] => []
  | c :: r => if c = 0 then [] else c :: cstr r

/-- The position of the first occurrence. -/
def findFirst (pat : Bytes) : Bytes → Option Nat
  | [] => if pat = [] then some 0 else none
  | c :: r => if pat <+: c :: r then some 0 else (findFirst pat r).map (· + 1)

/-- The C library function `strstr`. -/
def strstr (data pat : Bytes) : Res (Option Nat) := if (0 : UInt8) ∈ data then .ok (findFirst pat (cstr data)) else .ub

/-- `if (*p == c) p++`. -/
def skipIf (data : Bytes) (p : Nat) (c : UInt8) : Res Nat := do
  let b ← rd data p
  pure (if b = c then p + 1 else p)

/-- The bytes from position `a` to position `b`. -/
def slice (data : Bytes) (a b : Nat) : Bytes := (data.take b).drop a

/-- What `mbedtls_pem_read_buffer` returns: the decoded buffer and `*use_len`, or an error. -/
inductive PemR where
  | ok (buf : Bytes) (useLen : Nat)
  | noHeader
  | encrypted
  | invalidData
  deriving DecidableEq, Repr

/-- `"Proc-Type: 4,ENCRYPTED"`, pem.c 97. -/
def procType : Bytes := "Proc-Type: 4,ENCRYPTED".toUTF8.toList

/-- The decoding step, pem.c 102-121: `body` is the text between header and footer. -/
def pemDecode (body : Bytes) (useLen : Nat) : Res PemR := do
  let size ← decode none body
  match size with
  | .invalidChar => .ok .invalidData
  | .ok _ len | .tooSmall len => do
    let r ← decode (some len) body
    match r with
    | .ok out _ => .ok (.ok out useLen)
    | _ => .ok .invalidData

/-- The part after header and footer were found at `s1` and `s2`, pem.c 83-101. -/
def pemBody (header footer data : Bytes) (s1 s2 : Nat) : Res PemR := do
  let s1 ← skipIf data (s1 + header.length) 0x20
  let s1 ← skipIf data s1 0x0d
  let c ← rd data s1
  if c ≠ 0x0a then .ok .noHeader
  else do
    let s1 := s1 + 1
    let e ← skipIf data (s2 + footer.length) 0x20
    let e ← skipIf data e 0x0d
    let e ← skipIf data e 0x0a
    if s1 + 22 ≤ s2 ∧ slice data s1 (s1 + 22) = procType then .ok .encrypted
    else if s2 ≤ s1 then .ok .invalidData
    else pemDecode (slice data s1 s2) e

/-- `mbedtls_pem_read_buffer`, pem.c 58-122. -/
def pemRead (header footer data : Bytes) : Res PemR := do
  let s1 ← strstr data header
  match s1 with
  | none => .ok .noHeader
  | some s1 => do
    let s2 ← strstr data footer
    match s2 with
    | none => .ok .noHeader
    | some s2 => if s2 ≤ s1 then .ok .noHeader else pemBody header footer data s1 s2

/-- `memcpy(p, c, len); p += len` into a buffer of `cap` bytes. -/
def blit (cap : Nat) (out : Bytes) (b : Bytes) : Res Bytes := if out.length + b.length ≤ cap then .ok (out ++ b) else .ub

/-- The loop that writes the lines, pem.c 162-171; `c` holds the characters left. -/
def pemLines (cap : Nat) (c out : Bytes) : Res Bytes :=
  if h : c.length = 0 then .ok out
  else do
    let len := if c.length > 64 then 64 else c.length
    let out ← blit cap out (c.take len)
    let out ← put cap out 0x0a
    pemLines cap (c.drop len) out
  termination_by c.length
  decreasing_by rw [List.length_drop]; split <;> omega

/-- The `*olen` of a call of the encoder. -/
def B64.olen : B64 → Nat
  | .ok _ n => n
  | .tooSmall n => n
  | .invalidChar => 0

/-- `mbedtls_pem_write_buffer` after the sizing call, pem.c 143-183. -/
def pemFill (header footer der : Bytes) (bufLen useLen : Nat) : Res (Option Bytes) :=
  let addLen := header.length + footer.length + useLen / 64 + 1
  if (useLen + addLen) % W64 > bufLen then .ok none
  else do
    let r ← encode (some useLen) der
    match r with
    | .ok text len => do
      let out ← blit bufLen [] header
      let out ← pemLines bufLen (text.take len) out
      let out ← blit bufLen out footer
      let out ← put bufLen out 0
      pure (some out)
    | _ => .ok none

/-- `mbedtls_pem_write_buffer`, pem.c 134-183, into a buffer of `bufLen` bytes: the bytes stored, or `none` if it is too small. -/
def pemWrite (header footer der : Bytes) (bufLen : Nat) : Res (Option Bytes) := do
  let size ← encode none der
  pemFill header footer der bufLen size.olen

end Verif.Io
