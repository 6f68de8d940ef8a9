import Verif.Basic

/-!
# Model of `src/mbedtls/base64.c`

Reads and writes are explicit: `rd` and `put` are undefined behaviour outside the buffers.
The `int` arithmetic on bytes is done on natural numbers (all values are below 2^24).
-/

namespace Verif.Io

open Verif

/-- `base64_enc_map`, base64.c 43-52. -/
def encMap : List UInt8 :=
  [0x41, 0x42, 0x43, 0x44, 0x45, 0x46, 0x47, 0x48, 0x49, 0x4a,
   0x4b, 0x4c, 0x4d, 0x4e, 0x4f, 0x50, 0x51, 0x52, 0x53, 0x54,
   0x55, 0x56, 0x57, 0x58, 0x59, 0x5a, 0x61, 0x62, 0x63, 0x64,
   0x65, 0x66, 0x67, 0x68, 0x69, 0x6a, 0x6b, 0x6c, 0x6d, 0x6e,
   0x6f, 0x70, 0x71, 0x72, 0x73, 0x74, 0x75, 0x76, 0x77, 0x78,
   0x79, 0x7a, 0x30, 0x31, 0x32, 0x33, 0x34, 0x35, 0x36, 0x37,
   0x38, 0x39, 0x2b, 0x2f]

/-- `base64_dec_map`, base64.c 54-69. -/
def decMap : List Nat :=
  [127, 127, 127, 127, 127, 127, 127, 127, 127, 127,
   127, 127, 127, 127, 127, 127, 127, 127, 127, 127,
   127, 127, 127, 127, 127, 127, 127, 127, 127, 127,
   127, 127, 127, 127, 127, 127, 127, 127, 127, 127,
   127, 127, 127,  62, 127, 127, 127,  63,  52,  53,
    54,  55,  56,  57,  58,  59,  60,  61, 127, 127,
   127,  64, 127, 127, 127,   0,   1,   2,   3,   4,
     5,   6,   7,   8,   9,  10,  11,  12,  13,  14,
    15,  16,  17,  18,  19,  20,  21,  22,  23,  24,
    25, 127, 127, 127, 127, 127, 127,  26,  27,  28,
    29,  30,  31,  32,  33,  34,  35,  36,  37,  38,
    39,  40,  41,  42,  43,  44,  45,  46,  47,  48,
    49,  50,  51, 127, 127, 127, 127, 127]

/-- Read element `i` of an array. -/
def rd {α : Type} (a : List α) (i : Nat) : Res α :=
  match a[i]? with
  | some x => .ok x
  | none => .ub

/-- `*p++ = b` in a buffer of `cap` bytes of which `out` have been written. -/
def put (cap : Nat) (out : Bytes) (b : UInt8) : Res Bytes := if out.length < cap then .ok (out ++ [b]) else .ub

/-- `*p++ = base64_enc_map[v]`. -/
def putEnc (cap : Nat) (out : Bytes) (v : Nat) : Res Bytes := rd encMap v >>= put cap out

/-- What `mbedtls_base64_encode`/`decode` return: success with the bytes stored from the beginning of `dst` and `*olen`,
or an error, with `*olen`. -/
inductive B64 where
  | ok (out : Bytes) (olen : Nat)
  | tooSmall (olen : Nat)
  | invalidChar
  deriving DecidableEq, Repr

/-- The main loop of the encoder, base64.c 108-118: `k` more groups, the next one at `i`. -/
def encGroups (cap : Nat) (src : Bytes) : Nat → Nat → Bytes → Res Bytes
  | 0, _, out => .ok out
  | k + 1, i, out => do
    let c1 ← rd src i
    let c2 ← rd src (i + 1)
    let c3 ← rd src (i + 2)
    let out ← putEnc cap out ((c1.toNat >>> 2) &&& 0x3F)
    let out ← putEnc cap out ((((c1.toNat &&& 3) <<< 4) + (c2.toNat >>> 4)) &&& 0x3F)
    let out ← putEnc cap out ((((c2.toNat &&& 15) <<< 2) + (c3.toNat >>> 6)) &&& 0x3F)
    let out ← putEnc cap out (c3.toNat &&& 0x3F)
    encGroups cap src k (i + 3) out

/-- The second byte of an incomplete group, base64.c 123. -/
def tailByte (src : Bytes) (i : Nat) : Res UInt8 := if i + 1 < src.length then rd src (i + 1) else .ok 0

/-- The third character of an incomplete group, base64.c 128-130. -/
def tailThird (cap : Nat) (src : Bytes) (i : Nat) (c2 : UInt8) (out : Bytes) : Res Bytes :=
  if i + 1 < src.length then putEnc cap out (((c2.toNat &&& 15) <<< 2) &&& 0x3F) else put cap out 0x3d

/-- The incomplete group at the end, base64.c 120-133. -/
def encTail (cap : Nat) (src : Bytes) (i : Nat) (out : Bytes) : Res Bytes :=
  if i < src.length then do
    let c1 ← rd src i
    let c2 ← tailByte src i
    let out ← putEnc cap out ((c1.toNat >>> 2) &&& 0x3F)
    let out ← putEnc cap out ((((c1.toNat &&& 3) <<< 4) + (c2.toNat >>> 4)) &&& 0x3F)
    let out ← tailThird cap src i c2 out
    put cap out 0x3d
  else .ok out

/-- `mbedtls_base64_encode`, base64.c 76-142: `dst` is `none` for a null pointer and `some dlen` otherwise. -/
def encode (dst : Option Nat) (src : Bytes) : Res B64 :=
  if src.length = 0 then .ok (.ok [] 0)
  else
    let n := src.length / 3 + (if src.length % 3 ≠ 0 then 1 else 0)
    if n > (W64 - 1 - 1) / 4 then .ok (.tooSmall (W64 - 1))
    else
      let n := n * 4
      match dst with
      | none => .ok (.tooSmall (n + 1))
      | some dlen =>
        if dlen < n + 1 then .ok (.tooSmall (n + 1))
        else do
          let out ← encGroups dlen src (src.length / 3) 0 []
          let out ← encTail dlen src (src.length / 3 * 3) out
          let res ← put dlen out 0
          pure (.ok res out.length)

/-- The first pass of the decoder, base64.c 155-193, on the bytes from position `i` on: `x` counts the spaces of the current
iteration (`uint32_t`), `n` the characters and `j` the `=` signs. `none` is MBEDTLS_ERR_BASE64_INVALID_CHARACTER. -/
def scan : Nat → Bytes → Nat → Nat → Option (Nat × Nat)
  | _, [], n, j => some (n, j)
  | x, c :: rest, n, j =>
    if c = 0x20 then scan ((x + 1) % 4294967296) rest n j
    else if c = 0x0d ∧ rest.head? = some 0x0a then scan 0 rest n j
    else if c = 0x0a then scan 0 rest n j
    else if x ≠ 0 then none
    else
      let j := if c = 0x3d then j + 1 else j
      if c = 0x3d ∧ j > 2 then none
      else if c.toNat > 127 ∨ decMap[c.toNat]? = some 127 then none
      else if (∃ d, decMap[c.toNat]? = some d ∧ d < 64) ∧ j ≠ 0 then none
      else scan 0 rest (n + 1) j

/-- `if (c) *p++ = b`. -/
def putIf (c : Bool) (cap : Nat) (out : Bytes) (b : UInt8) : Res Bytes := if c then put cap out b else .ok out

/-- Storing the bytes of a complete group, base64.c 222-226. -/
def emitGroup (cap j x : Nat) (out : Bytes) : Res Bytes := do
  let out ← putIf (j > 0) cap out (UInt8.ofNat (x >>> 16))
  let out ← putIf (j > 1) cap out (UInt8.ofNat (x >>> 8))
  putIf (j > 2) cap out (UInt8.ofNat x)

/-- The second pass of the decoder, base64.c 213-227. -/
def emit (cap : Nat) : Bytes → Nat → Nat → Nat → Bytes → Res Bytes
  | [], _, _, _, out => .ok out
  | c :: rest, j, n, x, out =>
    if c = 0x0d ∨ c = 0x0a ∨ c = 0x20 then emit cap rest j n x out
    else do
      let d ← rd decMap c.toNat
      let j := (j + 4294967296 - (if d = 64 then 1 else 0)) % 4294967296
      let x := ((x <<< 6) % 4294967296) ||| (d &&& 0x3F)
      if n + 1 = 4 then do
        let out ← emitGroup cap j x out
        emit cap rest j 0 x out
      else emit cap rest j (n + 1) x out

/-- `mbedtls_base64_decode`, base64.c 147-235. -/
def decode (dst : Option Nat) (src : Bytes) : Res B64 :=
  match scan 0 src 0 0 with
  | none => .ok .invalidChar
  | some (n, j) =>
    if n = 0 then .ok (.ok [] 0)
    else
      let n := (6 * (n >>> 3) + ((6 * (n &&& 0x7) + 7) >>> 3) + W64 - j) % W64
      match dst with
      | none => .ok (.tooSmall n)
      | some dlen =>
        if dlen < n then .ok (.tooSmall n)
        else do
          let out ← emit dlen src 3 0 0 []
          pure (.ok out out.length)

end Verif.Io
