import Verif.Basic

/-!
# Pseudo-random generator: model of `src/prg.cpp` and `src/include/sse/crypto/prg.hpp`

The ChaCha20 block function is a parameter: `B k c i` is byte `i` (0..63) of block number `c` under key `k`, for the
all-zero nonce.  `crypto_stream_chacha20_xor_ic` (libsodium) is modelled as counter mode over `B` with a 64-bit
counter; this is the assumption made on libsodium.

A `Key` object is its content, `none` when it was moved from or erased.  Memory protection is modelled in `Verif/Key`.
Allocations are assumed to succeed.
-/

namespace Verif.Prg

open Verif

/-- `crypto_stream_chacha20_xor_ic(c, m, mlen, nonce, ic, k)`: byte `i` of the output is byte `i` of `m` xored with byte
`i mod 64` of block `ic + i/64`. -/
def xorIc (B : Bytes → Nat → Nat → UInt8) (k : Bytes) (ic : Nat) (m : Bytes) : Bytes :=
  m.mapIdx fun i b => b ^^^ B k ((ic + i / 64) % W64) (i % 64)

/-- `prg_derivation`, prg.cpp 44-104: the bytes stored to `out[0..len)`; `outNull` tells that `out == nullptr`.
`memset` gives zero buffers, `size_t` operations wrap.  A `memcpy` of more bytes than the 64-byte buffer or the output
hold is `ub`. -/
def prgDerivation (B : Bytes → Nat → Nat → UInt8) (key : Bytes) (offset len : Nat) (outNull : Bool) :
    Res Bytes :=
  if outNull then .exc .invalidArgument
  else if len = 0 then .ok []
  else
    let modOffset := offset % 64
    let blockOffset := offset / 64
    let maxBlockIndex := ((len + offset + (W64 - 1)) % W64) / 64 + 1
    let blockLen := (maxBlockIndex + W64 - blockOffset) % W64
    let out := List.replicate len (0 : UInt8)
    if offset % 64 = 0 then .ok (xorIc B key blockOffset out)
    else
      let buffer := List.replicate 64 (0 : UInt8)
      let prefixLen := 64 - modOffset
      -- (prefix length actually used, output after the inner blocks)
      let st : Res (Nat × Bytes) :=
        if blockLen > 1 then
          if len < prefixLen then .ub
          else .ok (prefixLen,
            out.take prefixLen ++ xorIc B key ((blockOffset + 1) % W64) (out.drop prefixLen))
        else .ok (len, out)
      st >>= fun p =>
        let buf := xorIc B key blockOffset buffer
        if modOffset + p.1 > 64 ∨ p.1 > len then .ub
        else .ok ((buf.drop modOffset).take p.1 ++ p.2.drop p.1)

/-- `Prg::derive(offset, len, unsigned char*)`, prg.cpp 126-138. `none` is a moved-from object. -/
def derive (B : Bytes → Nat → Nat → UInt8) (key : Option Bytes) (offset len : Nat) (outNull : Bool) : Res Bytes :=
  if len = 0 then .ok []
  else match key with
    | none => .exc .runtimeError
    | some k => prgDerivation B k offset len outNull

/-- `Prg::derive(offset, len, std::string&)` (prg.cpp 106-116) and the returning version (118-124): the buffer comes from
`new[]`, which never is null. -/
def deriveString (B : Bytes → Nat → Nat → UInt8) (key : Option Bytes) (offset len : Nat) : Res Bytes :=
  derive B key offset len false

/-- `Prg::derive(len, …)`, prg.hpp 112-129. -/
def deriveString0 (B : Bytes → Nat → Nat → UInt8) (key : Option Bytes) (len : Nat) : Res Bytes :=
  deriveString B key 0 len

/-- `static Prg::derive(Key&&, offset, len, unsigned char*)`, prg.cpp 151-167: result, and the caller's key afterwards. -/
def sDerive (B : Bytes → Nat → Nat → UInt8) (key : Option Bytes) (offset len : Nat) (outNull : Bool) :
    Res Bytes × Option Bytes :=
  match key with
  | none => (.exc .invalidArgument, none)
  | some k => (prgDerivation B k offset len outNull, none)

/-- `static Prg::derive(Key&&, offset, len, std::string&)` and the returning version, prg.cpp 169-201. -/
def sDeriveString (B : Bytes → Nat → Nat → UInt8) (key : Option Bytes) (offset len : Nat) : Res Bytes × Option Bytes :=
  sDerive B key offset len false

/-- `static Prg::derive(Key&&, len, std::string&)`, prg.cpp 140-149: the buffer is a `std::vector` of `len` bytes;
`data()` of an empty `std::vector` is a null pointer in libstdc++ and libc++. -/
def sDeriveString0 (B : Bytes → Nat → Nat → UInt8) (key : Option Bytes) (len : Nat) : Res Bytes × Option Bytes :=
  sDerive B key 0 len (decide (len = 0))

/-- The overflow test of prg.hpp 405-411 (`SIZE_MAX = W64 - 1`). -/
def tooLarge (K cnt : Nat) : Bool := decide (cnt > 0) && decide (K ≥ (W64 - 1) / cnt)

/-- `Prg::derive_key<K>`, prg.hpp 400-418. `key_offset * K` is computed in `size_t`. -/
def deriveKey (B : Bytes → Nat → Nat → UInt8) (K : Nat) (key : Option Bytes) (off : Nat) : Res Bytes :=
  if tooLarge K off then .exc .invalidArgument
  else derive B key ((off * K) % W64) K false

/-- `static Prg::derive_key<K>(Key&&, …)`, prg.hpp 420-438. -/
def sDeriveKey (B : Bytes → Nat → Nat → UInt8) (K : Nat) (key : Option Bytes) (off : Nat) : Res Bytes × Option Bytes :=
  if tooLarge K off then (.exc .invalidArgument, key)
  else sDerive B key ((off * K) % W64) K false

/-- Cutting the buffer into keys, prg.hpp 468-472: `Key<K>(key_buffer + i*K)` for `i < n`. -/
def cutKeys (K n : Nat) (buf : Bytes) : List Bytes :=
  (List.range n).map fun i => (buf.drop (i * K)).take K

/-- `Prg::derive_keys<K>`, prg.hpp 440-477. -/
def deriveKeys (B : Bytes → Nat → Nat → UInt8) (K : Nat) (key : Option Bytes) (n off : Nat) : Res (List Bytes) :=
  if tooLarge K n then .exc .invalidArgument
  else if tooLarge K off then .exc .invalidArgument
  else if n = 0 then .ok []
  else (cutKeys K n) <$> derive B key ((off * K) % W64) ((n * K) % W64) false

/-- `static Prg::derive_keys<K>(Key&&, …)`, prg.hpp 480-521. -/
def sDeriveKeys (B : Bytes → Nat → Nat → UInt8) (K : Nat) (key : Option Bytes) (n off : Nat) :
    Res (List Bytes) × Option Bytes :=
  if key = none then (.exc .invalidArgument, key)
  else if n = 0 then (.ok [], key)
  else if tooLarge K n then (.exc .invalidArgument, key)
  else if tooLarge K off then (.exc .invalidArgument, key)
  else
    let r := sDerive B key ((off * K) % W64) ((n * K) % W64) false
    ((cutKeys K n) <$> r.1, r.2)

/-- `Prg::duplicate`, prg.cpp 203-211: the key of the copy. -/
def duplicate (key : Option Bytes) : Res Bytes :=
  match key with
  | none => .exc .runtimeError
  | some k => .ok k

end Verif.Prg
