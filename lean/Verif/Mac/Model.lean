import Verif.Basic

/-!
# Hash wrappers, HMAC and PRF: model of `src/hash.cpp`, `hmac.hpp`, `prf.hpp`

The hash function is a parameter `H : Bytes → Bytes`; the theorems assume that it returns 64 bytes
(`crypto_generichash_blake2b` with a 64-byte output, or SHA-512).  A null pointer is `none`.
A `Key` is its content, `none` when it was moved from (memory locking enabled: reading it throws).
Uninitialised memory (`new uint8_t[n]`, local arrays) holds arbitrary bytes `junk`.
-/

namespace Verif.Mac

open Verif

/-! ## Hash -/

/-- `Hash::hash(in, len, out)`, hash.cpp 36-54. -/
def hashBuf (H : Bytes → Bytes) (inp : Option Bytes) (outNull : Bool) : Res Bytes :=
  match inp with
  | none => .exc .invalidArgument
  | some m => if outNull then .exc .invalidArgument else .ok (H m)

/-- `Hash::hash(in, len, out_len, out)`, hash.cpp 56-80: what is stored to `out`. -/
def hashTrunc (H : Bytes → Bytes) (inp : Option Bytes) (outLen : Nat) (outNull : Bool) : Res Bytes :=
  if outLen > 64 then .exc .invalidArgument
  else match inp with
    | none => .exc .invalidArgument
    | some m =>
      if outNull then .exc .invalidArgument
      else (fun d => d.take outLen) <$> hashBuf H (some m) false

/-- `Hash::hash(const std::string&, std::string&)` and the returning version, hash.cpp 82-90 and 109-114. -/
def hashString (H : Bytes → Bytes) (s : Bytes) : Res Bytes :=
  (fun d => d.take 64) <$> hashBuf H (some s) false

/-- `Hash::hash(const std::string&, out_len, std::string&)` and the returning version, hash.cpp 92-107, 116-121. -/
def hashStringTrunc (H : Bytes → Bytes) (s : Bytes) (outLen : Nat) : Res Bytes :=
  if outLen > 64 then .exc .invalidArgument
  else (fun d => d.take outLen) <$> hashBuf H (some s) false

/-! ## Memory helpers -/

/-- `memcpy(buf + pos, src, |src|)`: out of bounds is `ub`. -/
def putAt (buf : Bytes) (pos : Nat) (src : Bytes) : Res Bytes :=
  if pos + src.length > buf.length then .ub
  else .ok (buf.take pos ++ src ++ buf.drop (pos + src.length))

/-- `for (i = 0; i < cnt; ++i) buf[i] ^= c`. -/
def xorFirst (cnt : Nat) (c : UInt8) (buf : Bytes) : Res Bytes :=
  if cnt > buf.length then .ub
  else .ok ((buf.take cnt).map (· ^^^ c) ++ buf.drop cnt)

/-- Uninitialised memory of `n` bytes. -/
def rawBuf (junk : Nat → UInt8) (n : Nat) : Bytes := (List.range n).map junk

/-! ## HMAC -/

/-- `kHMACKeySize = H::kBlockSize`, hmac.hpp 65-67 (Blake2b and SHA-512: 128). -/
def blockSize : Nat := 128
/-- `kDigestSize`. -/
def digestSize : Nat := 64

/-- `if (N < kHMACKeySize) memset(buf + N, 0, kHMACKeySize - N)`, hmac.hpp 210-213 and 226-229. -/
def zeroTail (N : Nat) (buf : Bytes) : Res Bytes :=
  if N < blockSize then putAt buf N (List.replicate (blockSize - N) 0) else .ok buf

/-- `HMac<H,N>::hmac(in, length, out, out_len)`, hmac.hpp 177-249: the bytes stored to `out`. -/
def hmac (H : Bytes → Bytes) (junk : Nat → UInt8) (N : Nat) (key : Option Bytes) (inp : Option Bytes)
    (outNull : Bool) (outLen : Nat) : Res Bytes :=
  if outLen > digestSize then .exc .invalidArgument
  else match inp with
    | none => .exc .invalidArgument
    | some m =>
      if outNull then .exc .invalidArgument
      else match key with
        | none => .exc .runtimeError
        | some k => do
          let iLen := blockSize + m.length
          let bufferLen := if iLen > digestSize then iLen else digestSize
          let b1 ← putAt (rawBuf junk bufferLen) 0 k
          let b2 ← zeroTail N b1
          let b3 ← xorFirst blockSize 0x36 b2
          let b4 ← putAt b3 blockSize m
          let b5 ← putAt b4 0 (H (b4.take iLen))
          let t1 ← putAt (rawBuf junk (blockSize + digestSize)) 0 k
          let t2 ← zeroTail N t1
          let t3 ← xorFirst blockSize 0x5c t2
          let t4 ← putAt t3 blockSize (b5.take digestSize)
          let b6 ← putAt b5 0 (H (t4.take (blockSize + digestSize)))
          .ok (b6.take outLen)

/-- The array-returning version, hmac.hpp 251-259. -/
def hmacArray (H : Bytes → Bytes) (junk : Nat → UInt8) (N : Nat) (key : Option Bytes) (inp : Option Bytes) : Res Bytes :=
  hmac H junk N key inp false digestSize

/-- The string version, hmac.hpp 261-266. -/
def hmacString (H : Bytes → Bytes) (junk : Nat → UInt8) (N : Nat) (key : Option Bytes) (s : Bytes) : Res Bytes :=
  hmacArray H junk N key (some s)

/-! ## PRF -/

/-- The counter-mode loop of `Prf<NBYTES>::prf`, prf.hpp 276-295: `pos` is a `uint16_t`, `i` a `uint8_t`.  `fuel` bounds the number of
tests of the loop condition; `none` means that the loop has not ended by then. -/
def prfLoop (H : Bytes → Bytes) (junk : Nat → UInt8) (key : Option Bytes) (m : Bytes) (nb : Nat) :
    Nat → Nat → Nat → Bytes → Option (Res Bytes)
  | 0, _, _, _ => none
  | fuel + 1, pos, i, result =>
    if pos < nb then
      let tmp := m ++ [UInt8.ofNat i]
      let want := if nb - pos ≥ digestSize then digestSize else nb - pos
      match (hmac H junk 32 key (some tmp) false want >>= fun d => putAt result pos d) with
      | .ok r => prfLoop H junk key m nb fuel ((pos + digestSize) % 65536) ((i + 1) % 256) r
      | e => some e
    else some (.ok result)

/-- `Prf<NBYTES>::prf(in, length)`, prf.hpp 260-305. -/
def prf (H : Bytes → Bytes) (junk : Nat → UInt8) (key : Option Bytes) (nb fuel : Nat) (inp : Option Bytes) :
    Option (Res Bytes) :=
  match inp with
  | none => some (.exc .invalidArgument)
  | some m =>
    if nb > digestSize then prfLoop H junk key m nb fuel 0 0 (rawBuf junk nb)
    else some (hmac H junk 32 key (some m) false nb)

/-- `Prf<NBYTES>::prf(const std::string&)` and the array version, prf.hpp 308-320. -/
def prfString (H : Bytes → Bytes) (junk : Nat → UInt8) (key : Option Bytes) (nb fuel : Nat) (s : Bytes) :
    Option (Res Bytes) :=
  prf H junk key nb fuel (some s)

/-- `Prf<NBYTES>::derive_key`, prf.hpp 324-342: `Key<NBYTES>(prf(in).data())`, the content of the key. -/
def deriveKey (H : Bytes → Bytes) (junk : Nat → UInt8) (key : Option Bytes) (nb fuel : Nat) (inp : Option Bytes) :
    Option (Res Bytes) :=
  (prf H junk key nb fuel inp).map fun r => (fun d => d.take nb) <$> r

end Verif.Mac
