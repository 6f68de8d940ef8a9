import Verif.Scrub.Basic
import Verif.Mac.Model
import Verif.Prg.Model
import Verif.Cipher.Model
import Verif.Aez.Model
import Verif.Tdp.Model
import Verif.Ppke.Model

/-!
# The temporary buffers of the library

The functions of `hash.cpp`, `hmac.hpp`, `prf.hpp`, `prg.cpp`, `prg.hpp`, `cipher.cpp`, `prp.cpp`, `random.hpp`, `rcprf.hpp`,
`tdp_impl_mbedtls.cpp`, `relic_api.cpp` and `GMPpke.hpp` which have temporary buffers, as programs over the contents of these buffers.

Not modelled here: what the primitives of libsodium, mbedTLS and RELIC leave themselves, registers and spilled registers, and the copies
inside `std::string` (a temporary string of at most 15 characters is kept in the object itself, a longer one is moved from).
A `Key` erases its own memory (`Verif.Key`).
-/

namespace Verif.Scrub

open Verif Verif.Mac

/-! ## `Hash` -/

/-- `Hash::hash(in, len, out_len, out)`, hash.cpp 56-80: the buffer is `digest`. -/
def hashTrunc (H : Bytes → Bytes) (junk : Nat → UInt8) (inp : Option Bytes) (outLen : Nat) (outNull : Bool) : Out Bytes :=
  if outLen > 64 then ⟨[], .exc .invalidArgument⟩
  else match inp with
    | none => ⟨[], .exc .invalidArgument⟩
    | some m =>
      if outNull then ⟨[], .exc .invalidArgument⟩
      else Z.run (rawBuf junk 64) (fun s _ => [s]) do
        let d ← Z.lift (hashBuf H (some m) false)
        Z.upd fun s => putAt s 0 d
        let s ← Z.get
        pure (s.take outLen)

/-- `Hash::hash(const std::string&, std::string&)` and the returning version, hash.cpp 82-90 and 109-114: the buffer is `tmp_out`. -/
def hashString (H : Bytes → Bytes) (junk : Nat → UInt8) (m : Bytes) : Out Bytes :=
  Z.run (rawBuf junk 64) (fun s _ => [s]) do
    let d ← Z.lift (hashBuf H (some m) false)
    Z.upd fun s => putAt s 0 d
    let s ← Z.get
    pure (s.take 64)

/-- `Hash::hash(const std::string&, out_len, std::string&)` and the returning version, hash.cpp 92-107, 116-121. -/
def hashStringTrunc (H : Bytes → Bytes) (junk : Nat → UInt8) (m : Bytes) (outLen : Nat) : Out Bytes :=
  if outLen > 64 then ⟨[], .exc .invalidArgument⟩
  else Z.run (rawBuf junk 64) (fun s _ => [s]) do
    let d ← Z.lift (hashBuf H (some m) false)
    Z.upd fun s => putAt s 0 d
    let s ← Z.get
    pure (s.take outLen)

/-! ## `HMac` -/

/-- The buffers of `HMac::hmac`, hmac.hpp 196-202. -/
structure HmacBufs where
  buffer : Bytes
  tmp : Bytes

/-- Changing `buffer`. -/
def onBuffer (f : Bytes → Res Bytes) : Z HmacBufs Unit := Z.upd fun s => (fun b => { s with buffer := b }) <$> f s.buffer

/-- Changing `tmp`. -/
def onTmp (f : Bytes → Res Bytes) : Z HmacBufs Unit := Z.upd fun s => (fun b => { s with tmp := b }) <$> f s.tmp

/-- `key_.unlock(); key_.data()`: an empty key throws. -/
def unlockGet (key : Option Bytes) : Res Bytes :=
  match key with
  | none => .exc .runtimeError
  | some k => .ok k

/-- `HMac<H,N>::hmac(in, length, out, out_len)`, hmac.hpp 177-249. -/
def hmac (H : Bytes → Bytes) (junk : Nat → UInt8) (N : Nat) (key : Option Bytes) (inp : Option Bytes)
    (outNull : Bool) (outLen : Nat) : Out Bytes :=
  if outLen > digestSize then ⟨[], .exc .invalidArgument⟩
  else match inp with
    | none => ⟨[], .exc .invalidArgument⟩
    | some m =>
      if outNull then ⟨[], .exc .invalidArgument⟩
      else
        let iLen := blockSize + m.length
        let bufferLen := if iLen > digestSize then iLen else digestSize
        let tmpLen := blockSize + digestSize
        Z.run ⟨rawBuf junk bufferLen, rawBuf junk tmpLen⟩ (fun s _ => [s.buffer, s.tmp]) do
          let k ← Z.lift (unlockGet key)
          onBuffer fun b => putAt b 0 k
          onBuffer fun b => zeroTail N b
          onBuffer fun b => xorFirst blockSize 0x36 b
          onBuffer fun b => putAt b blockSize m
          onBuffer fun b => putAt b 0 (H (b.take iLen))
          onTmp fun t => putAt t 0 k
          onTmp fun t => zeroTail N t
          onTmp fun t => xorFirst blockSize 0x5c t
          let s ← Z.get
          onTmp fun t => putAt t blockSize (s.buffer.take digestSize)
          let s ← Z.get
          onBuffer fun b => putAt b 0 (H (s.tmp.take (blockSize + digestSize)))
          let s ← Z.get
          onBuffer fun b => memzero bufferLen b
          onTmp fun t => memzero tmpLen t
          pure (s.buffer.take outLen)

/-! ## `Prf` -/

/-- The buffers of `Prf::prf`, prf.hpp 272-276. -/
structure PrfBufs where
  tmp : Bytes
  result : Bytes

/-- The loop, prf.hpp 279-295.  A loop that has not ended after `fuel` tests is `ub`. -/
def prfLoop (H : Bytes → Bytes) (junk : Nat → UInt8) (key : Option Bytes) (len nb : Nat) : Nat → Nat → Nat → Z PrfBufs Unit
  | 0, _, _ => Z.lift .ub
  | fuel + 1, pos, i =>
    if pos < nb then do
      Z.upd fun s => (fun t => { s with tmp := t }) <$> putAt s.tmp len [UInt8.ofNat i]
      let s ← Z.get
      let d ← Z.call (hmac H junk 32 key (some s.tmp) false (if nb - pos ≥ digestSize then digestSize else nb - pos))
      Z.upd fun s => (fun r => { s with result := r }) <$> putAt s.result pos d
      prfLoop H junk key len nb fuel ((pos + digestSize) % 65536) ((i + 1) % 256)
    else pure ()

/-- `Prf<NBYTES>::prf(in, length)`, prf.hpp 260-305, and the versions for strings and arrays (308-320).  `result` is given up when an
exception is thrown; `tmp` is allocated in the first branch only. -/
def prf (H : Bytes → Bytes) (junk : Nat → UInt8) (key : Option Bytes) (nb fuel : Nat) (inp : Option Bytes) : Out Bytes :=
  match inp with
  | none => ⟨[], .exc .invalidArgument⟩
  | some m =>
    if nb > digestSize then
      Z.run ⟨rawBuf junk (m.length + 1), rawBuf junk nb⟩ (fun s r => match r with | .ok _ => [s.tmp] | _ => [s.tmp, s.result]) do
        Z.upd fun s => (fun t => { s with tmp := t }) <$> putAt s.tmp 0 m
        prfLoop H junk key m.length nb fuel 0 0
        Z.upd fun s => (fun t => { s with tmp := t }) <$> memzero (m.length + 1) s.tmp
        let s ← Z.get
        pure s.result
    else
      Z.run (rawBuf junk nb) (fun s r => match r with | .ok _ => [] | _ => [s]) do
        Z.call (hmac H junk 32 key (some m) false nb)

/-- `Key<N>(uint8_t*)`, key.hpp 141-165, on a buffer of the caller: the bytes of the key, and the source erased. -/
def keyFrom {σ : Type} (size : Nat) (rd : σ → Bytes) (wr : Bytes → σ → σ) : Z σ Bytes := do
  let s ← Z.get
  let k ← Z.lift (Cipher.slice (rd s) 0 size)
  Z.upd fun s => (fun b => wr b s) <$> memzero size (rd s)
  pure k

/-- `Prf<NBYTES>::derive_key`, prf.hpp 324-342: the buffer is the temporary array which `prf` returns. -/
def deriveKey (H : Bytes → Bytes) (junk : Nat → UInt8) (key : Option Bytes) (nb fuel : Nat) (inp : Option Bytes) : Out Bytes :=
  Z.run (none : Option Bytes) (fun s _ => s.toList) do
    let d ← Z.call (prf H junk key nb fuel inp)
    Z.upd fun _ => .ok (some d)
    keyFrom nb (fun s => s.getD []) (fun b _ => some b)

/-! ## `Prg` -/

/-- `prg_derivation`, prg.cpp 44-104: the buffer is `buffer`, on the unaligned path. -/
def prgDerivation (B : Bytes → Nat → Nat → UInt8) (junk : Nat → UInt8) (key : Bytes) (offset len : Nat) (outNull : Bool) : Out Bytes :=
  if outNull then ⟨[], .exc .invalidArgument⟩
  else if len = 0 then ⟨[], .ok []⟩
  else
    let modOffset := offset % 64
    let blockOffset := offset / 64
    let maxBlockIndex := ((len + offset + (W64 - 1)) % W64) / 64 + 1
    let blockLen := (maxBlockIndex + W64 - blockOffset) % W64
    let out := List.replicate len (0 : UInt8)
    if offset % 64 = 0 then ⟨[], .ok (Prg.xorIc B key blockOffset out)⟩
    else Z.run (rawBuf junk 64) (fun s _ => [s]) do
      Z.upd fun s => putAt s 0 (List.replicate 64 0)
      let prefixLen := 64 - modOffset
      let p ← Z.lift (if blockLen > 1 then
          if len < prefixLen then .ub
          else .ok (prefixLen, out.take prefixLen ++ Prg.xorIc B key ((blockOffset + 1) % W64) (out.drop prefixLen))
        else .ok (len, out))
      Z.upd fun s => .ok (Prg.xorIc B key blockOffset s)
      let s ← Z.get
      let d ← Z.lift (if modOffset + p.1 > 64 ∨ p.1 > len then .ub else .ok ((s.drop modOffset).take p.1 ++ p.2.drop p.1))
      Z.upd fun s => memzero 64 s
      pure d

/-- `Prg::derive(offset, len, unsigned char*)`, prg.cpp 126-138. -/
def derive (B : Bytes → Nat → Nat → UInt8) (junk : Nat → UInt8) (key : Option Bytes) (offset len : Nat) (outNull : Bool) : Out Bytes :=
  if len = 0 then ⟨[], .ok []⟩
  else match key with
    | none => ⟨[], .exc .runtimeError⟩
    | some k => prgDerivation B junk k offset len outNull

/-- `static Prg::derive(Key&&, offset, len, unsigned char*)`, prg.cpp 151-167. -/
def sDerive (B : Bytes → Nat → Nat → UInt8) (junk : Nat → UInt8) (key : Option Bytes) (offset len : Nat) (outNull : Bool) : Out Bytes :=
  match key with
  | none => ⟨[], .exc .invalidArgument⟩
  | some k => prgDerivation B junk k offset len outNull

/-- The body of the versions for strings: derivation into `data`, copy into a string, erasing, prg.cpp 106-116, 140-149, 169-201. -/
def intoString (len : Nat) (data : Bytes) (o : Out Bytes) : Out Bytes :=
  Z.run data (fun s _ => [s]) do
    let d ← Z.call o
    Z.upd fun s => putAt s 0 d
    let out ← Z.get
    Z.upd fun s => memzero len s
    pure (out.take len)

/-- `Prg::derive(offset, len, std::string&)` and the returning version, prg.cpp 106-124: the buffer is `data`. -/
def deriveString (B : Bytes → Nat → Nat → UInt8) (junk : Nat → UInt8) (key : Option Bytes) (offset len : Nat) : Out Bytes :=
  intoString len (rawBuf junk len) (derive B junk key offset len false)

/-- `static Prg::derive(Key&&, offset, len, std::string&)` and the returning version, prg.cpp 169-201. -/
def sDeriveString (B : Bytes → Nat → Nat → UInt8) (junk : Nat → UInt8) (key : Option Bytes) (offset len : Nat) : Out Bytes :=
  intoString len (rawBuf junk len) (sDerive B junk key offset len false)

/-- `static Prg::derive(Key&&, len, std::string&)`, prg.cpp 140-149: `data` is a vector, which starts with zeros. -/
def sDeriveString0 (B : Bytes → Nat → Nat → UInt8) (junk : Nat → UInt8) (key : Option Bytes) (len : Nat) : Out Bytes :=
  intoString len (List.replicate len 0) (sDerive B junk key 0 len (decide (len = 0)))

/-- The loop `derived_keys.push_back(Key<K>(key_buffer + i * K))`, prg.hpp 470-472 and 514-516: `n` rounds from round `i`. -/
def pushKeys (K : Nat) : Nat → Nat → Z Bytes (List Bytes)
  | 0, _ => pure []
  | n + 1, i => do
    let s ← Z.get
    let k ← Z.lift (Cipher.slice s (i * K) K)
    Z.upd fun s => putAt s (i * K) (List.replicate K 0)
    let ks ← pushKeys K n (i + 1)
    pure (k :: ks)

/-- The part of `Prg::derive_keys<K>` after the checks, prg.hpp 463-476 and 507-520: the buffer is `key_buffer`, which `sodium_free`
erases. -/
def keysFrom (junk : Nat → UInt8) (K n : Nat) (o : Out Bytes) : Out (List Bytes) :=
  Z.run (rawBuf junk (n * K)) (fun s _ => [s]) do
    let d ← Z.call o
    Z.upd fun s => putAt s 0 d
    let ks ← pushKeys K n 0
    Z.upd fun s => memzero s.length s
    pure ks

/-- `Prg::derive_keys<K>`, prg.hpp 440-477. -/
def deriveKeys (B : Bytes → Nat → Nat → UInt8) (junk : Nat → UInt8) (K : Nat) (key : Option Bytes) (n off : Nat) : Out (List Bytes) :=
  if Prg.tooLarge K n then ⟨[], .exc .invalidArgument⟩
  else if Prg.tooLarge K off then ⟨[], .exc .invalidArgument⟩
  else if n = 0 then ⟨[], .ok []⟩
  else keysFrom junk K n (derive B junk key ((off * K) % W64) ((n * K) % W64) false)

/-- `static Prg::derive_keys<K>(Key&&, …)`, prg.hpp 480-521. -/
def sDeriveKeys (B : Bytes → Nat → Nat → UInt8) (junk : Nat → UInt8) (K : Nat) (key : Option Bytes) (n off : Nat) : Out (List Bytes) :=
  if key = none then ⟨[], .exc .invalidArgument⟩
  else if n = 0 then ⟨[], .ok []⟩
  else if Prg.tooLarge K n then ⟨[], .exc .invalidArgument⟩
  else if Prg.tooLarge K off then ⟨[], .exc .invalidArgument⟩
  else keysFrom junk K n (sDerive B junk key ((off * K) % W64) ((n * K) % W64) false)

/-- `Prg::duplicate`, prg.cpp 203-211: the buffer is `buffer`; the result is the key of the copy. -/
def duplicate (junk : Nat → UInt8) (key : Option Bytes) : Out Bytes :=
  Z.run (rawBuf junk 32) (fun s _ => [s]) do
    let k ← Z.lift (unlockGet key)
    Z.upd fun s => putAt s 0 k
    keyFrom 32 id (fun b _ => b)

/-! ## `Cipher` -/

/-- `Cipher::encrypt(in, len, out)`, cipher.cpp 61-100: the buffer is `chacha_key`; `out` belongs to the caller. -/
def encryptBuf (P : Cipher.Prims) (junk : Nat → UInt8) (key : Option Bytes) (salt inp : Bytes) (len : Nat) (out : Bytes) : Out Bytes :=
  Z.run (rawBuf junk 32) (fun s _ => [s]) do
    let out1 ← Z.lift (putAt out 0 salt)
    let k ← Z.lift (unlockGet key)
    let s ← Z.lift (Cipher.slice out1 0 Cipher.nonceSize)
    Z.upd fun b => putAt b 0 (P.kdf k s)
    let m ← Z.lift (Cipher.slice inp 0 len)
    let nonce ← Z.lift (Cipher.slice out1 0 12)
    let b ← Z.get
    let r ← Z.lift (putAt out1 Cipher.nonceSize (P.enc b nonce m))
    Z.upd fun b => memzero 32 b
    pure r

/-- `Cipher::decrypt(in, len, out)`, cipher.cpp 122-172: the buffer is `chacha_key`.  It is erased before the verdict is tested. -/
def decryptBuf (P : Cipher.Prims) (junk : Nat → UInt8) (key : Option Bytes) (inp : Bytes) (len : Nat) (out : Bytes) : Out Bytes :=
  if len < Cipher.ciphertextLength 0 then ⟨[], .exc .invalidArgument⟩
  else Z.run (rawBuf junk 32) (fun s _ => [s]) do
    let k ← Z.lift (unlockGet key)
    let s ← Z.lift (Cipher.slice inp 0 Cipher.nonceSize)
    Z.upd fun b => putAt b 0 (P.kdf k s)
    let c ← Z.lift (Cipher.slice inp Cipher.nonceSize (len - Cipher.nonceSize))
    let nonce ← Z.lift (Cipher.slice inp 0 12)
    let b ← Z.get
    let v := P.dec b nonce c
    Z.upd fun b => memzero 32 b
    Z.lift (match v with
      | none => .exc .runtimeError
      | some m => putAt out 0 m)

/-- `Cipher::encrypt(const std::string&, std::string&)`, cipher.cpp 102-120: the buffer is `data`.  The nonce is stored before the key is
looked at (cipher.cpp 69), hence it is in the buffer also when the key is empty. -/
def encryptString (P : Cipher.Prims) (junk : Nat → UInt8) (key : Option Bytes) (salt inp : Bytes) : Out Bytes :=
  if inp.isEmpty then ⟨[], .exc .invalidArgument⟩
  else Z.run (rawBuf junk (Cipher.ciphertextLength inp.length)) (fun s _ => [s]) do
    Z.upd fun s => putAt s 0 salt
    let s ← Z.get
    let d ← Z.call (encryptBuf P junk key salt inp inp.length s)
    Z.upd fun _ => .ok d
    let out ← Z.get
    Z.upd fun s => memzero (Cipher.ciphertextLength inp.length) s
    pure (out.take (Cipher.ciphertextLength inp.length))

/-- `Cipher::decrypt(const std::string&, std::string&)`, cipher.cpp 174-191: the buffer is the vector `data`. -/
def decryptString (P : Cipher.Prims) (junk : Nat → UInt8) (key : Option Bytes) (inp : Bytes) : Out Bytes :=
  if inp.length ≤ Cipher.nonceSize + Cipher.aBytes then ⟨[], .exc .invalidArgument⟩
  else Z.run (List.replicate (Cipher.plaintextLength inp.length) 0) (fun s _ => [s]) do
    let s ← Z.get
    let d ← Z.call (decryptBuf P junk key inp inp.length s)
    Z.upd fun _ => .ok d
    let out ← Z.get
    pure (out.take (Cipher.plaintextLength inp.length))

/-! ## `Prp` -/

/-- `Prp::encrypt(const std::string&, std::string&)` (prp.cpp 201-227) and `decrypt` (265-292): the buffer is `data`. -/
def prpString (R : Aez.Block → Aez.Block) (avail : Bool) (ctx : Option Aez.Ctx) (junk : Nat → UInt8) (d : Bool) (inp : Bytes) : Out Bytes :=
  if avail = false then ⟨[], .exc .runtimeError⟩
  else if inp.length > 4294967295 then ⟨[], .exc .runtimeError⟩
  else Z.run (⟨inp.length, junk⟩ : Aez.Buf) (fun s _ => [s.toList]) do
    let s ← Z.get
    let m ← Z.lift (Aez.prpBuf R avail ctx d false inp.length ⟨Aez.Buf.ofList inp, s⟩)
    Z.upd fun _ => .ok m.dst
    let s ← Z.get
    pure s.toList

/-! ## `random_string` -/

/-- `random_string`, random.hpp 83-92: the buffer is `tmp`; `r` is what `random_bytes` stores. -/
def randomString (junk : Nat → UInt8) (len : Nat) (r : Bytes) : Out Bytes :=
  Z.run (rawBuf junk len) (fun s _ => [s]) do
    Z.upd fun s => putAt s 0 r
    let s ← Z.get
    pure (s.take len)

/-! ## `RCPrf` -/

/-- `RCPrfBase::generate_leaf_from_parent`, rcprf.hpp 1631-1650: the buffer is `buffer`; the result is the value that the new leaf
element holds. -/
def leafFromParent (B : Bytes → Nat → Nat → UInt8) (junk : Nat → UInt8) (key : Option Bytes) (nb subtreeMin leaf : Nat) : Out Bytes :=
  Z.run (rawBuf junk nb) (fun s _ => [s]) do
    let d ← Z.call (derive B junk key ((if leaf = subtreeMin then 0 else 1) * nb) nb false)
    Z.upd fun s => putAt s 0 d
    Z.get

/-! ## The trapdoor permutation -/

/-- `TdpImpl_mbedTLS::eval(string)`, tdp_impl_mbedtls.cpp 149-168: the buffers are `in_array` and `out_array`. -/
def evalString (junk : Nat → UInt8) (k : Tdp.Rsa) (s : Bytes) : Out Bytes :=
  if s.length ≠ k.len then ⟨[], .exc .invalidArgument⟩
  else Z.run (rawBuf junk Tdp.msgSize, (none : Option Bytes)) (fun s _ => s.1 :: s.2.toList) do
    let a ← Z.lift (Tdp.copyIn s)
    Z.upd fun s => (fun b => (b, s.2)) <$> putAt s.1 0 a
    let b ← Z.get
    let o ← Z.lift (Tdp.evalArray k b.1)
    Z.upd fun s => .ok (s.1, some o)
    Z.upd fun s => (fun b => (b, s.2)) <$> memzero Tdp.msgSize s.1
    Z.upd fun s => (fun b => (s.1, some b)) <$> memzero Tdp.msgSize (s.2.getD [])
    pure o

/-- `TdpImpl_mbedTLS::sample`, tdp_impl_mbedtls.cpp 232-243: the buffer is `tmp`, the array which `sample_array` returns. -/
def sample (rng : Nat → Nat → Nat) (k : Tdp.Rsa) (i : Nat) : Out Bytes :=
  Z.run (none : Option Bytes) (fun s _ => s.toList) do
    let o ← Z.lift (Tdp.sample rng k i)
    Z.upd fun _ => .ok (some o)
    Z.upd fun s => (fun b => some b) <$> memzero Tdp.msgSize (s.getD [])
    pure o

/-- `TdpImpl_mbedTLS::generate_array(prf, seed)`, tdp_impl_mbedtls.cpp 289-323: the buffer is `rnd`. -/
def generateArray (H : Bytes → Bytes) (junk : Nat → UInt8) (fuel : Nat) (key : Option Bytes) (k : Tdp.Rsa) (seed : Bytes) : Out Bytes :=
  Z.run (none : Option Bytes) (fun s _ => s.toList) do
    let rnd ← Z.call (prf H junk key 264 fuel (some seed))
    Z.upd fun _ => .ok (some rnd)
    let x ← Z.lift (Tdp.orThrow .runtimeError (Tdp.mpiMod (beNat rnd : Int) k.N))
    pure (Tdp.writeZeroed x)

/-- `TdpImpl_mbedTLS::generate(prf, seed)`, tdp_impl_mbedtls.cpp 276-287, and `generate(key, seed)` (325-337): the buffer is `tmp`. -/
def generate (H : Bytes → Bytes) (junk : Nat → UInt8) (fuel : Nat) (key : Option Bytes) (k : Tdp.Rsa) (seed : Bytes) : Out Bytes :=
  Z.run (none : Option Bytes) (fun s _ => s.toList) do
    let o ← Z.call (generateArray H junk fuel key k seed)
    Z.upd fun _ => .ok (some o)
    Z.upd fun s => (fun b => some b) <$> memzero Tdp.msgSize (s.getD [])
    pure o

/-- `TdpInverseImpl_mbedTLS::invert(string)`, tdp_impl_mbedtls.cpp 470-496: the buffer is `rsa_out`. -/
def invertString (junk : Nat → UInt8) (rng : Nat → Nat → Nat) (k : Tdp.Rsa) (i : Nat) (s : Bytes) : Out Bytes :=
  Z.run (rawBuf junk Tdp.msgSize) (fun s _ => [s]) do
    let o ← Z.lift (Tdp.invertString rng k i s).1
    Z.upd fun s => putAt s 0 o
    let out ← Z.get
    Z.upd fun s => memzero Tdp.msgSize s
    pure (out.take Tdp.msgSize)

/-- `TdpInverseImpl_mbedTLS::invert_mult(string)`, tdp_impl_mbedtls.cpp 699-712: the buffers are `in_array` and `out_array`. -/
def invertMultString (junk : Nat → UInt8) (k : Tdp.Rsa) (s : Bytes) (order : Nat) : Out Bytes :=
  Z.run (rawBuf junk Tdp.msgSize, (none : Option Bytes)) (fun s _ => s.1 :: s.2.toList) do
    let a ← Z.lift (Tdp.copyIn s)
    Z.upd fun s => (fun b => (b, s.2)) <$> putAt s.1 0 a
    let b ← Z.get
    let o ← Z.lift (Tdp.invertMult k b.1 order)
    Z.upd fun s => .ok (s.1, some o)
    Z.upd fun s => (fun b => (s.1, some b)) <$> memzero Tdp.msgSize (s.2.getD [])
    pure o

/-! ## Puncturable encryption -/

section Ppke

variable {G1 G2 GT : Type} [AddCommGroup G1] [AddCommGroup G2] [AddCommGroup GT] (G : Ppke.Grp G1 G2 GT)

/-- `PairingGroup::pseudoRandomZR`, relic_api.cpp 711-721: the buffer is `prf_out`. -/
def pseudoRandomZR (prf : Bytes → Bytes) (seed : Bytes) : Out Int :=
  Z.run (prf seed) (fun s _ => [s]) do
    let s ← Z.get
    pure ((beNat s : Int) % G.r)

/-- The mask of a ciphertext, GMPpke.hpp 343-350, 369-376, 408-419: the buffers are `gt_blind_bytes` and `mask`. -/
def mask (tag gt : Bytes) : Out Nat :=
  Z.run (gt, rawBuf G.junk 8) (fun s _ => [s.1, s.2]) do
    let s ← Z.get
    let d ← Z.call (hmac G.H G.junk 16 (some tag) (some s.1) false 8)
    Z.upd fun s => (fun b => (s.1, b)) <$> putAt s.2 0 d
    let s ← Z.get
    pure (leNat s.2)

/-- `Gmppke::encrypt(sp, M, tag)`, GMPpke.hpp 355-380. -/
def encryptSp (sp : Ppke.Params) (x : Nat) (m : Nat) (tag : Bytes) : Out (Ppke.Ct G1) :=
  Z.run () (fun _ _ => []) do
    let s := Ppke.randomZR G x
    let b ← Z.lift (Ppke.blindSp G sp s tag)
    let k ← Z.call (mask G tag (Ppke.gtArray G (Ppke.powGT G.gT (Ppke.zmul G (Ppke.zmul G sp.alpha sp.beta) s))))
    pure ⟨k ^^^ m, b.1, b.2, tag⟩

/-- `Gmppke::encrypt(pk, M, tag)`, GMPpke.hpp 327-353. -/
def encryptPk (pk : Ppke.Public G1 G2) (x : Nat) (m : Nat) (tag : Bytes) : Out (Ppke.Ct G1) :=
  Z.run () (fun _ _ => []) do
    let s := Ppke.randomZR G x
    let b ← Z.lift (Ppke.blindPk G pk s tag)
    let k ← Z.call (mask G tag (Ppke.gtArray G (Ppke.powGT (G.pair pk.g2G1 pk.ppkeg1) s)))
    pure ⟨k ^^^ m, b.1, b.2, tag⟩

/-- `Gmppke::decrypt_unchecked`, GMPpke.hpp 404-422. -/
def decryptUnchecked (sk : List (Ppke.Share G2)) (ct : Ppke.Ct G1) : Out Nat :=
  Z.run () (fun _ _ => []) do
    let z ← Z.lift (Ppke.recoverBlind G sk ct)
    let k ← Z.call (mask G ct.tag (G.encT z))
    pure (k ^^^ ct.ct1)

end Ppke

end Verif.Scrub
