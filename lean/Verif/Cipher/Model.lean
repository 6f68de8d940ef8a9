import Verif.Mac.Model

/-!
# Cipher and serialization of the symmetric objects: model of `src/cipher.cpp`, and of `serialize`/`deserialize` of
Prf, Prg, Cipher, Prp

libsodium's functions are parameters: the keyed, salted BLAKE2b (`kdf`) and ChaCha20-Poly1305-IETF (`enc`, `dec`).
The 16 random bytes are an argument.  Buffers are the bytes reachable from the pointer; reading or writing outside is `ub`.
Input and output buffers do not overlap, except in `encryptInPlace`.
-/

namespace Verif.Cipher

open Verif Verif.Mac

/-- Reading `n` bytes at `off`. -/
def slice (mem : Bytes) (off n : Nat) : Res Bytes :=
  if off + n > mem.length then .ub else .ok ((mem.drop off).take n)

/-- The libsodium functions used by `Cipher`. -/
structure Prims where
  /-- `crypto_generichash_blake2b_salt_personal` with the given key and salt, empty message, personalisation
  "encryption_key", 32-byte output. -/
  kdf : Bytes → Bytes → Bytes
  /-- `crypto_aead_chacha20poly1305_ietf_encrypt`: key, nonce, message; no associated data. -/
  enc : Bytes → Bytes → Bytes → Bytes
  /-- `crypto_aead_chacha20poly1305_ietf_decrypt`: `none` when the tag does not verify. -/
  dec : Bytes → Bytes → Bytes → Option Bytes

/-- `NONCE_SIZE`, cipher.cpp 36. -/
def nonceSize : Nat := 16
/-- `crypto_aead_chacha20poly1305_IETF_ABYTES`. -/
def aBytes : Nat := 16
/-- `ciphertext_length`, cipher.hpp 131-135. -/
def ciphertextLength (n : Nat) : Nat := n + 32
/-- `plaintext_length`, cipher.hpp 154-158. -/
def plaintextLength (n : Nat) : Nat := if n > 32 then n - 32 else 0

/-- `Cipher::encrypt(in, len, out)`, cipher.cpp 61-100: the output buffer afterwards. `salt` is what `random_bytes` stores. -/
def encryptBuf (P : Prims) (key : Option Bytes) (salt : Bytes) (inp : Bytes) (len : Nat) (out : Bytes) : Res Bytes := do
  let out1 ← putAt out 0 salt
  match key with
  | none => .exc .runtimeError
  | some k => do
    let s ← slice out1 0 nonceSize
    let sub := P.kdf k s
    let m ← slice inp 0 len
    let nonce ← slice out1 0 12
    putAt out1 nonceSize (P.enc sub nonce m)

/-- The same code when `in` and `out` are the same pointer (cipher.cpp 61-100): the nonce is stored over the message
before the message is read. -/
def encryptInPlace (P : Prims) (key : Option Bytes) (salt : Bytes) (buf : Bytes) (len : Nat) : Res Bytes := do
  let out1 ← putAt buf 0 salt
  match key with
  | none => .exc .runtimeError
  | some k => do
    let s ← slice out1 0 nonceSize
    let sub := P.kdf k s
    let m ← slice out1 0 len
    let nonce ← slice out1 0 12
    putAt out1 nonceSize (P.enc sub nonce m)

/-- `Cipher::encrypt(const std::string&, std::string&)`, cipher.cpp 102-120. -/
def encryptString (P : Prims) (junk : Nat → UInt8) (key : Option Bytes) (salt : Bytes) (inp : Bytes) : Res Bytes :=
  if inp.isEmpty then .exc .invalidArgument
  else (fun d => d.take (ciphertextLength inp.length)) <$>
    encryptBuf P key salt inp inp.length (rawBuf junk (ciphertextLength inp.length))

/-- `Cipher::decrypt(in, len, out)`, cipher.cpp 122-172: the output buffer afterwards. -/
def decryptBuf (P : Prims) (key : Option Bytes) (inp : Bytes) (len : Nat) (out : Bytes) : Res Bytes :=
  if len < ciphertextLength 0 then .exc .invalidArgument
  else match key with
    | none => .exc .runtimeError
    | some k => do
      let s ← slice inp 0 nonceSize
      let sub := P.kdf k s
      let c ← slice inp nonceSize (len - nonceSize)
      let nonce ← slice inp 0 12
      match P.dec sub nonce c with
      | none => .exc .runtimeError
      | some m => putAt out 0 m

/-- `Cipher::decrypt(const std::string&, std::string&)`, cipher.cpp 174-191. -/
def decryptString (P : Prims) (key : Option Bytes) (inp : Bytes) : Res Bytes :=
  if inp.length ≤ nonceSize + aBytes then .exc .invalidArgument
  else (fun d => d.take (plaintextLength inp.length)) <$>
    decryptBuf P key inp inp.length (List.replicate (plaintextLength inp.length) 0)

/-! ## Serialization of Prf, Prg, Cipher, Prp -/

/-- `Key<N>::serialize` between `unlock` and `lock`: prf.hpp 223-228, prg.cpp 210-215, cipher.cpp 193-198, prp.cpp 294-305
(key.hpp 395-404: an empty key throws). -/
def serializeKey (key : Option Bytes) (out : Bytes) : Res Bytes :=
  match key with
  | none => .exc .runtimeError
  | some k => putAt out 0 k

/-- What deserialization returns: the key of the object, `n_bytes_read`, and the input buffer afterwards. -/
structure Deser where
  key : Bytes
  nRead : Nat
  mem : Bytes
  deriving DecidableEq, Repr

/-- `Key<N>(uint8_t*)`, key.hpp 141-165: copies `size` bytes and zeroes the source. -/
def keyFromBuf (size : Nat) (mem : Bytes) : Res (Bytes × Bytes) := do
  let k ← slice mem 0 size
  let mem1 ← putAt mem 0 (List.replicate size 0)
  pure (k, mem1)

/-- `Prf<NBYTES>::deserialize`, prf.hpp 234-247. -/
def prfDeserialize (mem : Bytes) (inSize _nRead : Nat) : Res Deser :=
  if inSize < 32 then .exc .invalidArgument
  else (fun r => ⟨r.1, 32, r.2⟩) <$> keyFromBuf 32 mem

/-- `Prg::deserialize`, prg.cpp 217-228. -/
def prgDeserialize (mem : Bytes) (inSize _nRead : Nat) : Res Deser :=
  if inSize < 32 then .exc .invalidArgument
  else (fun r => ⟨r.1, 32, r.2⟩) <$> keyFromBuf 32 mem

/-- `Cipher::deserialize`, cipher.cpp 200-212: `n_bytes_read` is incremented, not assigned. -/
def cipherDeserialize (mem : Bytes) (inSize nRead : Nat) : Res Deser :=
  if inSize < 32 then .exc .invalidArgument
  else (fun r => ⟨r.1, (nRead + 32) % W64, r.2⟩) <$> keyFromBuf 32 mem

/-- `Prp::deserialize`, prp.cpp 307-324; `avail`: `Prp::is_available()`. The context of 112 bytes is the stored key. -/
def prpDeserialize (avail : Bool) (mem : Bytes) (inSize _nRead : Nat) : Res Deser :=
  if !avail then .exc .runtimeError
  else if inSize < 112 then .exc .invalidArgument
  else (fun r => ⟨r.1, 112, r.2⟩) <$> keyFromBuf 112 mem

end Verif.Cipher
