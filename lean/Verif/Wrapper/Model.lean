import Verif.Cipher.Model
import Verif.RCPrf.Serial
import Verif.Utils.Model

/-!
# Key wrapping: model of `src/wrapper.cpp` and `wrapper.hpp`

Parameters: the hash function `H` (for the PRF) and the ChaCha20-IETF key stream `S key nonce i`.
The random IV is an argument. `live` counts the `sodium_malloc`ed buffers that are still allocated when the call ends.
-/

namespace Verif.Wrapper

open Verif Verif.Mac Verif.Cipher

/-- A wrappable class: what `Wrapper` uses of it. -/
structure Class where
  /-- States of the objects. -/
  σ : Type
  /-- `Wrapper::TypeByte<C>::value`, wrapper.hpp 329-391. -/
  typeByte : UInt8
  /-- `C::public_context()`. -/
  ctx : Bytes
  /-- `serialized_size()`. -/
  size : σ → Nat
  /-- `serialize(out)`: the bytes stored at `out`. -/
  serialize : σ → Res Bytes
  /-- `deserialize(in, in_size, n_bytes_read)`, `n_bytes_read` being 0 before the call. -/
  deserialize : Bytes → Res (σ × Nat)

/-- A wrapper object: the key of `tag_generator_` and `encryption_key_` (`none` when moved from). -/
structure Wrapper where
  tagKey : Option Bytes
  encKey : Option Bytes
  deriving DecidableEq, Repr

/-- The PRF does not loop for at most 64 output bytes. -/
def prf1 (H : Bytes → Bytes) (junk : Nat → UInt8) (key : Option Bytes) (nb : Nat) (m : Bytes) : Res Bytes :=
  match prf H junk key nb 1 (some m) with
  | some r => r
  | none => .ub

/-- `Wrapper::Wrapper`, wrapper.cpp 28-52. -/
def mkWrapper (H : Bytes → Bytes) (junk : Nat → UInt8) (key : Option Bytes) : Res Wrapper := do
  let kt ← prf1 H junk key 32 [0x01]
  let ke ← prf1 H junk key 32 [0x02]
  pure ⟨some kt, some ke⟩

/-- `crypto_stream_chacha20_ietf_xor`. -/
def xorStream (S : Bytes → Bytes → Nat → UInt8) (key nonce m : Bytes) : Bytes :=
  m.mapIdx fun i b => b ^^^ S key nonce i

/-- Result of a call, with the input vector afterwards and the number of leaked buffers. -/
structure Out (α : Type) where
  res : Res α
  live : Nat
  deriving DecidableEq, Repr

/-- The buffer is freed only at the end of the function (wrapper.hpp 243, 312): an exception leaks it. -/
def leakOnThrow {α : Type} : Res α → Out α
  | .ok a => ⟨.ok a, 0⟩
  | .exc e => ⟨.exc e, 1⟩
  | .ub => ⟨.ub, 1⟩

/-- `Wrapper::wrap<C>`, wrapper.hpp 195-246. -/
def wrap (H : Bytes → Bytes) (S : Bytes → Bytes → Nat → UInt8) (junk : Nat → UInt8) (w : Wrapper) (C : Class) (x : C.σ)
    (iv : Bytes) : Out Bytes :=
  let size := C.size x
  let off := 16 + 1 + C.ctx.length
  let bufferSize := 16 + size + C.ctx.length + 1
  leakOnThrow (do
    let b1 ← putAt (rawBuf junk bufferSize) 0 iv
    let b2 ← putAt b1 16 [C.typeByte]
    let b3 ← putAt b2 17 C.ctx
    let ser ← C.serialize x
    let b4 ← putAt b3 off ser
    let tag ← prf1 H junk w.tagKey 12 b4
    match w.encKey with
    | none => .exc .runtimeError
    | some ke => pure (b4.take 16 ++ xorStream S ke tag ((b4.drop off).take size) ++ tag))

/-- `Wrapper::unwrap<C>`, wrapper.hpp 248-317: the object and the input vector afterwards. -/
def unwrap (H : Bytes → Bytes) (S : Bytes → Bytes → Nat → UInt8) (junk : Nat → UInt8) (w : Wrapper) (C : Class) (c : Bytes) :
    Out (C.σ × Bytes) :=
  if c.length ≤ 28 then ⟨.exc .invalidArgument, 0⟩
  else
    let size := c.length - 28
    let off := 16 + 1 + C.ctx.length
    let bufferSize := 16 + size + C.ctx.length + 1
    leakOnThrow (do
      let b1 ← putAt (rawBuf junk bufferSize) 0 (c.take 16)
      let b2 ← putAt b1 16 [C.typeByte]
      let b3 ← putAt b2 17 C.ctx
      let expected := c.drop (c.length - 12)
      match w.encKey with
      | none => .exc .runtimeError
      | some ke => do
        let b4 ← putAt b3 off (xorStream S ke expected ((c.drop 16).take size))
        let tag ← prf1 H junk w.tagKey 12 b4
        if expected ≠ tag then .exc .runtimeError
        else do
          let r ← C.deserialize ((b4.drop off).take size)
          if r.2 ≠ size then .exc .runtimeError
          else pure (r.1, List.replicate c.length 0))

/-! ## The wrappable classes -/

/-- `public_context()` of Prf (prf.hpp 75-79), RCPrf (rcprf.hpp 1868-1872), ConstrainedRCPrf (1326-1330). -/
def nbCtx (nb : Nat) : Bytes := [UInt8.ofNat (nb / 256 % 256), UInt8.ofNat (nb % 256)]

/-- Serialization of a symmetric object whose state is its key. -/
def keySer : Option Bytes → Res Bytes
  | none => .exc .runtimeError
  | some k => .ok k

/-- Cipher; type byte wrapper.hpp 333-336. -/
def cipherC : Class where
  σ := Option Bytes
  typeByte := 0x01
  ctx := []
  size _ := 32
  serialize := keySer
  deserialize inp := (fun d => (some d.key, d.nRead)) <$> cipherDeserialize inp inp.length 0

/-- Prf<nb>; wrapper.hpp 338-344. -/
def prfC (nb : Nat) : Class where
  σ := Option Bytes
  typeByte := 0x02
  ctx := nbCtx nb
  size _ := 32
  serialize := keySer
  deserialize inp := (fun d => (some d.key, d.nRead)) <$> prfDeserialize inp inp.length 0

/-- Prg; wrapper.hpp 346-351. -/
def prgC : Class where
  σ := Option Bytes
  typeByte := 0x03
  ctx := []
  size _ := 32
  serialize := keySer
  deserialize inp := (fun d => (some d.key, d.nRead)) <$> prgDeserialize inp inp.length 0

/-- Prp (available); wrapper.hpp 353-358. -/
def prpC : Class where
  σ := Option Bytes
  typeByte := 0x04
  ctx := []
  size _ := 112
  serialize := keySer
  deserialize inp := (fun d => (some d.key, d.nRead)) <$> prpDeserialize true inp inp.length 0

/-- RCPrf<nb>; wrapper.hpp 361-367. -/
def rcprfC (nb : Nat) : Class where
  σ := RCPrf.RCPrf
  typeByte := 0x06
  ctx := nbCtx nb
  size _ := 33
  serialize p := .ok p.serialize
  deserialize := RCPrf.deserializeF

/-- ConstrainedRCPrf<nb>; wrapper.hpp 369-375. -/
def crcprfC (nb : Nat) : Class where
  σ := RCPrf.CRCPrf
  typeByte := 0x06
  ctx := nbCtx nb
  size c := c.serializedSize nb
  serialize c := c.serialize
  deserialize := RCPrf.deserializeC nb

/-- TdpInverse; wrapper.hpp 377-382, tdp.hpp 285-297 (empty context).  `pem` is `private_key()`, `parse` the constructor from a PEM
string; the search of `deserialize` always ends within `enough` steps (`Utils.c43_first`). -/
def tdpInverseC {K : Type} (pem : K → Bytes) (parse : Bytes → Res K) : Class where
  σ := K
  typeByte := 0x07
  ctx := []
  size k := (pem k).length
  serialize k := .ok (Utils.serializeInverse pem k)
  deserialize inp := (Utils.deserializeInverse parse (Utils.enough inp Utils.keySuffix) inp).getD .ub

end Verif.Wrapper
