import Verif.Mac.Model
import Verif.Prg.Model
import Verif.RCPrf.Model
import Verif.Cipher.Model
import Verif.Trace.Basic

/-!
# The symmetric functions with what an observer sees

The functions of `Verif/Mac/Model.lean`, `Verif/Prg/Model.lean`, `Verif/Cipher/Model.lean` and the evaluation of `Verif/RCPrf/Model.lean` once more, with every
conditional branch and every access to memory of the source text.  The functions of libsodium read and write the buffers that they are given and show nothing
else; `memcpy`, `memset` and `sodium_memzero` likewise.  The locking of key memory is not traced.  Uninitialised memory holds arbitrary bytes.
-/

namespace Verif.Trace.Sym

open Verif Verif.Trace T

/-- The memory: the key of the object, input and output of the call, the heap buffer, local arrays, the copied input of `Prf`, and the keys of the nodes of a
tree, by depth. -/
inductive Rg where
  | key | inp | out | buf | tmp | copy | node (d : Nat)
deriving DecidableEq

abbrev M := T Rg

/-- A branch that is taken or not. -/
def tick (c : Bool) : M Unit := ⟨[.br c], .ok ()⟩

/-- `throw`. -/
def thrT {α : Type} (e : Exc) : M α := ⟨[], .exc e⟩

/-- `memcpy(buf + pos, src + off, n)`. -/
def cpyT (d : Rg) (buf : Bytes) (pos : Nat) (s : Rg) (off : Nat) (src : Bytes) : M Bytes :=
  ⟨[.rd s off src.length, .wr d pos src.length], Mac.putAt buf pos src⟩

/-- `memset(buf + pos, 0, n)`. -/
def zeroT (d : Rg) (buf : Bytes) (pos n : Nat) : M Bytes := ⟨[.wr d pos n], Mac.putAt buf pos (List.replicate n 0)⟩

/-- `sodium_memzero` of memory that is not used any more. -/
def wipeT (d : Rg) (n : Nat) : M Unit := ⟨[.wr d 0 n], .ok ()⟩

/-- `buf[i] ^= c`. -/
def xorByteT (r : Rg) (c : UInt8) (i : Nat) (buf : Bytes) : M Bytes :=
  ⟨[.rd r i 1, .wr r i 1], match buf[i]? with | some v => .ok (buf.set i (v ^^^ c)) | none => .ub⟩

/-- A call of `Hash::hash(in, n, out)`, hash.cpp 36-54: after the two tests for null pointers, `n` bytes of `r` are read and the 64 bytes are stored at the
beginning of `.buf`. -/
def hashT (H : Bytes → Bytes) (r : Rg) (src : Bytes) (n : Nat) (buf : Bytes) : M Bytes :=
  ⟨[.br false, .br false, .rd r 0 n, .wr .buf 0 Mac.digestSize], Mac.putAt buf 0 (H (src.take n))⟩

/-! ## HMAC, hmac.hpp 177-249 -/

/-- `if (N < kHMACKeySize) memset(buf + N, 0, kHMACKeySize - N)`; both sizes are constants. -/
def zeroTailT (r : Rg) (N : Nat) (buf : Bytes) : M Bytes := if N < Mac.blockSize then zeroT r buf N (Mac.blockSize - N) else pure buf

/-- The key block, hmac.hpp 207-218 and 225-234. -/
def blockT (r : Rg) (N : Nat) (k : Bytes) (pad : UInt8) (buf : Bytes) : M Bytes := do
  let b ← cpyT r buf 0 .key 0 k
  let b ← zeroTailT r N b
  forT (xorByteT r pad) Mac.blockSize b

/-- The part after the checks, hmac.hpp 194-248. -/
def hmacMainT (H : Bytes → Bytes) (junk : Nat → UInt8) (N : Nat) (k : Bytes) (ri : Rg) (m : Bytes) (outOff outLen : Nat) : M Bytes := do
  let iLen := Mac.blockSize + m.length
  let bufferLen ← ifT (iLen > Mac.digestSize) (pure iLen) (pure Mac.digestSize)
  let b3 ← blockT .buf N k 0x36 (Mac.rawBuf junk bufferLen)
  let b4 ← cpyT .buf b3 Mac.blockSize ri 0 m
  let b5 ← hashT H .buf b4 iLen b4
  let t3 ← blockT .tmp N k 0x5c (Mac.rawBuf junk (Mac.blockSize + Mac.digestSize))
  let t4 ← cpyT .tmp t3 Mac.blockSize .buf 0 (b5.take Mac.digestSize)
  let b6 ← hashT H .tmp t4 (Mac.blockSize + Mac.digestSize) b5
  let res ← ⟨[.rd .buf 0 outLen, .wr .out outOff outLen], .ok (b6.take outLen)⟩
  wipeT .buf bufferLen
  wipeT .tmp (Mac.blockSize + Mac.digestSize)
  pure res

/-- `HMac<H,N>::hmac(in, length, out, out_len)`, hmac.hpp 177-249; `in` is in the region `ri`, `out` at `outOff` of the region `.out`. -/
def hmacT (H : Bytes → Bytes) (junk : Nat → UInt8) (N : Nat) (key : Option Bytes) (ri : Rg) (inp : Option Bytes) (outNull : Bool) (outOff outLen : Nat) :
    M Bytes :=
  ifT (outLen > Mac.digestSize) (thrT .invalidArgument) (ifT (inp = none) (thrT .invalidArgument) (ifT (outNull = true) (thrT .invalidArgument)
    (ifT (key = none) (thrT .runtimeError) (hmacMainT H junk N (key.getD []) ri (inp.getD []) outOff outLen))))

/-! ## PRF, prf.hpp 260-305 -/

/-- One iteration of the loop, prf.hpp 277-294. -/
def prfBodyT (H : Bytes → Bytes) (junk : Nat → UInt8) (key : Option Bytes) (m : Bytes) (nb pos i : Nat) (result : Bytes) : M Bytes := do
  tick true
  let tmp ← ⟨[.wr .copy m.length 1], .ok (m ++ [UInt8.ofNat i])⟩
  let d ← ifT (nb - pos ≥ Mac.digestSize) (hmacT H junk 32 key .copy (some tmp) false pos Mac.digestSize)
    (hmacT H junk 32 key .copy (some tmp) false pos (nb - pos))
  ⟨[], Mac.putAt result pos d⟩

/-- The counter-mode loop, prf.hpp 274-295, and the wiping of the copy, 297-298. -/
def prfLoopT (H : Bytes → Bytes) (junk : Nat → UInt8) (key : Option Bytes) (m : Bytes) (nb : Nat) : Nat → Nat → Nat → Bytes → Option (M Bytes)
  | 0, _, _, _ => none
  | fuel + 1, pos, i, result =>
    if pos < nb then
      let x := prfBodyT H junk key m nb pos i result
      match x.res with
      | .ok r => (prfLoopT H junk key m nb fuel ((pos + Mac.digestSize) % 65536) ((i + 1) % 256) r).map fun y => ⟨x.evs ++ y.evs, y.res⟩
      | e => some ⟨x.evs, e⟩
    else some ⟨[.br false, .wr .copy 0 (m.length + 1)], .ok result⟩

/-- `Prf<NBYTES>::prf(in, length)`, prf.hpp 260-305. -/
def prfT (H : Bytes → Bytes) (junk : Nat → UInt8) (key : Option Bytes) (nb fuel : Nat) (inp : Option Bytes) : Option (M Bytes) :=
  match inp with
  | none => some ⟨[.br true], .exc .invalidArgument⟩
  | some m =>
    if nb > Mac.digestSize then
      (prfLoopT H junk key m nb fuel 0 0 (Mac.rawBuf junk nb)).map fun y =>
        ⟨[.br false, .br true, .rd .inp 0 m.length, .wr .copy 0 m.length] ++ y.evs, y.res⟩
    else
      let y := hmacT H junk 32 key .inp (some m) false 0 nb
      some ⟨[.br false, .br false, .br true] ++ y.evs, y.res⟩

/-! ## Prg, prg.cpp 44-167 -/

/-- `crypto_stream_chacha20_xor_ic(p, p, len, nonce, ic, key)` at `off` of the region `r`, with the key in `rk`. -/
def chachaT (B : Bytes → Nat → Nat → UInt8) (rk : Rg) (k : Bytes) (ic : Nat) (r : Rg) (off : Nat) (mem : Bytes) : M Bytes :=
  ⟨[.rd rk 0 32, .rd r off mem.length, .wr r off mem.length], .ok (Prg.xorIc B k ic mem)⟩

/-- The unaligned case of `prg_derivation`, prg.cpp 68-102. -/
def prgSplitT (B : Bytes → Nat → Nat → UInt8) (rk : Rg) (key : Bytes) (offset len : Nat) (ro : Rg) : M Bytes := do
  let modOffset := offset % 64
  let blockOffset := offset / 64
  let maxBlockIndex := ((len + offset + (W64 - 1)) % W64) / 64 + 1
  let blockLen := (maxBlockIndex + W64 - blockOffset) % W64
  let out := List.replicate len (0 : UInt8)
  let prefixLen := 64 - modOffset
  let _ ← wipeT .tmp 64
  let p ← ifT (blockLen > 1)
    (if len < prefixLen then bad else do
      let x ← chachaT B rk key ((blockOffset + 1) % W64) ro prefixLen (out.drop prefixLen)
      pure (prefixLen, out.take prefixLen ++ x))
    (pure (len, out))
  let buf ← chachaT B rk key blockOffset .tmp 0 (List.replicate 64 0)
  let res ← ⟨[.rd .tmp modOffset p.1, .wr ro 0 p.1], if modOffset + p.1 > 64 ∨ p.1 > len then .ub else .ok ((buf.drop modOffset).take p.1 ++ p.2.drop p.1)⟩
  wipeT .tmp 64
  pure res

/-- `prg_derivation`, prg.cpp 44-104, with the key in the region `rk` and the output in `ro`. -/
def prgT (B : Bytes → Nat → Nat → UInt8) (rk : Rg) (key : Bytes) (offset len : Nat) (ro : Rg) (outNull : Bool) : M Bytes :=
  ifT (outNull = true) (thrT .invalidArgument) (ifT (len = 0) (pure []) (do
    wipeT ro len
    ifT (offset % 64 = 0) (chachaT B rk key (offset / 64) ro 0 (List.replicate len 0)) (prgSplitT B rk key offset len ro)))

/-- `Prg::derive(offset, len, unsigned char*)`, prg.cpp 126-138. -/
def deriveT (B : Bytes → Nat → Nat → UInt8) (key : Option Bytes) (offset len : Nat) (ro : Rg) (outNull : Bool) : M Bytes :=
  ifT (len = 0) (pure []) (ifT (key = none) (thrT .runtimeError) (prgT B .key (key.getD []) offset len ro outNull))

/-- The test of prg.hpp 405-411: `key_offset > 0 && K >= SIZE_MAX / key_offset`. -/
def tooLargeT (K cnt : Nat) : M Bool := ifT (cnt > 0) (ifT (K ≥ (W64 - 1) / cnt) (pure true) (pure false)) (pure false)

/-- `Prg::derive_key<32>(child)`, prg.hpp 400-418, storing the key of a node at depth `d`. -/
def deriveKeyT (B : Bytes → Nat → Nat → UInt8) (key : Option Bytes) (off d : Nat) : M Bytes := do
  let t ← tooLargeT 32 off
  if t then thrT .invalidArgument else deriveT B key ((off * 32) % W64) 32 (.node d) false

/-- `static Prg::derive(Key&&, offset, len, unsigned char*)`, prg.cpp 151-167, for the key of the node at depth `d`. -/
def sDeriveT (B : Bytes → Nat → Nat → UInt8) (d : Nat) (key : Bytes) (offset len : Nat) (ro : Rg) : M Bytes := do
  tick false
  prgT B (.node d) key offset len ro false

/-- `static Prg::derive_key<32>(Key&&, child)`, prg.hpp 420-438: from the node at depth `d` to the one at `d + 1`. -/
def sDeriveKeyT (B : Bytes → Nat → Nat → UInt8) (d : Nat) (key : Bytes) (off : Nat) : M Bytes := do
  let t ← tooLargeT 32 off
  if t then thrT .invalidArgument else sDeriveT B d key ((off * 32) % W64) 32 (.node (d + 1))

/-! ## The evaluation of a tree, rcprf.hpp 350-397 -/

/-- `get_child`, rcprf.hpp 202-211: a selection without a branch. -/
def childT (h leaf depth : Nat) : M Nat := ⟨[], Bool.toNat <$> RCPrf.getChild h leaf depth⟩

/-- The loop of rcprf.hpp 377-381: `s` more nodes, the next child is that of the node at depth `i`. -/
def pathT (B : Bytes → Nat → Nat → UInt8) (h leaf : Nat) : Nat → Nat → Bytes → M Bytes
  | 0, _, key => do
    tick false
    pure key
  | s + 1, i, key => do
    tick true
    let c ← childT h leaf i
    let key ← sDeriveKeyT B i key c
    pathT B h leaf s (i + 1) key

/-- `RCPrfBase::derive_leaf`, rcprf.hpp 350-397, from a node at depth `d`. -/
def deriveLeafT (B : Bytes → Nat → Nat → UInt8) (n h : Nat) (k : Bytes) (d leaf : Nat) : M Bytes :=
  if ¬ (h ≥ 2) then bad
  else if ¬ (h - 1 > d) then bad
  else ifT (h = d + 2)
    (do
      let c ← childT h leaf d
      deriveT B (some k) (c * n) n .out false)
    (do
      let c ← childT h leaf d
      let key ← deriveKeyT B (some k) c (d + 1)
      let key ← pathT B h leaf (h - 2 - (d + 1)) (d + 1) key
      let c ← childT h leaf (h - 2)
      sDeriveT B (h - 2) key (c * n) n .out)

/-! ## Cipher, cipher.cpp 61-172 -/

/-- The derivation of the key of a message, cipher.cpp 74-82 and 140-148: the salt is in the region `r`. -/
def kdfT (P : Cipher.Prims) (k : Bytes) (r : Rg) (salt : Bytes) : M Bytes :=
  ⟨[.rd .key 0 32, .rd r 0 16, .wr .tmp 0 32], .ok (P.kdf k salt)⟩

/-- Reading `n` bytes for a function of libsodium. -/
def sliceT (r : Rg) (mem : Bytes) (off n : Nat) : M Bytes := ⟨[.rd r off n], Cipher.slice mem off n⟩

/-- `Cipher::encrypt(in, len, out)`, cipher.cpp 61-100. -/
def encryptT (P : Cipher.Prims) (key : Option Bytes) (salt : Bytes) (inp : Bytes) (len : Nat) (out : Bytes) : M Bytes := do
  let out1 ← ⟨[.wr .out 0 Cipher.nonceSize], Mac.putAt out 0 salt⟩
  ifT (key = none) (thrT .runtimeError) (do
    let s ← ⟨[], Cipher.slice out1 0 Cipher.nonceSize⟩
    let sub ← kdfT P (key.getD []) .out s
    let m ← sliceT .inp inp 0 len
    let nonce ← sliceT .out out1 0 12
    let res ← ⟨[.rd .tmp 0 32, .wr .out Cipher.nonceSize (len + Cipher.aBytes)], Mac.putAt out1 Cipher.nonceSize (P.enc sub nonce m)⟩
    wipeT .tmp 32
    pure res)

/-- `Cipher::decrypt(in, len, out)`, cipher.cpp 122-172.  libsodium clears the output when the tag is wrong and stores the length 0. -/
def decryptT (P : Cipher.Prims) (key : Option Bytes) (inp : Bytes) (len : Nat) (out : Bytes) : M Bytes :=
  ifT (len < Cipher.ciphertextLength 0) (thrT .invalidArgument) (ifT (key = none) (thrT .runtimeError) (do
    let s ← ⟨[], Cipher.slice inp 0 Cipher.nonceSize⟩
    let sub ← kdfT P (key.getD []) .inp s
    let c ← sliceT .inp inp Cipher.nonceSize (len - Cipher.nonceSize)
    let nonce ← sliceT .inp inp 0 12
    let r ← ⟨[.rd .tmp 0 32], .ok (P.dec sub nonce c)⟩
    match r with
    | none => do
      wipeT .out (len - Cipher.ciphertextLength 0)
      wipeT .tmp 32
      tick true
      wipeT .out 0
      thrT .runtimeError
    | some m => do
      let res ← ⟨[.wr .out 0 m.length], Mac.putAt out 0 m⟩
      wipeT .tmp 32
      tick false
      pure res))

end Verif.Trace.Sym
