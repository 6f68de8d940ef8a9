import Verif.Aez.ModelArm
import Verif.Aez.ModelAead

/-!
# AEZ with a nonce and authentication bytes on ARMv8: `aez_encrypt` and `aez_decrypt` with the helpers of aez.c 133-220

As `Verif.Aez.ModelAead`, with the helpers of the branch for `__ARM_FEATURE_CRYPTO` (`Verif.Aez.ModelArm`). The functions that use none of the
helpers (`lastBlock`, `lastStore`, `tinyTag`, `tinyWrite`, `stBytes`, ...) are shared with the other branch.
-/

namespace Verif.Aez.Arm.Aead

open Verif Verif.Aez Verif.Aez.Arm
open Verif.Aez.Aead (subU stBytes lastBlock lastStore tinyTag tinyWrite)

/-- `vbicq_u8(x, y)`: the bits of `x` that are not set in `y`. -/
def vbic (x y : Block) : Block := fun i => x i &&& ~~~ y i

/-- `vandnot`, aez.c 141. -/
def bandnot (x y : Block) : Block := vbic y x

section
variable (S M : Block → Block)

/-- `aez_hash`, aez.c 300-333. -/
def hashN (c : Ctx) (nonce : Buf) (nbytes abytes : Nat) : Res Block := do
  let j8 := Arm.bswap (Arm.dbl (Arm.bswap c.J2))
  let l2 := Arm.bswap (Arm.dbl (Arm.bswap c.L))
  let l4 := Arm.bswap (Arm.dbl (Arm.dbl (Arm.bswap c.L)))
  let offset := bx c.L j8
  let sum := Arm.aes4 S M (bx offset (zeroSetByte (UInt8.ofNat (8 * abytes)) 15)) c.J0 c.I0 c.L offset
  let offset := if nbytes = 16 then bx l2 j8 else l2
  let p ← ldPart nonce 0 nbytes
  let tmp ← oneZeroPad p (subU 16 nbytes)
  let sum := bx sum (Arm.aes4 S M (bx offset tmp) c.J0 c.I0 c.L offset)
  let p ← ld pad 32
  pure (bx sum (Arm.aes4 S M (bx l4 p) c.J0 c.I0 c.L l4))

/-- The test of the authentication bytes, aez.c 665-668. -/
def tagOk (d : Bool) (abytes : Nat) (final0 : Block) : Res Bool :=
  if d then (fun p => Arm.isZero (bandnot p final0)) <$> ld pad abytes else pure true

/-- `cipher_aez_core`, aez.c 610-695; `bytes0` is the argument, at least 32 after the authentication bytes have been added. -/
def coreA (c : Ctx) (t : Block) (d : Bool) (al : Bool) (bytes0 abytes : Nat) (m : Mem) : Res (Mem × Bool) := do
  let bytes := if d then bytes0 else (bytes0 + abytes) % 4294967296
  let frag := bytes % 32
  let initial := bytes - frag - 32
  let r1 ← Arm.passOne S M c al initial m
  let fr ← Arm.coreFrag S M c al r1.1 initial frag r1.2
  let x := fr.2.2
  let s0 ← ldS al r1.1 (bytes - 32)
  let final0 := bx (bx s0 x) t
  let final1 ← lastBlock al d r1.1 bytes abytes
  let final0 := Arm.aes4 S M (bx final1 (c.Id d)) c.J0 c.I0 c.L final0
  let final1 := bx final1 (Arm.aes S M c final0 (c.Jd d))
  let s := bx final0 final1
  let final0 := bx final0 (Arm.aes S M c final1 (c.Jd (!d)))
  let ok ← tagOk d abytes final0
  if ok = false then pure (r1.1, false)
  else do
    let final1 := Arm.aes4 S M (bx final0 (c.Id (!d))) c.J0 c.I0 c.L final1
    let r2 ← Arm.passTwo S M c s initial r1.1
    let fo ← Arm.coreFragOut S M c r2.1 s fr.1 fr.2.1 initial frag r2.2
    let m ← stD fo.1 (bytes - 32) (bx (bx final1 fo.2) t)
    let m ← lastStore d m bytes abytes final0
    pure (m, true)

/-- `cipher_aez_tiny`, aez.c 702-819. -/
def tinyA (c : Ctx) (t : Block) (d : Bool) (al : Bool) (bytes0 abytes : Nat) (m : Mem) : Res (Mem × Bool) := do
  let buf ← tinyLoad al bytes0 m
  let bytes := if d then bytes0 else (bytes0 + abytes) % 4294967296
  let l ← ld buf 0
  let r ← Arm.tinyRight bytes buf
  let ms ← Arm.tinyMasks bytes
  let r := mask ms.1 ms.2 r
  let tw := tinyTweak c t bytes
  let rnds := rounds bytes
  let one := if d then zeroSetByte 255 15 else zeroSetByte 1 15
  let rcon := if d then zeroSetByte (UInt8.ofNat (rnds - 1)) 15 else bzero
  let l ← Arm.tinyLeft S M c t d bytes l
  let lr := Arm.feistel S M c tw ms.1 ms.2 one (rnds / 2) rcon (l, r)
  let buf ← Arm.tinyJoin bytes buf lr.1 lr.2
  if d then do
    let bytes := subU bytes abytes
    let tmp ← tinyTag buf bytes abytes
    if Arm.isZero tmp = false then pure (m, false) else tinyWrite m buf bytes
  else do
    let buf ← Arm.tinyFinish S M c t d bytes buf
    tinyWrite m buf bytes

/-- The tag of the empty message, aez.c 833 and 861. -/
def emptyTag (c : Ctx) (t : Block) : Block := Arm.aes S M c t (bx c.J0 c.J1)

/-- `aez_encrypt`, aez.c 823-844. -/
def enc (c : Ctx) (nonce : Buf) (nbytes abytes : Nat) (al : Bool) (bytes : Nat) (m : Mem) : Res Mem := do
  let t ← hashN S M c nonce nbytes abytes
  if bytes = 0 then stBytes m 0 abytes (emptyTag S M c t)
  else if (bytes + abytes) % 4294967296 < 32 then Prod.fst <$> tinyA S M c t false al bytes abytes m
  else Prod.fst <$> coreA S M c t false al bytes abytes m

/-- `aez_decrypt`, aez.c 848-872. -/
def dec (c : Ctx) (nonce : Buf) (nbytes abytes : Nat) (al : Bool) (bytes : Nat) (m : Mem) : Res (Mem × Bool) :=
  if bytes < abytes then .ok (m, false)
  else do
    let t ← hashN S M c nonce nbytes abytes
    if bytes = abytes then do
      let x ← ldPart (if al then m.dst else m.src) 0 abytes
      let claimed ← zeroPad x (subU 16 abytes)
      let t ← zeroPad (emptyTag S M c t) (subU 16 abytes)
      pure (m, Arm.isZero (bandnot t claimed))
    else if bytes < 32 then tinyA S M c t true al bytes abytes m
    else coreA S M c t true al bytes abytes m

end

end Verif.Aez.Arm.Aead
