import Verif.Aez.Model

/-!
# AEZ with a nonce and authentication bytes: model of `aez_encrypt` and `aez_decrypt` (`src/aez/aez.c`, AES-NI branch)

The functions declared in `aez.h` for all values of `nbytes` and `abytes`; `Verif.Aez.Model` has the values used by `Prp` only.  `unsigned` is 32 bits wide.
A call returns the memory afterwards and, for decryption, whether 0 (true) or -1 (false) is returned.
-/

namespace Verif.Aez.Aead

open Verif Verif.Aez

/-- `vandnot`, aez.c 61. -/
def bandnot (x y : Block) : Block := fun i => (~~~ x i) &&& y i

/-- `is_zero`, aez.c 65-68. -/
def isZero (x : Block) : Bool := decide (∀ i, x i = 0)

/-- `x - y` on `unsigned`. -/
def subU (x y : Nat) : Nat := (x + 4294967296 - y) % 4294967296

/-- `for (i = 0; i < n; i++) dst[off + i] = ((char*)&x)[i]`, aez.c 689-692 and 834-836. -/
def stBytes (m : Mem) (off n : Nat) (x : Block) : Res Mem :=
  if off + n ≤ m.dst.size ∧ n ≤ 16 then
    .ok ⟨m.src, m.dst.size, fun i => if h : off ≤ i ∧ i < off + n ∧ i < off + 16 then x ⟨i - off, by omega⟩ else m.dst.data i⟩
  else .ub

section
variable (R : Block → Block)

/-- `aez_hash`, aez.c 300-333. -/
def hashN (c : Ctx) (nonce : Buf) (nbytes abytes : Nat) : Res Block := do
  let j8 := bswap (dbl (bswap c.J2))
  let l2 := bswap (dbl (bswap c.L))
  let l4 := bswap (dbl (dbl (bswap c.L)))
  let offset := bx c.L j8
  let sum := aes4 R (bx offset (zeroSetByte (UInt8.ofNat (8 * abytes)) 15)) c.J0 c.I0 c.L offset
  let offset := if nbytes = 16 then bx l2 j8 else l2
  let p ← ldPart nonce 0 nbytes
  let tmp ← oneZeroPad p (subU 16 nbytes)
  let sum := bx sum (aes4 R (bx offset tmp) c.J0 c.I0 c.L offset)
  let p ← ld pad 32
  pure (bx sum (aes4 R (bx l4 p) c.J0 c.I0 c.L l4))

/-- The second of the last two blocks, aez.c 654-658: with authentication bytes, encryption reads them from the source and clears them. -/
def lastBlock (al : Bool) (d : Bool) (m : Mem) (bytes abytes : Nat) : Res Block :=
  if d = true ∨ abytes = 0 then ldS al m (bytes - 32 + 16) else ldS al m (bytes - 32 + 16) >>= fun b => zeroPad b abytes

/-- The last store, aez.c 686-693. -/
def lastStore (d : Bool) (m : Mem) (bytes abytes : Nat) (final0 : Block) : Res Mem :=
  if d = false ∨ abytes = 0 then stD m (bytes - 32 + 16) final0 else stBytes m (bytes - 16) (subU 16 abytes) final0

/-- The test of the authentication bytes, aez.c 665-668. -/
def tagOk (d : Bool) (abytes : Nat) (final0 : Block) : Res Bool :=
  if d then (fun p => isZero (bandnot p final0)) <$> ld pad abytes else pure true

/-- `cipher_aez_core`, aez.c 610-695; `bytes0` is the argument, at least 32 after the authentication bytes have been added. -/
def coreA (c : Ctx) (t : Block) (d : Bool) (al : Bool) (bytes0 abytes : Nat) (m : Mem) : Res (Mem × Bool) := do
  let bytes := if d then bytes0 else (bytes0 + abytes) % 4294967296
  let frag := bytes % 32
  let initial := bytes - frag - 32
  let r1 ← passOne R c al initial m
  let fr ← coreFrag R c al r1.1 initial frag r1.2
  let x := fr.2.2
  let s0 ← ldS al r1.1 (bytes - 32)
  let final0 := bx (bx s0 x) t
  let final1 ← lastBlock al d r1.1 bytes abytes
  let final0 := aes4 R (bx final1 (c.Id d)) c.J0 c.I0 c.L final0
  let final1 := bx final1 (aes R c final0 (c.Jd d))
  let s := bx final0 final1
  let final0 := bx final0 (aes R c final1 (c.Jd (!d)))
  let ok ← tagOk d abytes final0
  if ok = false then pure (r1.1, false)
  else do
    let final1 := aes4 R (bx final0 (c.Id (!d))) c.J0 c.I0 c.L final1
    let r2 ← passTwo R c s initial r1.1
    let fo ← coreFragOut R c r2.1 s fr.1 fr.2.1 initial frag r2.2
    let m ← stD fo.1 (bytes - 32) (bx (bx final1 fo.2) t)
    let m ← lastStore d m bytes abytes final0
    pure (m, true)

/-- The authentication bytes of a short message, aez.c 801-806. -/
def tinyTag (buf : Buf) (bytes abytes : Nat) : Res Block := if abytes = 16 then ld buf bytes else ldPart buf bytes abytes

/-- The end of `cipher_aez_tiny`, aez.c 815-818. -/
def tinyWrite (m : Mem) (buf : Buf) (bytes : Nat) : Res (Mem × Bool) :=
  if bytes ≤ m.dst.size ∧ bytes ≤ buf.size then .ok (⟨m.src, m.dst.size, fun i => if i < bytes then buf.data i else m.dst.data i⟩, true) else .ub

/-- `cipher_aez_tiny`, aez.c 702-819. -/
def tinyA (c : Ctx) (t : Block) (d : Bool) (al : Bool) (bytes0 abytes : Nat) (m : Mem) : Res (Mem × Bool) := do
  let buf ← tinyLoad al bytes0 m
  let bytes := if d then bytes0 else (bytes0 + abytes) % 4294967296
  let l ← ld buf 0
  let r ← tinyRight bytes buf
  let ms ← tinyMasks bytes
  let r := mask ms.1 ms.2 r
  let tw := tinyTweak c t bytes
  let rnds := rounds bytes
  let one := if d then zeroSetByte 255 15 else zeroSetByte 1 15
  let rcon := if d then zeroSetByte (UInt8.ofNat (rnds - 1)) 15 else bzero
  let l ← tinyLeft R c t d bytes l
  let lr := feistel R c tw ms.1 ms.2 one (rnds / 2) rcon (l, r)
  let buf ← tinyJoin bytes buf lr.1 lr.2
  if d then do
    let bytes := subU bytes abytes
    let tmp ← tinyTag buf bytes abytes
    if isZero tmp = false then pure (m, false) else tinyWrite m buf bytes
  else do
    let buf ← tinyFinish R c t d bytes buf
    tinyWrite m buf bytes

/-- The tag of the empty message, aez.c 833 and 861. -/
def emptyTag (c : Ctx) (t : Block) : Block := aes R c t (bx c.J0 c.J1)

/-- `aez_encrypt`, aez.c 823-844. -/
def enc (c : Ctx) (nonce : Buf) (nbytes abytes : Nat) (al : Bool) (bytes : Nat) (m : Mem) : Res Mem := do
  let t ← hashN R c nonce nbytes abytes
  if bytes = 0 then stBytes m 0 abytes (emptyTag R c t)
  else if (bytes + abytes) % 4294967296 < 32 then Prod.fst <$> tinyA R c t false al bytes abytes m
  else Prod.fst <$> coreA R c t false al bytes abytes m

/-- `aez_decrypt`, aez.c 848-872. -/
def dec (c : Ctx) (nonce : Buf) (nbytes abytes : Nat) (al : Bool) (bytes : Nat) (m : Mem) : Res (Mem × Bool) :=
  if bytes < abytes then .ok (m, false)
  else do
    let t ← hashN R c nonce nbytes abytes
    if bytes = abytes then do
      let x ← ldPart (if al then m.dst else m.src) 0 abytes
      let claimed ← zeroPad x (subU 16 abytes)
      let t ← zeroPad (emptyTag R c t) (subU 16 abytes)
      pure (m, isZero (bandnot t claimed))
    else if bytes < 32 then tinyA R c t true al bytes abytes m
    else coreA R c t true al bytes abytes m

end

end Verif.Aez.Aead
