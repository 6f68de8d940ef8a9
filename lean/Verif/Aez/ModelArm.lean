import Verif.Aez.Model

/-!
# AEZ: the branch for ARMv8 (`__ARM_FEATURE_CRYPTO`) of `src/aez/aez.c`

The functions of aez.c as they are with the helpers of lines 133-220 in place of those of lines 49-131. The helpers are written with
models of the vector instructions they use; the functions after them are the same text of the C file, here with these helpers.

* `vaeseq_u8(x, k)` is `S (x ⊕ k)` for a parameter `S` (SubBytes and ShiftRows) and `vaesmcq_u8` is a parameter `M` (MixColumns);
  nothing is assumed about them.
* `load`, `store` dereference a pointer to a vector; as the comment in the file says, alignment is not required.
* Functions that use none of the helpers (`pad`, `load_partial`, `zero_pad`, ...) are shared with the other branch.
-/

namespace Verif.Aez.Arm

open Verif

/-! ## Vector instructions -/

/-- `vextq_u8(a, b, n)`: bytes `n` … `n + 15` of `a` followed by `b`. -/
def vext (a b : Block) (n : Nat) : Block := fun i =>
  if h : i.1 + n < 16 then a ⟨i.1 + n, h⟩ else b ⟨(i.1 + n - 16) % 16, Nat.mod_lt _ (by decide)⟩
/-- `vshlq_n_u8`, `vshlq_n_s8`: each byte shifted to the left. -/
def vshl (x : Block) (n : UInt8) : Block := fun i => x i <<< n
/-- `vshrq_n_u8`: each byte shifted to the right, zeros coming in. -/
def vshrU (x : Block) (n : UInt8) : Block := fun i => x i >>> n
/-- `vshrq_n_s8`: each byte shifted to the right, copies of the sign coming in. -/
def vshrS (x : Block) (n : UInt8) : Block := fun i => (x i >>> n) ||| (if x i ≥ 128 then ~~~ (0xff >>> n) else 0)
/-- A constant vector. -/
def vec (l : Bytes) : Block := fun i => l.getD i.1 0

/-! ## Helpers -/

/-- `is_zero`, aez.c 145-149: the halves combined by `or`, the 64 bits compared with zero. -/
def isZero (x : Block) : Bool := leNat ((List.range 8).map fun i => x (Fin.ofNat 16 (i + 8)) ||| x (Fin.ofNat 16 i)) == 0

/-- `srl4`, aez.c 151-157. -/
def srl4 (x : Block) : Block :=
  let mask := vec [15, 15, 15, 15, 15, 15, 15, 15, 15, 15, 15, 15, 15, 15, 15, 0]
  let tmp := band (vshrS (vext x x 1) 4) mask
  bx tmp (vshl x 4)

/-- `sll4`, aez.c 159-165. -/
def sll4 (x : Block) : Block :=
  let mask := vec [0, 15, 15, 15, 15, 15, 15, 15, 15, 15, 15, 15, 15, 15, 15, 15]
  let tmp := vshl (band (vext x x 15) mask) 4
  bx tmp (vshrU x 4)

/-- `bswap16`, aez.c 167-170. -/
def bswap (b : Block) : Block := b

/-- `double_block`, aez.c 172-180. -/
def dbl (b : Block) : Block :=
  let mask := vec [135, 1, 1, 1, 1, 1, 1, 1, 1, 1, 1, 1, 1, 1, 1, 1]
  let tmp := vshrS b 7
  let tmp := band tmp mask
  let tmp := vext tmp tmp 1
  let b := vshl b 1
  bx tmp b

section
variable (S M : Block → Block)

/-- `vaesmcq_u8(vaeseq_u8(x, k))`. -/
def round (x k : Block) : Block := M (S (bx x k))

/-- `aes`, aez.c 182-195. -/
def aes (c : Ctx) (x fk : Block) : Block :=
  let x := round S M x fk
  let x := round S M x c.I0
  let x := round S M x c.J0
  let x := round S M x c.L
  let x := round S M x c.I0
  let x := round S M x c.J0
  let x := round S M x c.L
  let x := round S M x c.I0
  let x := round S M x c.J0
  let x := round S M x c.L
  bx x c.I0

/-- `aes4`, aez.c 197-208. -/
def aes4 (x a b c d : Block) : Block :=
  let x := round S M x bzero
  let x := round S M x a
  let x := round S M x b
  let x := round S M x c
  bx x d

/-! ## Setup and hash -/

/-- `aez_setup` for a 48-byte key, aez.c 271-295. -/
def setup (key : Nat → UInt8) : Ctx :=
  let i0 := blk key 0
  let j0 := blk key 16
  let l := blk key 32
  let ti := dbl (bswap i0)
  let tj := dbl (bswap j0)
  ⟨i0, bswap ti, bswap (dbl ti), j0, bswap tj, bswap (dbl tj), l⟩

/-- `aez_hash` for a 16-byte nonce of zeros and `abytes` = 0, aez.c 300-333. -/
def hash (c : Ctx) : Res Block := do
  let j8 := bswap (dbl (bswap c.J2))
  let l2 := bswap (dbl (bswap c.L))
  let l4 := bswap (dbl (dbl (bswap c.L)))
  let offset := bx c.L j8
  let sum := aes4 S M (bx offset (zeroSetByte 0 15)) c.J0 c.I0 c.L offset
  let offset := bx l2 j8
  let tmp ← oneZeroPad bzero 0
  let sum := bx sum (aes4 S M (bx offset tmp) c.J0 c.I0 c.L offset)
  let p ← ld pad 32
  pure (bx sum (aes4 S M (bx l4 p) c.J0 c.I0 c.L l4))

/-! ## The two passes -/

/-- `Ifordoubling` after `g` groups of 16 blocks (aez.c 354-355, 365), and the offset `o0` of group `g`. -/
def ifd (c : Ctx) : Nat → Block
  | 0 => dbl (bswap c.I2)
  | g + 1 => dbl (ifd c g)

def base (c : Ctx) (g : Nat) : Block := bswap (ifd c g)

/-- The groups in which `pass_one` and `pass_two` handle `bytes` bytes: the loop `while (bytes >= 16 * 16)`, then the `if`
statements. -/
def groups (c : Ctx) (bytes : Nat) : List Group :=
  (List.range (bytes / 256)).map (fun g => ⟨8 * g, 8, groupOff c (base c g)⟩) ++
    tailGroups c (8 * (bytes / 256)) (bytes % 256) (base c (bytes / 256))

/-- First half of a group in `pass_one` (aez.c 366-376): `store(dst + 2k, aes4(src[2k+1] ^ o_k, J, I, L, src[2k]))`. -/
def oneA (c : Ctx) (al : Bool) (g : Group) (k : Nat) (m : Mem) : Res Mem := do
  let p := 32 * (g.first + k)
  let b ← ldS al m (p + 16)
  let a ← ldS al m p
  stD m p (aes4 S M (bx b (g.off k)) c.J0 c.I0 c.L a)

/-- Second half (aez.c 377-400): `tmp = aes4(dst[2k], J, I, L, src[2k+1]); store(dst + 2k+1, tmp); sum ^= tmp`. -/
def oneB (c : Ctx) (al : Bool) (g : Group) (k : Nat) (s : Mem × Block) : Res (Mem × Block) := do
  let p := 32 * (g.first + k)
  let w ← ld s.1.dst p
  let b ← ldS al s.1 (p + 16)
  let tmp := aes4 S M w c.J0 c.I0 c.L b
  let m ← stD s.1 (p + 16) tmp
  pure (m, bx s.2 tmp)

def oneGroup (c : Ctx) (al : Bool) (g : Group) (s : Mem × Block) : Res (Mem × Block) := do
  let m ← loopN (oneA S M c al g) g.count s.1
  loopN (oneB S M c al g) g.count (m, s.2)

/-- `pass_one`, aez.c 337-457. -/
def passOne (c : Ctx) (al : Bool) (bytes : Nat) (m : Mem) : Res (Mem × Block) :=
  runGroups (oneGroup S M c al) (groups c bytes) (m, bzero)

/-- First part of a group in `pass_two` (aez.c 488-519): `f = aes4(s ^ o_k, L, I, J, L); tmp[k] = dst[2k] ^ f;
sum ^= tmp[k]; store(dst + 2k, dst[2k+1] ^ f)`. -/
def twoA (c : Ctx) (s : Block) (g : Group) (k : Nat) (v : Mem × Block × (Nat → Block)) : Res (Mem × Block × (Nat → Block)) := do
  let p := 32 * (g.first + k)
  let f := aes4 S M (bx s (g.off k)) c.L c.I0 c.J0 c.L
  let w ← ld v.1.dst p
  let tmp := bx w f
  let x ← ld v.1.dst (p + 16)
  let m ← stD v.1 p (bx x f)
  pure (m, bx v.2.1 tmp, fun j => if j = k then tmp else v.2.2 j)

/-- Second part (aez.c 520-527): `store(dst + 2k+1, aes4(dst[2k], J, I, L, tmp[k]))`. -/
def twoB (c : Ctx) (tmp : Nat → Block) (g : Group) (k : Nat) (m : Mem) : Res Mem := do
  let p := 32 * (g.first + k)
  let a ← ld m.dst p
  stD m (p + 16) (aes4 S M a c.J0 c.I0 c.L (tmp k))

/-- Third part (aez.c 528-539): `store(dst + 2k, aes4(dst[2k+1] ^ o_k, J, I, L, dst[2k]))`. -/
def twoC (c : Ctx) (g : Group) (k : Nat) (m : Mem) : Res Mem := do
  let p := 32 * (g.first + k)
  let b ← ld m.dst (p + 16)
  let a ← ld m.dst p
  stD m p (aes4 S M (bx b (g.off k)) c.J0 c.I0 c.L a)

def twoGroup (c : Ctx) (s : Block) (g : Group) (v : Mem × Block) : Res (Mem × Block) := do
  let r ← loopN (twoA S M c s g) g.count (v.1, v.2, fun _ => bzero)
  let m ← loopN (twoB S M c r.2.2 g) g.count r.1
  let m ← loopN (twoC S M c g) g.count m
  pure (m, r.2.1)

/-- `pass_two`, aez.c 461-606. -/
def passTwo (c : Ctx) (s : Block) (bytes : Nat) (m : Mem) : Res (Mem × Block) :=
  runGroups (twoGroup S M c s) (groups c bytes) (m, bzero)

/-! ## Core -/

/-- The fragments and their contribution to `x`, aez.c 640-653: `frag0`, `frag1`, `x`. Lines 648, 650 and 651 set blocks to zero with
`_mm_set1_epi32`, which this branch does not have; it is read as `zero`. -/
def coreFrag (c : Ctx) (al : Bool) (m : Mem) (initial frag : Nat) (x : Block) : Res (Block × Block × Block) :=
  if frag ≥ 16 then do
    let frag0 ← ldS al m initial
    let r ← ldS al m (initial + 16)
    let frag1 ← oneZeroPad r (32 - frag)
    let x := aes4 S M (bx frag0 c.I2) c.J0 c.I0 c.L x
    let x := bx x (aes4 S M (bx (bx frag1 c.I2) c.I0) c.J0 c.I0 c.L bzero)
    pure (frag0, frag1, x)
  else if frag ≠ 0 then do
    let r ← ldS al m initial
    let frag0 ← oneZeroPad r (16 - frag)
    let x := aes4 S M (bx frag0 c.I2) c.J0 c.I0 c.L x
    pure (frag0, bzero, x)
  else pure (bzero, bzero, x)

/-- The fragments of the output and their contribution to `y`, aez.c 671-686. -/
def coreFragOut (c : Ctx) (m : Mem) (s frag0 frag1 : Block) (initial frag : Nat) (y : Block) : Res (Mem × Block) :=
  if frag ≥ 16 then do
    let frag0 := bx frag0 (aes S M c s c.J2)
    let frag1 := bx frag1 (aes S M c s (bx c.J2 c.J0))
    let frag1 ← oneZeroPad frag1 (32 - frag)
    let y := aes4 S M (bx frag0 c.I2) c.J0 c.I0 c.L y
    let y := bx y (aes4 S M (bx (bx frag1 c.I2) c.I0) c.J0 c.I0 c.L bzero)
    let m ← stD m initial frag0
    let m ← stD m (initial + 16) frag1
    pure (m, y)
  else if frag ≠ 0 then do
    let frag0 := bx frag0 (aes S M c s c.J2)
    let frag0 ← oneZeroPad frag0 (16 - frag)
    let y := aes4 S M (bx frag0 c.I2) c.J0 c.I0 c.L y
    let m ← stD m initial frag0
    pure (m, y)
  else pure (m, y)

/-- `cipher_aez_core`, aez.c 610-698, for `bytes` ≥ 32 and `abytes` = 0 (the test for zero bytes at decryption, 663-666, then always
succeeds). `d` is false for encryption. -/
def core (c : Ctx) (t : Block) (d : Bool) (al : Bool) (bytes : Nat) (m : Mem) : Res Mem := do
  let frag := bytes % 32
  let initial := bytes - frag - 32
  let r1 ← passOne S M c al initial m
  let fr ← coreFrag S M c al r1.1 initial frag r1.2
  let x := fr.2.2
  let s0 ← ldS al r1.1 (bytes - 32)
  let final0 := bx (bx s0 x) t
  let final1 ← ldS al r1.1 (bytes - 32 + 16)
  let final0 := aes4 S M (bx final1 (c.Id d)) c.J0 c.I0 c.L final0
  let final1 := bx final1 (aes S M c final0 (c.Jd d))
  let s := bx final0 final1
  let final0 := bx final0 (aes S M c final1 (c.Jd (!d)))
  let final1 := aes4 S M (bx final0 (c.Id (!d))) c.J0 c.I0 c.L final1
  let r2 ← passTwo S M c s initial r1.1
  let fo ← coreFragOut S M c r2.1 s fr.1 fr.2.1 initial frag r2.2
  let m ← stD fo.1 (bytes - 32) (bx (bx final1 fo.2) t)
  stD m (bytes - 32 + 16) final0

/-! ## Tiny -/

/-- `mask_ff` and `mask_10`, aez.c 741-746; `sll4` is applied without `bswap16`. -/
def tinyMasks (bytes : Nat) : Res (Block × Block) := do
  let ff ← ld pad (16 - bytes / 2)
  let m10 ← ld pad (32 - bytes / 2)
  if bytes % 2 = 1 then pure ((fun i => if i.1 = bytes / 2 then 0xf0 else ff i), sll4 m10)
  else pure (ff, m10)

/-- The right half, aez.c 740 and 747-751 (before masking). -/
def tinyRight (bytes : Nat) (buf : Buf) : Res Block := do
  let r ← ld buf (bytes / 2)
  pure (if bytes % 2 = 1 then bswap (srl4 (bswap r)) else r)

/-- The Feistel loop, aez.c 784-789: `n` iterations of two rounds. -/
def feistel (c : Ctx) (t ff m10 one : Block) : Nat → Block → Block × Block → Block × Block
  | 0, _, lr => lr
  | n + 1, rcon, (l, r) =>
    let l := mask ff m10 (aes4 S M (bx (bx t r) rcon) c.J0 c.I0 c.L l)
    let rcon := badd rcon one
    let r := mask ff m10 (aes4 S M (bx (bx t l) rcon) c.J0 c.I0 c.L r)
    let rcon := badd rcon one
    feistel c t ff m10 one n rcon (l, r)

/-- The bit mixed into the first byte of short messages, aez.c 777-780 and 813-814, from the first block with its top bit set. -/
def topBit (c : Ctx) (t0 x : Block) : Res Block := do
  let p ← ld pad 32
  let tmp := aes4 S M (bx (bx (bor x p) t0) (bx c.I0 c.I1)) c.J0 c.I0 c.L bzero
  pure (band tmp p)

/-- The left half before the Feistel network, aez.c 776-782. -/
def tinyLeft (c : Ctx) (t0 : Block) (d : Bool) (bytes : Nat) (l : Block) : Res Block :=
  if d ∧ bytes < 16 then do
    let tmp ← topBit S M c t0 l
    pure (bx l tmp)
  else pure l

/-- Putting the halves together, aez.c 790-798. -/
def tinyJoin (bytes : Nat) (buf : Buf) (l r : Block) : Res Buf := do
  let buf ← st buf 0 r
  if bytes % 2 = 1 then do
    let l := bswap (sll4 (bswap l))
    let q ← ld buf (bytes / 2)
    let l := bor l (band q (zeroSetByte 0xf0 0))
    st buf (bytes / 2) l
  else st buf (bytes / 2) l

/-- The last step of encryption, aez.c 812-816. -/
def tinyFinish (c : Ctx) (t0 : Block) (d : Bool) (bytes : Nat) (buf : Buf) : Res Buf :=
  if d = false ∧ bytes < 16 then do
    let b0 ← ld buf 0
    let z ← zeroPad b0 (16 - bytes)
    let tmp ← topBit S M c t0 z
    st buf 0 (bx b0 tmp)
  else pure buf

/-- `cipher_aez_tiny`, aez.c 702-819, for 1 ≤ `bytes` < 32 and `abytes` = 0 (the authentication test 800-811 compares nothing). -/
def tiny (c : Ctx) (t : Block) (d : Bool) (al : Bool) (bytes : Nat) (m : Mem) : Res Mem := do
  let buf ← tinyLoad al bytes m
  let l ← ld buf 0
  let r ← tinyRight bytes buf
  let ms ← tinyMasks bytes
  let r := mask ms.1 ms.2 r
  let tw := tinyTweak c t bytes
  let rnds := rounds bytes
  let one := if d then zeroSetByte 255 15 else zeroSetByte 1 15
  let rcon := if d then zeroSetByte (UInt8.ofNat (rnds - 1)) 15 else bzero
  let l ← tinyLeft S M c t d bytes l
  let lr := feistel S M c tw ms.1 ms.2 one (rnds / 2) rcon (l, r)
  let buf ← tinyJoin bytes buf lr.1 lr.2
  let buf ← tinyFinish S M c t d bytes buf
  if bytes ≤ m.dst.size then .ok ⟨m.src, m.dst.size, fun i => if i < bytes then buf.data i else m.dst.data i⟩ else .ub

/-- `aez_encrypt` (aez.c 823-843, `d` = false) and `aez_decrypt` (847-870, `d` = true) with `abytes` = 0: the memory afterwards.
For zero bytes nothing is written. -/
def aez (c : Ctx) (d : Bool) (al : Bool) (bytes : Nat) (m : Mem) : Res Mem := do
  let t ← hash S M c
  if bytes = 0 then pure m
  else if bytes < 32 then tiny S M c t d al bytes m
  else core S M c t d al bytes m

/-! ## `Prp` -/

/-- `Prp::encrypt(in, len, out)` (prp.cpp 168-199, `d` = false) and `Prp::decrypt(in, len, out)` (229-263). `avail` is
`Prp::is_available()`; `ctx` is the context, `none` for a moved-from object. The result is the content of `out`. -/
def prpBuf (avail : Bool) (ctx : Option Ctx) (d : Bool) (al : Bool) (len : Nat) (m : Mem) : Res Mem :=
  if avail = false then .exc .runtimeError
  else match ctx with
    | none => .exc .runtimeError
    | some c => aez S M c d al len m

/-- `Prp::encrypt(const std::string&, std::string&)` (prp.cpp 201-227) and `decrypt` (265-292), and the returning versions.
`junk` is the content of the new buffer. -/
def prpString (avail : Bool) (ctx : Option Ctx) (junk : Nat → UInt8) (d : Bool) (inp : Bytes) : Res Bytes :=
  if avail = false then .exc .runtimeError
  else if inp.length > 4294967295 then .exc .runtimeError
  else (fun m => m.dst.toList) <$> prpBuf S M avail ctx d false inp.length ⟨Buf.ofList inp, ⟨inp.length, junk⟩⟩

/-- `Prp::encrypt(uint32_t)`, `encrypt_64`, `decrypt(uint32_t)`, `decrypt_64`, prp.cpp 124-166: `n` = 4 or 8 bytes, little-endian. -/
def prpInt (avail : Bool) (ctx : Option Ctx) (junk : Nat → UInt8) (d : Bool) (n x : Nat) : Res Nat :=
  (fun m => leNat m.dst.toList) <$> prpBuf S M avail ctx d false n ⟨Buf.ofList (leBytes n x), ⟨n, junk⟩⟩

/-- The context made from a 48-byte key, prp.cpp 87-107. -/
def mkPrp (avail : Bool) (key : Option Bytes) : Res Ctx :=
  if avail = false then .exc .runtimeError
  else match key with
    | none => .exc .runtimeError
    | some k => .ok (setup fun i => k.getD i 0)

end

end Verif.Aez.Arm
