import Verif.Basic

/-!
# AEZ and the PRP: model of `src/aez/aez.c` (AES-NI branch) and `src/prp.cpp`

* A `block` (`__m128i`) is 16 bytes.  The vector intrinsics are modelled on bytes.
* One AES encryption round (`_mm_aesenc_si128(x, k)`) is `R x ⊕ k` for a parameter `R` (ShiftRows, SubBytes and MixColumns
  of `x`), about which nothing is assumed.
* Source, destination and local buffers are byte arrays with a size; a load or store that is not inside the buffer is
  undefined behaviour (`ub`).  `al = true` means that source and destination are the same buffer (encryption in place).
* `abytes` is 0 and `nbytes` is 16 in all calls (prp.cpp 187-194, 248-255); other values are in `Verif.Aez.ModelAead`.
-/

namespace Verif.Aez

open Verif

abbrev Block := Fin 16 → UInt8

def bzero : Block := fun _ => 0
/-- `vxor`. -/
def bx (a b : Block) : Block := fun i => a i ^^^ b i
/-- `vand`. -/
def band (a b : Block) : Block := fun i => a i &&& b i
/-- `vor`. -/
def bor (a b : Block) : Block := fun i => a i ||| b i
/-- `vadd`: bytewise addition. -/
def badd (a b : Block) : Block := fun i => a i + b i
/-- `bswap16`, aez.c 80-85. -/
def bswap (a : Block) : Block := fun i => a ⟨15 - i.1, by omega⟩

/-- `sll4`, aez.c 70-73: the 128-bit little-endian integer shifted right by four bits. -/
def sll4 (x : Block) : Block := fun i => (x i >>> 4) ||| (if h : i.1 < 15 then x ⟨i.1 + 1, by omega⟩ <<< 4 else 0)
/-- `srl4`, aez.c 75-78: the 128-bit little-endian integer shifted left by four bits. -/
def srl4 (x : Block) : Block := fun i => (x i <<< 4) ||| (if 0 < i.1 then x ⟨i.1 - 1, by omega⟩ >>> 4 else 0)

/-- The 32-bit lane `k` of a block (little-endian). -/
def lane (x : Block) (k : Fin 4) : UInt32 :=
  (x ⟨4 * k.1, by omega⟩).toUInt32 ||| ((x ⟨4 * k.1 + 1, by omega⟩).toUInt32 <<< 8) |||
    ((x ⟨4 * k.1 + 2, by omega⟩).toUInt32 <<< 16) ||| ((x ⟨4 * k.1 + 3, by omega⟩).toUInt32 <<< 24)

/-- The block with the given lanes. -/
def ofLanes (f : Fin 4 → UInt32) : Block := fun i => (f ⟨i.1 / 4, by omega⟩ >>> (8 * UInt32.ofNat (i.1 % 4))).toUInt8

/-- `_mm_srai_epi32(x, 31)` on one lane. -/
def signMask (v : UInt32) : UInt32 := if v ≥ 0x80000000 then 0xffffffff else 0

/-- `double_block`, aez.c 87-95. -/
def dbl (b : Block) : Block :=
  let mask : Fin 4 → UInt32 := fun k => if k = 3 then 135 else 1
  let tmp : Fin 4 → UInt32 := fun k => signMask (lane b k) &&& mask k
  ofLanes fun k => (lane b k <<< 1) ^^^ tmp ⟨(k.1 + 3) % 4, by omega⟩

/-- `aez_ctx_t`, aez.h 26-31. -/
structure Ctx where
  I0 : Block
  I1 : Block
  I2 : Block
  J0 : Block
  J1 : Block
  J2 : Block
  L : Block

/-- `ctx->I[d]` and `ctx->J[d]` for `d` = 0, 1. -/
def Ctx.Id (c : Ctx) (d : Bool) : Block := if d then c.I1 else c.I0
def Ctx.Jd (c : Ctx) (d : Bool) : Block := if d then c.J1 else c.J0

section
variable (R : Block → Block)

/-- `_mm_aesenc_si128`. -/
def aesenc (x k : Block) : Block := bx (R x) k

/-- `aes4`, aez.c 112-118. -/
def aes4 (x a b c d : Block) : Block := aesenc R (aesenc R (aesenc R (aesenc R x a) b) c) d

/-- `aes`, aez.c 97-110; `key[0]`, `key[3]`, `key[6]` are `I[0]`, `J[0]`, `L` of the context. -/
def aes (c : Ctx) (x fk : Block) : Block :=
  let x := bx x fk
  let x := aesenc R x c.I0
  let x := aesenc R x c.J0
  let x := aesenc R x c.L
  let x := aesenc R x c.I0
  let x := aesenc R x c.J0
  let x := aesenc R x c.L
  let x := aesenc R x c.I0
  let x := aesenc R x c.J0
  let x := aesenc R x c.L
  aesenc R x c.I0

/-! ## Memory -/

/-- A buffer. -/
structure Buf where
  size : Nat
  data : Nat → UInt8

def Buf.ofList (l : Bytes) : Buf := ⟨l.length, fun i => l.getD i 0⟩
def Buf.toList (b : Buf) : Bytes := (List.range b.size).map b.data

/-- The 16 bytes at `off`. -/
def blk (f : Nat → UInt8) (off : Nat) : Block := fun i => f (off + i.1)

/-- `load`/`loadu`, aez.c 120-131. -/
def ld (b : Buf) (off : Nat) : Res Block := if off + 16 ≤ b.size then .ok (blk b.data off) else .ub

/-- `store`/`storeu`. -/
def st (b : Buf) (off : Nat) (x : Block) : Res Buf :=
  if off + 16 ≤ b.size then
    .ok ⟨b.size, fun i => if h : off ≤ i ∧ i < off + 16 then x ⟨i - off, by omega⟩ else b.data i⟩
  else .ub

/-- `load_partial`, aez.c 234-242. -/
def ldPart (b : Buf) (off n : Nat) : Res Block :=
  if off + n ≤ b.size ∧ n ≤ 16 then .ok (fun i => if i.1 < n then b.data (off + i.1) else 0) else .ub

/-- The table `pad`, aez.c 244-248. -/
def pad : Buf := ⟨48, fun i => if i < 16 then 0xff else if i = 32 then 0x80 else 0⟩

/-- `zero_pad`, aez.c 250-253. -/
def zeroPad (x : Block) (zeroBytes : Nat) : Res Block := (fun p => band x p) <$> ld pad zeroBytes

/-- `one_zero_pad`, aez.c 255-259. -/
def oneZeroPad (x : Block) (n : Nat) : Res Block := do
  let p ← ld pad n
  let p1 ← ld pad (n + 16)
  pure (bor (band x p) p1)

/-- `zero_set_byte`, aez.c 261-266. -/
def zeroSetByte (v : UInt8) (idx : Fin 16) : Block := fun i => if i = idx then v else 0

/-- Source and destination. -/
structure Mem where
  src : Buf
  dst : Buf

/-- Loads from the source, which is the destination when they are the same buffer. -/
def ldS (al : Bool) (m : Mem) (off : Nat) : Res Block := if al then ld m.dst off else ld m.src off

/-- Stores to the destination. -/
def stD (m : Mem) (off : Nat) (x : Block) : Res Mem := (fun d => ⟨m.src, d⟩) <$> st m.dst off x

/-- `for (k = 0; k < n; k++) s = f(k, s)`. -/
def loopN {σ : Type} (f : Nat → σ → Res σ) : Nat → σ → Res σ
  | 0, s => .ok s
  | n + 1, s => loopN f n s >>= f n

/-! ## Setup and hash -/

/-- `aez_setup` for a 48-byte key, aez.c 271-295. -/
def setup (key : Nat → UInt8) : Ctx :=
  let i0 := blk key 0
  let j0 := blk key 16
  let l := blk key 32
  let ti := dbl (bswap i0)
  let tj := dbl (bswap j0)
  ⟨i0, bswap ti, bswap (dbl ti), j0, bswap tj, bswap (dbl tj), l⟩

/-- `aez_hash` for a 16-byte nonce of zeros and `abytes` = 0, aez.c 300-333. -/
def hash (c : Ctx) : Res Block := do
  let j8 := bswap (dbl (bswap c.J2))
  let l2 := bswap (dbl (bswap c.L))
  let l4 := bswap (dbl (dbl (bswap c.L)))
  let offset := bx c.L j8
  let sum := aes4 R (bx offset (zeroSetByte 0 15)) c.J0 c.I0 c.L offset
  let offset := bx l2 j8
  let tmp ← oneZeroPad bzero 0
  let sum := bx sum (aes4 R (bx offset tmp) c.J0 c.I0 c.L offset)
  let p ← ld pad 32
  pure (bx sum (aes4 R (bx l4 p) c.J0 c.I0 c.L l4))

/-! ## The two passes -/

/-- `Ifordoubling` after `g` groups of 16 blocks (aez.c 354-355, 365), and the offset `o0` of group `g`. -/
def ifd (c : Ctx) : Nat → Block
  | 0 => dbl (bswap c.I2)
  | g + 1 => dbl (ifd c g)

def base (c : Ctx) (g : Nat) : Block := bswap (ifd c g)

/-- The offsets `o0` … `o7`, aez.c 357-364. -/
def groupOff (c : Ctx) (o0 : Block) : Nat → Block
  | 0 => o0
  | 1 => bx o0 c.I0
  | 2 => bx o0 c.I1
  | 3 => bx (bx o0 c.I0) c.I1
  | 4 => bx o0 c.I2
  | 5 => bx (bx o0 c.I0) c.I2
  | 6 => bx (bx o0 c.I1) c.I2
  | _ => bx (bx (bx o0 c.I0) c.I1) c.I2

/-- A group of pairs of blocks handled together: first pair, number of pairs, offsets. -/
structure Group where
  first : Nat
  count : Nat
  off : Nat → Block

/-- The `if` statements after the loop, aez.c 405-455 and 550-605: groups of 4, 2 and 1 pairs for `rem` < 256 bytes. -/
def tailGroups (c : Ctx) (first rem : Nat) (o : Block) : List Group :=
  let g4 := if rem ≥ 128 then [⟨first, 4, groupOff c o⟩] else []
  let o := if rem ≥ 128 then bx o c.I2 else o
  let first := if rem ≥ 128 then first + 4 else first
  let rem := if rem ≥ 128 then rem - 128 else rem
  let g2 := if rem ≥ 64 then [⟨first, 2, groupOff c o⟩] else []
  let o := if rem ≥ 64 then bx o c.I1 else o
  let first := if rem ≥ 64 then first + 2 else first
  let rem := if rem ≥ 64 then rem - 64 else rem
  let g1 := if rem ≠ 0 then [⟨first, 1, groupOff c o⟩] else []
  g4 ++ g2 ++ g1

/-- The groups in which `pass_one` and `pass_two` handle `bytes` bytes: the loop `while (bytes >= 16 * 16)`, then the `if`
statements. -/
def groups (c : Ctx) (bytes : Nat) : List Group :=
  (List.range (bytes / 256)).map (fun g => ⟨8 * g, 8, groupOff c (base c g)⟩) ++
    tailGroups c (8 * (bytes / 256)) (bytes % 256) (base c (bytes / 256))

/-- First half of a group in `pass_one` (aez.c 366-376): `store(dst + 2k, aes4(src[2k+1] ^ o_k, J, I, L, src[2k]))`. -/
def oneA (c : Ctx) (al : Bool) (g : Group) (k : Nat) (m : Mem) : Res Mem := do
  let p := 32 * (g.first + k)
  let b ← ldS al m (p + 16)
  let a ← ldS al m p
  stD m p (aes4 R (bx b (g.off k)) c.J0 c.I0 c.L a)

/-- Second half (aez.c 377-400): `tmp = aes4(dst[2k], J, I, L, src[2k+1]); store(dst + 2k+1, tmp); sum ^= tmp`. -/
def oneB (c : Ctx) (al : Bool) (g : Group) (k : Nat) (s : Mem × Block) : Res (Mem × Block) := do
  let p := 32 * (g.first + k)
  let w ← ld s.1.dst p
  let b ← ldS al s.1 (p + 16)
  let tmp := aes4 R w c.J0 c.I0 c.L b
  let m ← stD s.1 (p + 16) tmp
  pure (m, bx s.2 tmp)

def oneGroup (c : Ctx) (al : Bool) (g : Group) (s : Mem × Block) : Res (Mem × Block) := do
  let m ← loopN (oneA R c al g) g.count s.1
  loopN (oneB R c al g) g.count (m, s.2)

def runGroups {σ : Type} (f : Group → σ → Res σ) : List Group → σ → Res σ
  | [], s => .ok s
  | g :: gs, s => f g s >>= runGroups f gs

/-- `pass_one`, aez.c 337-457. -/
def passOne (c : Ctx) (al : Bool) (bytes : Nat) (m : Mem) : Res (Mem × Block) :=
  runGroups (oneGroup R c al) (groups c bytes) (m, bzero)

/-- First part of a group in `pass_two` (aez.c 488-519): `f = aes4(s ^ o_k, L, I, J, L); tmp[k] = dst[2k] ^ f;
sum ^= tmp[k]; store(dst + 2k, dst[2k+1] ^ f)`. -/
def twoA (c : Ctx) (s : Block) (g : Group) (k : Nat) (v : Mem × Block × (Nat → Block)) : Res (Mem × Block × (Nat → Block)) := do
  let p := 32 * (g.first + k)
  let f := aes4 R (bx s (g.off k)) c.L c.I0 c.J0 c.L
  let w ← ld v.1.dst p
  let tmp := bx w f
  let x ← ld v.1.dst (p + 16)
  let m ← stD v.1 p (bx x f)
  pure (m, bx v.2.1 tmp, fun j => if j = k then tmp else v.2.2 j)

/-- Second part (aez.c 520-527): `store(dst + 2k+1, aes4(dst[2k], J, I, L, tmp[k]))`. -/
def twoB (c : Ctx) (tmp : Nat → Block) (g : Group) (k : Nat) (m : Mem) : Res Mem := do
  let p := 32 * (g.first + k)
  let a ← ld m.dst p
  stD m (p + 16) (aes4 R a c.J0 c.I0 c.L (tmp k))

/-- Third part (aez.c 528-539): `store(dst + 2k, aes4(dst[2k+1] ^ o_k, J, I, L, dst[2k]))`. -/
def twoC (c : Ctx) (g : Group) (k : Nat) (m : Mem) : Res Mem := do
  let p := 32 * (g.first + k)
  let b ← ld m.dst (p + 16)
  let a ← ld m.dst p
  stD m p (aes4 R (bx b (g.off k)) c.J0 c.I0 c.L a)

def twoGroup (c : Ctx) (s : Block) (g : Group) (v : Mem × Block) : Res (Mem × Block) := do
  let r ← loopN (twoA R c s g) g.count (v.1, v.2, fun _ => bzero)
  let m ← loopN (twoB R c r.2.2 g) g.count r.1
  let m ← loopN (twoC R c g) g.count m
  pure (m, r.2.1)

/-- `pass_two`, aez.c 461-606. -/
def passTwo (c : Ctx) (s : Block) (bytes : Nat) (m : Mem) : Res (Mem × Block) :=
  runGroups (twoGroup R c s) (groups c bytes) (m, bzero)

/-! ## Core -/

/-- The fragments and their contribution to `x`, aez.c 640-653: `frag0`, `frag1`, `x`. -/
def coreFrag (c : Ctx) (al : Bool) (m : Mem) (initial frag : Nat) (x : Block) : Res (Block × Block × Block) :=
  if frag ≥ 16 then do
    let frag0 ← ldS al m initial
    let r ← ldS al m (initial + 16)
    let frag1 ← oneZeroPad r (32 - frag)
    let x := aes4 R (bx frag0 c.I2) c.J0 c.I0 c.L x
    let x := bx x (aes4 R (bx (bx frag1 c.I2) c.I0) c.J0 c.I0 c.L bzero)
    pure (frag0, frag1, x)
  else if frag ≠ 0 then do
    let r ← ldS al m initial
    let frag0 ← oneZeroPad r (16 - frag)
    let x := aes4 R (bx frag0 c.I2) c.J0 c.I0 c.L x
    pure (frag0, bzero, x)
  else pure (bzero, bzero, x)

/-- The fragments of the output and their contribution to `y`, aez.c 671-686. -/
def coreFragOut (c : Ctx) (m : Mem) (s frag0 frag1 : Block) (initial frag : Nat) (y : Block) : Res (Mem × Block) :=
  if frag ≥ 16 then do
    let frag0 := bx frag0 (aes R c s c.J2)
    let frag1 := bx frag1 (aes R c s (bx c.J2 c.J0))
    let frag1 ← oneZeroPad frag1 (32 - frag)
    let y := aes4 R (bx frag0 c.I2) c.J0 c.I0 c.L y
    let y := bx y (aes4 R (bx (bx frag1 c.I2) c.I0) c.J0 c.I0 c.L bzero)
    let m ← stD m initial frag0
    let m ← stD m (initial + 16) frag1
    pure (m, y)
  else if frag ≠ 0 then do
    let frag0 := bx frag0 (aes R c s c.J2)
    let frag0 ← oneZeroPad frag0 (16 - frag)
    let y := aes4 R (bx frag0 c.I2) c.J0 c.I0 c.L y
    let m ← stD m initial frag0
    pure (m, y)
  else pure (m, y)

/-- `cipher_aez_core`, aez.c 610-698, for `bytes` ≥ 32 and `abytes` = 0 (the test for zero bytes at decryption, 663-666, then always
succeeds). `d` is false for encryption. -/
def core (c : Ctx) (t : Block) (d : Bool) (al : Bool) (bytes : Nat) (m : Mem) : Res Mem := do
  let frag := bytes % 32
  let initial := bytes - frag - 32
  let r1 ← passOne R c al initial m
  let fr ← coreFrag R c al r1.1 initial frag r1.2
  let x := fr.2.2
  let s0 ← ldS al r1.1 (bytes - 32)
  let final0 := bx (bx s0 x) t
  let final1 ← ldS al r1.1 (bytes - 32 + 16)
  let final0 := aes4 R (bx final1 (c.Id d)) c.J0 c.I0 c.L final0
  let final1 := bx final1 (aes R c final0 (c.Jd d))
  let s := bx final0 final1
  let final0 := bx final0 (aes R c final1 (c.Jd (!d)))
  let final1 := aes4 R (bx final0 (c.Id (!d))) c.J0 c.I0 c.L final1
  let r2 ← passTwo R c s initial r1.1
  let fo ← coreFragOut R c r2.1 s fr.1 fr.2.1 initial frag r2.2
  let m ← stD fo.1 (bytes - 32) (bx (bx final1 fo.2) t)
  stD m (bytes - 32 + 16) final0

/-! ## Tiny -/

/-- `buf[0]` and `buf[1]`: the loaded message, zero padded, aez.c 726-733. -/
def tinyBuf0 (src : Buf) (bytes : Nat) : Res Block :=
  if bytes ≥ 16 then ld src 0 else ldPart src 0 bytes >>= fun x => zeroPad x (16 - bytes)
def tinyBuf1 (src : Buf) (bytes : Nat) : Res Block :=
  if bytes ≥ 16 then ldPart src 16 (bytes - 16) >>= fun x => zeroPad x (32 - bytes) else .ok bzero
def tinyLoadFrom (src : Buf) (bytes : Nat) : Res Buf := do
  let b0 ← tinyBuf0 src bytes
  let b1 ← tinyBuf1 src bytes
  pure ⟨32, fun i => if h : i < 16 then b0 ⟨i, h⟩ else if h : i < 32 then b1 ⟨i - 16, by omega⟩ else 0⟩
def tinyLoad (al : Bool) (bytes : Nat) (m : Mem) : Res Buf := tinyLoadFrom (if al then m.dst else m.src) bytes

/-- `mask_ff` and `mask_10`, aez.c 741-746. -/
def tinyMasks (bytes : Nat) : Res (Block × Block) := do
  let ff ← ld pad (16 - bytes / 2)
  let m10 ← ld pad (32 - bytes / 2)
  if bytes % 2 = 1 then pure ((fun i => if i.1 = bytes / 2 then 0xf0 else ff i), sll4 m10)
  else pure (ff, m10)

/-- The right half, aez.c 740 and 747-751 (before masking). -/
def tinyRight (bytes : Nat) (buf : Buf) : Res Block := do
  let r ← ld buf (bytes / 2)
  pure (if bytes % 2 = 1 then bswap (srl4 (bswap r)) else r)

/-- The number of rounds, aez.c 754-766. -/
def rounds (bytes : Nat) : Nat := if bytes ≥ 16 then 8 else if bytes ≥ 3 then 10 else if bytes = 2 then 16 else 24

/-- The tweak, aez.c 754-758. -/
def tinyTweak (c : Ctx) (t : Block) (bytes : Nat) : Block :=
  if bytes ≥ 16 then bx (bx t c.I1) c.I2 else bx (bx t c.I0) (bx c.I1 c.I2)

/-- `vor(vand(x, mask_ff), mask_10)`. -/
def mask (ff m10 x : Block) : Block := bor (band x ff) m10

/-- The Feistel loop, aez.c 784-789: `n` iterations of two rounds. -/
def feistel (c : Ctx) (t ff m10 one : Block) : Nat → Block → Block × Block → Block × Block
  | 0, _, lr => lr
  | n + 1, rcon, (l, r) =>
    let l := mask ff m10 (aes4 R (bx (bx t r) rcon) c.J0 c.I0 c.L l)
    let rcon := badd rcon one
    let r := mask ff m10 (aes4 R (bx (bx t l) rcon) c.J0 c.I0 c.L r)
    let rcon := badd rcon one
    feistel c t ff m10 one n rcon (l, r)

/-- The bit mixed into the first byte of short messages, aez.c 777-780 and 813-814, from the first block with its top bit set. -/
def topBit (c : Ctx) (t0 x : Block) : Res Block := do
  let p ← ld pad 32
  let tmp := aes4 R (bx (bx (bor x p) t0) (bx c.I0 c.I1)) c.J0 c.I0 c.L bzero
  pure (band tmp p)

/-- The left half before the Feistel network, aez.c 776-782. -/
def tinyLeft (c : Ctx) (t0 : Block) (d : Bool) (bytes : Nat) (l : Block) : Res Block :=
  if d ∧ bytes < 16 then do
    let tmp ← topBit R c t0 l
    pure (bx l tmp)
  else pure l

/-- Putting the halves together, aez.c 790-798. -/
def tinyJoin (bytes : Nat) (buf : Buf) (l r : Block) : Res Buf := do
  let buf ← st buf 0 r
  if bytes % 2 = 1 then do
    let l := bswap (sll4 (bswap l))
    let q ← ld buf (bytes / 2)
    let l := bor l (band q (zeroSetByte 0xf0 0))
    st buf (bytes / 2) l
  else st buf (bytes / 2) l

/-- The last step of encryption, aez.c 812-816. -/
def tinyFinish (c : Ctx) (t0 : Block) (d : Bool) (bytes : Nat) (buf : Buf) : Res Buf :=
  if d = false ∧ bytes < 16 then do
    let b0 ← ld buf 0
    let z ← zeroPad b0 (16 - bytes)
    let tmp ← topBit R c t0 z
    st buf 0 (bx b0 tmp)
  else pure buf

/-- `cipher_aez_tiny`, aez.c 702-819, for 1 ≤ `bytes` < 32 and `abytes` = 0 (the authentication test 800-811 compares nothing). -/
def tiny (c : Ctx) (t : Block) (d : Bool) (al : Bool) (bytes : Nat) (m : Mem) : Res Mem := do
  let buf ← tinyLoad al bytes m
  let l ← ld buf 0
  let r ← tinyRight bytes buf
  let ms ← tinyMasks bytes
  let r := mask ms.1 ms.2 r
  let tw := tinyTweak c t bytes
  let rnds := rounds bytes
  let one := if d then zeroSetByte 255 15 else zeroSetByte 1 15
  let rcon := if d then zeroSetByte (UInt8.ofNat (rnds - 1)) 15 else bzero
  let l ← tinyLeft R c t d bytes l
  let lr := feistel R c tw ms.1 ms.2 one (rnds / 2) rcon (l, r)
  let buf ← tinyJoin bytes buf lr.1 lr.2
  let buf ← tinyFinish R c t d bytes buf
  if bytes ≤ m.dst.size then .ok ⟨m.src, m.dst.size, fun i => if i < bytes then buf.data i else m.dst.data i⟩ else .ub

/-- `aez_encrypt` (aez.c 823-843, `d` = false) and `aez_decrypt` (847-870, `d` = true) with `abytes` = 0: the memory afterwards.
For zero bytes nothing is written. -/
def aez (c : Ctx) (d : Bool) (al : Bool) (bytes : Nat) (m : Mem) : Res Mem := do
  let t ← hash R c
  if bytes = 0 then pure m
  else if bytes < 32 then tiny R c t d al bytes m
  else core R c t d al bytes m

/-! ## `Prp` -/

/-- `Prp::encrypt(in, len, out)` (prp.cpp 168-199, `d` = false) and `Prp::decrypt(in, len, out)` (229-263). `avail` is
`Prp::is_available()`; `ctx` is the context, `none` for a moved-from object. The result is the content of `out`. -/
def prpBuf (avail : Bool) (ctx : Option Ctx) (d : Bool) (al : Bool) (len : Nat) (m : Mem) : Res Mem :=
  if avail = false then .exc .runtimeError
  else match ctx with
    | none => .exc .runtimeError
    | some c => aez R c d al len m

/-- `Prp::encrypt(const std::string&, std::string&)` (prp.cpp 201-227) and `decrypt` (265-292), and the returning versions.
`junk` is the content of the new buffer. -/
def prpString (avail : Bool) (ctx : Option Ctx) (junk : Nat → UInt8) (d : Bool) (inp : Bytes) : Res Bytes :=
  if avail = false then .exc .runtimeError
  else if inp.length > 4294967295 then .exc .runtimeError
  else (fun m => m.dst.toList) <$> prpBuf R avail ctx d false inp.length ⟨Buf.ofList inp, ⟨inp.length, junk⟩⟩

/-- `Prp::encrypt(uint32_t)`, `encrypt_64`, `decrypt(uint32_t)`, `decrypt_64`, prp.cpp 124-166: `n` = 4 or 8 bytes, little-endian. -/
def prpInt (avail : Bool) (ctx : Option Ctx) (junk : Nat → UInt8) (d : Bool) (n x : Nat) : Res Nat :=
  (fun m => leNat m.dst.toList) <$> prpBuf R avail ctx d false n ⟨Buf.ofList (leBytes n x), ⟨n, junk⟩⟩

/-- The context made from a 48-byte key, prp.cpp 87-107. -/
def mkPrp (avail : Bool) (key : Option Bytes) : Res Ctx :=
  if avail = false then .exc .runtimeError
  else match key with
    | none => .exc .runtimeError
    | some k => .ok (setup fun i => k.getD i 0)

end

end Verif.Aez
