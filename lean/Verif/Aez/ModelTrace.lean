import Verif.Aez.ModelAead
import Verif.Trace.Basic

/-!
# AEZ as seen by an observer of branches and addresses: model (`src/aez/aez.c`, AES-NI branch)

The functions of `Verif.Aez.ModelAead` again, statement by statement, with an event for every conditional branch, every load and store of a buffer, of the
table `pad`, of a local array with an index that is not constant, and of the context with an index that is not constant (`ctx->I[d]`, `ctx->J[d]`).  The fixed
fields of the context and local variables are accessed at addresses that are constants of the program; they give no event.  The vector instructions, `aesenc`
among them, give no event: that their duration does not depend on the data is assumed.
-/

namespace Verif.Aez.Traced

open Verif Verif.Aez Verif.Aez.Aead Verif.Trace Verif.Trace.T

/-- The regions of memory. -/
inductive Reg where
  | src | dst | nonce | pad | ctx | key
  /-- A local array. -/
  | loc
deriving DecidableEq

abbrev M := T Reg

/-! ## Accesses -/

/-- A load of a block. -/
def rdT (b : Buf) (r : Reg) (off : Nat) : M Block := ⟨[.rd r off 16], ld b off⟩

/-- A load of `pad`. -/
def rdPad (off : Nat) : M Block := rdT Aez.pad .pad off

/-- A load of one byte. -/
def rdB (b : Buf) (r : Reg) (off : Nat) : M UInt8 := ⟨[.rd r off 1], if off < b.size then .ok (b.data off) else .ub⟩

/-- `((char*)&x)[i]` of a local block. -/
def getB (x : Block) (i : Nat) : M UInt8 := ⟨[.rd .loc i 1], if h : i < 16 then .ok (x ⟨i, h⟩) else .ub⟩

/-- `((char*)&tmp)[i] = v` for a local block. -/
def setB (tmp : Block) (i : Nat) (v : UInt8) : M Block := ⟨[.wr .loc i 1], if i < 16 then .ok (fun j => if j.1 = i then v else tmp j) else .ub⟩

/-- The pointer `b + off` is formed. -/
def ptr (b : Buf) (off : Nat) : M Unit := ⟨[], if off ≤ b.size then .ok () else .ub⟩

/-- A load from the source. -/
def ldST (al : Bool) (m : Mem) (off : Nat) : M Block := if al then rdT m.dst .dst off else rdT m.src .src off

/-- A store to the destination. -/
def stDT (m : Mem) (off : Nat) (x : Block) : M Mem := ⟨[.wr .dst off 16], stD m off x⟩

/-- A store of one byte to the destination. -/
def stB (m : Mem) (off : Nat) (v : UInt8) : M Mem :=
  ⟨[.wr .dst off 1], if off < m.dst.size then .ok ⟨m.src, m.dst.size, fun i => if i = off then v else m.dst.data i⟩ else .ub⟩

/-- A store to the local array `buf`. -/
def stL (b : Buf) (off : Nat) (x : Block) : M Buf := ⟨[.wr .loc off 16], st b off x⟩

/-- `ctx->I[d]` and `ctx->J[d]`; the fields are at 0 and 48. -/
def ctxI (c : Ctx) (d : Bool) : M Block := ⟨[.rd .ctx (if d then 16 else 0) 16], .ok (c.Id d)⟩
def ctxJ (c : Ctx) (d : Bool) : M Block := ⟨[.rd .ctx (48 + if d then 16 else 0) 16], .ok (c.Jd d)⟩

/-- `load_partial`, aez.c 234-242. -/
def ldPartT (b : Buf) (r : Reg) (off n : Nat) : M Block := do
  ptr b off
  forT (fun i tmp => do
    let v ← rdB b r (off + i)
    setB tmp i v) n bzero

/-- `load_partial` from the source. -/
def ldPartST (al : Bool) (m : Mem) (off n : Nat) : M Block := if al then ldPartT m.dst .dst off n else ldPartT m.src .src off n

/-- `zero_pad`, aez.c 250-253. -/
def zeroPadT (x : Block) (n : Nat) : M Block := do
  let p ← rdPad n
  pure (band x p)

/-- `one_zero_pad`, aez.c 255-259. -/
def oneZeroPadT (x : Block) (n : Nat) : M Block := do
  let p ← rdPad n
  let p1 ← rdPad (n + 16)
  pure (bor (band x p) p1)

/-- `for (i = 0; i < n; i++) (dst + off)[i] = ((char*)&x)[i]`, aez.c 689-692 and 834-836. -/
def stBytesT (m : Mem) (off n : Nat) (x : Block) : M Mem := do
  ptr m.dst off
  forT (fun i m => do
    let v ← getB x i
    stB m (off + i) v) n m

/-! ## Setup and hash -/

/-- `aez_setup`, aez.c 271-295, for a key of 48 bytes: the branch on the length, three loads of the key and seven stores of fields of the context. -/
def setupT (key : Nat → UInt8) : M Ctx :=
  ⟨[.br true, .rd .key 0 16, .wr .ctx 0 16, .rd .key 16 16, .wr .ctx 48 16, .rd .key 32 16, .wr .ctx 96 16,
    .wr .ctx 16 16, .wr .ctx 32 16, .wr .ctx 64 16, .wr .ctx 80 16], .ok (setup key)⟩

section
variable (R : Block → Block)

/-- `aez_hash`, aez.c 300-333. -/
def hashNT (c : Ctx) (nonce : Buf) (nbytes abytes : Nat) : M Block := do
  let j8 := bswap (dbl (bswap c.J2))
  let l2 := bswap (dbl (bswap c.L))
  let l4 := bswap (dbl (dbl (bswap c.L)))
  let offset := bx c.L j8
  let sum := aes4 R (bx offset (zeroSetByte (UInt8.ofNat (8 * abytes)) 15)) c.J0 c.I0 c.L offset
  let offset ← ifT (nbytes = 16) (pure (bx l2 j8)) (pure l2)
  let p ← ldPartT nonce .nonce 0 nbytes
  let tmp ← oneZeroPadT p (subU 16 nbytes)
  let sum := bx sum (aes4 R (bx offset tmp) c.J0 c.I0 c.L offset)
  let p ← rdPad 32
  pure (bx sum (aes4 R (bx l4 p) c.J0 c.I0 c.L l4))

/-! ## The two passes -/

/-- The tests of a pass in their order, aez.c 356-455 and 475-605, each with the group handled when it succeeds: `while (bytes >= 16 * 16)`, its last test, then
the three `if` statements. -/
def tests (c : Ctx) (bytes : Nat) : List (Option Group) :=
  let first := 8 * (bytes / 256)
  let rem := bytes % 256
  let o := base c (bytes / 256)
  let t4 : Option Group := if rem ≥ 128 then some ⟨first, 4, groupOff c o⟩ else none
  let o := if rem ≥ 128 then bx o c.I2 else o
  let first := if rem ≥ 128 then first + 4 else first
  let rem := if rem ≥ 128 then rem - 128 else rem
  let t2 : Option Group := if rem ≥ 64 then some ⟨first, 2, groupOff c o⟩ else none
  let o := if rem ≥ 64 then bx o c.I1 else o
  let first := if rem ≥ 64 then first + 2 else first
  let rem := if rem ≥ 64 then rem - 64 else rem
  let t1 : Option Group := if rem ≠ 0 then some ⟨first, 1, groupOff c o⟩ else none
  (List.range (bytes / 256)).map (fun g => some ⟨8 * g, 8, groupOff c (base c g)⟩) ++ [none, t4, t2, t1]

/-- The tests with their branches. -/
def runTests {σ : Type} (f : Group → σ → M σ) : List (Option Group) → σ → M σ
  | [], s => pure s
  | some g :: ts, s => (⟨.br true :: (f g s).evs, (f g s).res⟩ : M σ) >>= runTests f ts
  | none :: ts, s => ⟨.br false :: (runTests f ts s).evs, (runTests f ts s).res⟩

/-- First half of a group in `pass_one`, aez.c 366-376. -/
def oneAT (c : Ctx) (al : Bool) (g : Group) (k : Nat) (m : Mem) : M Mem := do
  let p := 32 * (g.first + k)
  let b ← ldST al m (p + 16)
  let a ← ldST al m p
  stDT m p (aes4 R (bx b (g.off k)) c.J0 c.I0 c.L a)

/-- Second half, aez.c 377-400. -/
def oneBT (c : Ctx) (al : Bool) (g : Group) (k : Nat) (s : Mem × Block) : M (Mem × Block) := do
  let p := 32 * (g.first + k)
  let w ← rdT s.1.dst .dst p
  let b ← ldST al s.1 (p + 16)
  let tmp := aes4 R w c.J0 c.I0 c.L b
  let m ← stDT s.1 (p + 16) tmp
  pure (m, bx s.2 tmp)

def oneGroupT (c : Ctx) (al : Bool) (g : Group) (s : Mem × Block) : M (Mem × Block) := do
  let m ← loopT (oneAT R c al g) g.count s.1
  loopT (oneBT R c al g) g.count (m, s.2)

/-- `pass_one`, aez.c 337-457. -/
def passOneT (c : Ctx) (al : Bool) (bytes : Nat) (m : Mem) : M (Mem × Block) := runTests (oneGroupT R c al) (tests c bytes) (m, bzero)

/-- First part of a group in `pass_two`, aez.c 488-519 (`fs` and `tmp` are indexed by constants). -/
def twoAT (c : Ctx) (s : Block) (g : Group) (k : Nat) (v : Mem × Block × (Nat → Block)) : M (Mem × Block × (Nat → Block)) := do
  let p := 32 * (g.first + k)
  let f := aes4 R (bx s (g.off k)) c.L c.I0 c.J0 c.L
  let w ← rdT v.1.dst .dst p
  let tmp := bx w f
  let x ← rdT v.1.dst .dst (p + 16)
  let m ← stDT v.1 p (bx x f)
  pure (m, bx v.2.1 tmp, fun j => if j = k then tmp else v.2.2 j)

/-- Second part, aez.c 520-527. -/
def twoBT (c : Ctx) (tmp : Nat → Block) (g : Group) (k : Nat) (m : Mem) : M Mem := do
  let p := 32 * (g.first + k)
  let a ← rdT m.dst .dst p
  stDT m (p + 16) (aes4 R a c.J0 c.I0 c.L (tmp k))

/-- Third part, aez.c 528-539. -/
def twoCT (c : Ctx) (g : Group) (k : Nat) (m : Mem) : M Mem := do
  let p := 32 * (g.first + k)
  let b ← rdT m.dst .dst (p + 16)
  let a ← rdT m.dst .dst p
  stDT m p (aes4 R (bx b (g.off k)) c.J0 c.I0 c.L a)

def twoGroupT (c : Ctx) (s : Block) (g : Group) (v : Mem × Block) : M (Mem × Block) := do
  let r ← loopT (twoAT R c s g) g.count (v.1, v.2, fun _ => bzero)
  let m ← loopT (twoBT R c r.2.2 g) g.count r.1
  let m ← loopT (twoCT R c g) g.count m
  pure (m, r.2.1)

/-- `pass_two`, aez.c 461-606. -/
def passTwoT (c : Ctx) (s : Block) (bytes : Nat) (m : Mem) : M (Mem × Block) := runTests (twoGroupT R c s) (tests c bytes) (m, bzero)

/-! ## Core -/

/-- aez.c 640-653. -/
def coreFragT (c : Ctx) (al : Bool) (m : Mem) (initial frag : Nat) (x : Block) : M (Block × Block × Block) :=
  ifT (frag ≥ 16) (do
    let frag0 ← ldST al m initial
    let r ← ldST al m (initial + 16)
    let frag1 ← oneZeroPadT r (32 - frag)
    let x := aes4 R (bx frag0 c.I2) c.J0 c.I0 c.L x
    let x := bx x (aes4 R (bx (bx frag1 c.I2) c.I0) c.J0 c.I0 c.L bzero)
    pure (frag0, frag1, x))
  (ifT (frag ≠ 0) (do
    let r ← ldST al m initial
    let frag0 ← oneZeroPadT r (16 - frag)
    let x := aes4 R (bx frag0 c.I2) c.J0 c.I0 c.L x
    pure (frag0, bzero, x))
  (pure (bzero, bzero, x)))

/-- aez.c 671-686. -/
def coreFragOutT (c : Ctx) (m : Mem) (s frag0 frag1 : Block) (initial frag : Nat) (y : Block) : M (Mem × Block) :=
  ifT (frag ≥ 16) (do
    let frag0 := bx frag0 (aes R c s c.J2)
    let frag1 := bx frag1 (aes R c s (bx c.J2 c.J0))
    let frag1 ← oneZeroPadT frag1 (32 - frag)
    let y := aes4 R (bx frag0 c.I2) c.J0 c.I0 c.L y
    let y := bx y (aes4 R (bx (bx frag1 c.I2) c.I0) c.J0 c.I0 c.L bzero)
    let m ← stDT m initial frag0
    let m ← stDT m (initial + 16) frag1
    pure (m, y))
  (ifT (frag ≠ 0) (do
    let frag0 := bx frag0 (aes R c s c.J2)
    let frag0 ← oneZeroPadT frag0 (16 - frag)
    let y := aes4 R (bx frag0 c.I2) c.J0 c.I0 c.L y
    let m ← stDT m initial frag0
    pure (m, y))
  (pure (m, y)))

/-- `if (d || !abytes)`, aez.c 656-660. -/
def lastBlockT (al : Bool) (d : Bool) (m : Mem) (bytes abytes : Nat) : M Block :=
  ifT (d = true) (ldST al m (bytes - 32 + 16))
    (ifT (abytes = 0) (ldST al m (bytes - 32 + 16)) (do
      let b ← ldST al m (bytes - 32 + 16)
      zeroPadT b abytes))

/-- `if (!d || !abytes)`, aez.c 686-693. -/
def lastStoreT (d : Bool) (m : Mem) (bytes abytes : Nat) (final0 : Block) : M Mem :=
  ifT (d = false) (stDT m (bytes - 32 + 16) final0)
    (ifT (abytes = 0) (stDT m (bytes - 32 + 16) final0) (stBytesT m (bytes - 16) (subU 16 abytes) final0))

/-- `cipher_aez_core` after the test of the authentication bytes, aez.c 669-694. -/
def coreTailT (c : Ctx) (t : Block) (d : Bool) (bytes abytes : Nat) (m : Mem) (s final0 final1 frag0 frag1 : Block) : M (Mem × Bool) := do
  let i1 ← ctxI c (!d)
  let final1 := aes4 R (bx final0 i1) c.J0 c.I0 c.L final1
  let r2 ← passTwoT R c s (bytes - bytes % 32 - 32) m
  let fo ← coreFragOutT R c r2.1 s frag0 frag1 (bytes - bytes % 32 - 32) (bytes % 32) r2.2
  let m ← stDT fo.1 (bytes - 32) (bx (bx final1 fo.2) t)
  let m ← lastStoreT d m bytes abytes final0
  pure (m, true)

/-- `cipher_aez_core`, aez.c 610-695; `if (d && !is_zero(…)) return -1;` is two branches. -/
def coreT (c : Ctx) (t : Block) (d : Bool) (al : Bool) (bytes0 abytes : Nat) (m : Mem) : M (Mem × Bool) := do
  let bytes ← ifT (d = false) (pure ((bytes0 + abytes) % 4294967296)) (pure bytes0)
  let frag := bytes % 32
  let initial := bytes - frag - 32
  let r1 ← passOneT R c al initial m
  let fr ← coreFragT R c al r1.1 initial frag r1.2
  let x := fr.2.2
  let s0 ← ldST al r1.1 (bytes - 32)
  let final0 := bx (bx s0 x) t
  let final1 ← lastBlockT al d r1.1 bytes abytes
  let i0 ← ctxI c d
  let final0 := aes4 R (bx final1 i0) c.J0 c.I0 c.L final0
  let j0 ← ctxJ c d
  let final1 := bx final1 (aes R c final0 j0)
  let s := bx final0 final1
  let j1 ← ctxJ c (!d)
  let final0 := bx final0 (aes R c final1 j1)
  ifT (d = true) (do
    let p ← rdPad abytes
    ifT (isZero (bandnot p final0) = false) (pure (r1.1, false)) (coreTailT R c t d bytes abytes r1.1 s final0 final1 fr.1 fr.2.1))
    (coreTailT R c t d bytes abytes r1.1 s final0 final1 fr.1 fr.2.1)

/-! ## Tiny -/

/-- The array `buf`. -/
def mkBuf (b0 b1 : Block) : Buf := ⟨32, fun i => if h : i < 16 then b0 ⟨i, h⟩ else if h : i < 32 then b1 ⟨i - 16, by omega⟩ else 0⟩

/-- aez.c 726-733. -/
def tinyLoadT (al : Bool) (bytes : Nat) (m : Mem) : M Buf :=
  ifT (bytes ≥ 16) (do
    let b0 ← ldST al m 0
    let x ← ldPartST al m 16 (bytes - 16)
    let b1 ← zeroPadT x (32 - bytes)
    pure (mkBuf b0 b1))
  (do
    let x ← ldPartST al m 0 bytes
    let b0 ← zeroPadT x (16 - bytes)
    pure (mkBuf b0 bzero))

/-- The right half and the masks, aez.c 739-751: `r`, `mask_ff`, `mask_10`. -/
def tinyHalvesT (bytes : Nat) (buf : Buf) : M (Block × Block × Block) := do
  let r ← rdT buf .loc (bytes / 2)
  let ff ← rdPad (16 - bytes / 2)
  let m10 ← rdPad (32 - bytes / 2)
  ifT (bytes % 2 = 1)
    ⟨[.wr .loc (bytes / 2) 1], .ok (bswap (srl4 (bswap r)), (fun i => if i.1 = bytes / 2 then 0xf0 else ff i), sll4 m10)⟩
    (pure (r, ff, m10))

/-- The tweak and the number of rounds, aez.c 754-767. -/
def tinyRoundsT (c : Ctx) (t : Block) (bytes : Nat) : M (Block × Nat) :=
  ifT (bytes ≥ 16) (pure (bx (bx t c.I1) c.I2, 8))
    (ifT (bytes ≥ 3) (pure (bx (bx t c.I0) (bx c.I1 c.I2), 10))
      (ifT (bytes = 2) (pure (bx (bx t c.I0) (bx c.I1 c.I2), 16)) (pure (bx (bx t c.I0) (bx c.I1 c.I2), 24))))

/-- aez.c 777-780 and 812-814. -/
def topBitT (c : Ctx) (t0 x : Block) : M Block := do
  let p ← rdPad 32
  let tmp := aes4 R (bx (bx (bor x p) t0) (bx c.I0 c.I1)) c.J0 c.I0 c.L bzero
  let p ← rdPad 32
  pure (band tmp p)

/-- `if ((d) && (bytes < 16))`, aez.c 776-782. -/
def tinyLeftT (c : Ctx) (t0 : Block) (d : Bool) (bytes : Nat) (l : Block) : M Block :=
  ifT (d = true) (ifT (bytes < 16) (do
    let tmp ← topBitT R c t0 l
    pure (bx l tmp)) (pure l)) (pure l)

/-- One iteration of the Feistel loop, aez.c 785-788, on `rcon`, `l`, `r`. -/
def feistelStep (c : Ctx) (t ff m10 one : Block) (s : Block × Block × Block) : Block × Block × Block :=
  let l := mask ff m10 (aes4 R (bx (bx t s.2.2) s.1) c.J0 c.I0 c.L s.2.1)
  let rcon := badd s.1 one
  let r := mask ff m10 (aes4 R (bx (bx t l) rcon) c.J0 c.I0 c.L s.2.2)
  (badd rcon one, l, r)

/-- The Feistel loop, aez.c 784-789 (`rnds` is even). -/
def feistelT (c : Ctx) (t ff m10 one : Block) (n : Nat) (s : Block × Block × Block) : M (Block × Block × Block) :=
  forT (fun _ s => pure (feistelStep R c t ff m10 one s)) n s

/-- aez.c 790-798. -/
def tinyJoinT (bytes : Nat) (buf : Buf) (l r : Block) : M Buf := do
  let buf ← stL buf 0 r
  let l ← ifT (bytes % 2 = 1) (do
    let q ← rdT buf .loc (bytes / 2)
    pure (bor (bswap (sll4 (bswap l))) (band q (zeroSetByte 0xf0 0)))) (pure l)
  stL buf (bytes / 2) l

/-- aez.c 801-806. -/
def tinyTagT (buf : Buf) (bytes abytes : Nat) : M Block := ifT (abytes = 16) (rdT buf .loc bytes) (ldPartT buf .loc bytes abytes)

/-- aez.c 815-818. -/
def tinyWriteT (m : Mem) (buf : Buf) (bytes : Nat) : M (Mem × Bool) := do
  let m ← forT (fun i m => do
    let v ← rdB buf .loc i
    stB m i v) bytes m
  pure (m, true)

/-- The last step of encryption, `else if (bytes < 16)`, aez.c 811-815. -/
def tinyFinishT (c : Ctx) (t0 : Block) (bytes : Nat) (buf : Buf) : M Buf :=
  ifT (bytes < 16) (do
    let b0 ← rdT buf .loc 0
    let z ← zeroPadT b0 (16 - bytes)
    let tmp ← topBitT R c t0 z
    stL buf 0 (bx b0 tmp)) (pure buf)

/-- `cipher_aez_tiny`, aez.c 702-819. -/
def tinyT (c : Ctx) (t : Block) (d : Bool) (al : Bool) (bytes0 abytes : Nat) (m : Mem) : M (Mem × Bool) := do
  let buf ← tinyLoadT al bytes0 m
  let bytes ← ifT (d = false) (pure ((bytes0 + abytes) % 4294967296)) (pure bytes0)
  let l ← rdT buf .loc 0
  let h ← tinyHalvesT bytes buf
  let r := mask h.2.1 h.2.2 h.1
  let tr ← tinyRoundsT c t bytes
  let or ← ifT (d = false) (pure (zeroSetByte 1 15, bzero)) (pure (zeroSetByte 255 15, zeroSetByte (UInt8.ofNat (tr.2 - 1)) 15))
  let l ← tinyLeftT R c t d bytes l
  let lr ← feistelT R c tr.1 h.2.1 h.2.2 or.1 (tr.2 / 2) (or.2, l, r)
  let buf ← tinyJoinT bytes buf lr.2.1 lr.2.2
  ifT (d = true) (do
    let tmp ← tinyTagT buf (subU bytes abytes) abytes
    ifT (isZero tmp = false) (pure (m, false)) (tinyWriteT m buf (subU bytes abytes)))
    (do
      let buf ← tinyFinishT R c t bytes buf
      tinyWriteT m buf bytes)

/-! ## Interface -/

/-- `aez_encrypt`, aez.c 823-844. -/
def encT (c : Ctx) (nonce : Buf) (nbytes abytes : Nat) (al : Bool) (bytes : Nat) (m : Mem) : M Mem := do
  let t ← hashNT R c nonce nbytes abytes
  ifT (bytes = 0) (stBytesT m 0 abytes (emptyTag R c t))
    (ifT ((bytes + abytes) % 4294967296 < 32) (do
      let r ← tinyT R c t false al bytes abytes m
      pure r.1)
    (do
      let r ← coreT R c t false al bytes abytes m
      pure r.1))

/-- `aez_decrypt`, aez.c 848-872. -/
def decT (c : Ctx) (nonce : Buf) (nbytes abytes : Nat) (al : Bool) (bytes : Nat) (m : Mem) : M (Mem × Bool) :=
  ifT (bytes < abytes) (pure (m, false)) (do
    let t ← hashNT R c nonce nbytes abytes
    ifT (bytes = abytes) (do
      let x ← ldPartST al m 0 abytes
      let claimed ← zeroPadT x (subU 16 abytes)
      let t ← zeroPadT (emptyTag R c t) (subU 16 abytes)
      pure (m, isZero (bandnot t claimed)))
      (ifT (bytes < 32) (tinyT R c t true al bytes abytes m) (coreT R c t true al bytes abytes m)))

/-- The `iv` of `Prp::encrypt` and `Prp::decrypt`, prp.cpp 176-191 and 237-252. -/
def zeroIv : Buf := ⟨16, fun _ => 0⟩

/-- Making a `Prp` from a key of 48 bytes (prp.cpp 87-107) and one call of `encrypt(in, len, out)` (168-199, `d` = false) or `decrypt(in, len, out)` (229-263,
`d` = true), as far as `aez.c` is concerned; `Prp::decrypt` ignores what `aez_decrypt` returns. -/
def prpT (key : Nat → UInt8) (d : Bool) (al : Bool) (len : Nat) (m : Mem) : M Mem := do
  let c ← setupT key
  if d then do
    let r ← decT R c zeroIv 16 0 al len m
    pure r.1
  else encT R c zeroIv 16 0 al len m

end

end Verif.Aez.Traced
