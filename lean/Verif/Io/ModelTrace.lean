import Verif.Io.Pem
import Verif.Trace.Basic

/-!
# Base64 and the writing of PEM with what an observer sees

The functions of `Verif/Io/Base64.lean` and of the writer in `Verif/Io/Pem.lean` once more, with every conditional branch and every access to memory of the
source text (`src/mbedtls/base64.c`, `src/mbedtls/pem.c`).  Local variables are registers.  `&&` and `||` are branches.  Library functions (`memcpy`) read and
write the bytes they are given.  That the results are those of the untraced functions is proved in `Verif/Io/PropsTrace.lean`.
-/

namespace Verif.Io.Traced

open Verif Verif.Trace T

/-- The memory: the input and the output of base64, the two tables, `*olen`, the markers and the buffer of the PEM writer. -/
inductive Rg where
  | src | dst | encMap | decMap | olen | mark | buf
deriving DecidableEq

abbrev M := T Rg

/-- A branch that is taken or not. -/
def tick (c : Bool) : M Unit := ⟨[.br c], .ok ()⟩

/-- A load of element `i` of an array of bytes. -/
def rdT {α : Type} (r : Rg) (a : List α) (i : Nat) : M α := ⟨[.rd r i 1], rd a i⟩

/-- `*p++ = b`. -/
def putT (cap : Nat) (out : Bytes) (b : UInt8) : M Bytes := ⟨[.wr .dst out.length 1], put cap out b⟩

/-- `*p++ = base64_enc_map[v]`. -/
def putEncT (cap : Nat) (out : Bytes) (v : Nat) : M Bytes := rdT .encMap encMap v >>= putT cap out

/-- `*olen = …; return`. -/
def retT (r : B64) : M B64 := ⟨[.wr .olen 0 8], .ok r⟩

/-- The main loop of the encoder, base64.c 108-118, with its test `i < n`. -/
def encGroupsT (cap : Nat) (src : Bytes) : Nat → Nat → Bytes → M Bytes
  | 0, _, out => do
    tick false
    pure out
  | k + 1, i, out => do
    tick true
    let c1 ← rdT .src src i
    let c2 ← rdT .src src (i + 1)
    let c3 ← rdT .src src (i + 2)
    let out ← putEncT cap out ((c1.toNat >>> 2) &&& 0x3F)
    let out ← putEncT cap out ((((c1.toNat &&& 3) <<< 4) + (c2.toNat >>> 4)) &&& 0x3F)
    let out ← putEncT cap out ((((c2.toNat &&& 15) <<< 2) + (c3.toNat >>> 6)) &&& 0x3F)
    let out ← putEncT cap out (c3.toNat &&& 0x3F)
    encGroupsT cap src k (i + 3) out

/-- The incomplete group at the end, base64.c 120-133. -/
def encTailT (cap : Nat) (src : Bytes) (i : Nat) (out : Bytes) : M Bytes :=
  ifT (i < src.length) (do
    let c1 ← rdT .src src i
    let c2 ← ifT (i + 1 < src.length) (rdT .src src (i + 1)) (pure 0)
    let out ← putEncT cap out ((c1.toNat >>> 2) &&& 0x3F)
    let out ← putEncT cap out ((((c1.toNat &&& 3) <<< 4) + (c2.toNat >>> 4)) &&& 0x3F)
    let out ← ifT (i + 1 < src.length) (putEncT cap out (((c2.toNat &&& 15) <<< 2) &&& 0x3F)) (putT cap out 0x3d)
    putT cap out 0x3d) (pure out)

/-- The writing of the text, base64.c 106-141. -/
def encFillT (dlen : Nat) (src : Bytes) : M B64 := do
  let out ← encGroupsT dlen src (src.length / 3) 0 []
  let out ← encTailT dlen src (src.length / 3 * 3) out
  let _ ← retT (.ok [] 0)
  let res ← putT dlen out 0
  pure (.ok res out.length)

/-- `mbedtls_base64_encode`, base64.c 76-142; a null pointer comes with the length 0. -/
def encodeT (dst : Option Nat) (src : Bytes) : M B64 :=
  ifT (src.length = 0) (retT (.ok [] 0))
    (let n := src.length / 3 + (if src.length % 3 ≠ 0 then 1 else 0)
    ifT (n > (W64 - 1 - 1) / 4) (retT (.tooSmall (W64 - 1)))
      (let n := n * 4
      ifT (dst.getD 0 < n + 1) (retT (.tooSmall (n + 1)))
        (ifT (dst = none) (retT (.tooSmall (n + 1))) (encFillT (dst.getD 0) src))))

/-- The load of the character `c`, which is at position `i` of the input. -/
def ldT (i : Nat) (c : UInt8) : M UInt8 := ⟨[.rd .src i 1], .ok c⟩

/-- What the first pass does with a character: go on in the `while` loop, go on in the `for` loop, refuse, or count it. -/
inductive Step where
  | space | eol | bad | char (j : Nat)
deriving DecidableEq

/-- The test for the end of a line, base64.c 169-171. -/
def eolT (i : Nat) (c : UInt8) (rest : Bytes) : M Bool :=
  ifT (rest ≠ []) (do
    let c ← ldT i c
    ifT (c = 0x0d) (do
      let d ← ⟨[.rd .src (i + 1) 1], rd rest 0⟩
      ifT (d = 0x0a) (pure true) (pure false)) (pure false)) (pure false)

/-- The look-ups of a character, base64.c 183-192. -/
def lookT (i : Nat) (c : UInt8) (j : Nat) : M Step := do
  let c ← ldT i c
  ifT (c.toNat > 127) (pure .bad) (do
    let c ← ldT i c
    let d ← rdT .decMap decMap c.toNat
    ifT (d = 127) (pure .bad) (do
      let c ← ldT i c
      let d ← rdT .decMap decMap c.toNat
      ifT (d < 64) (ifT (j ≠ 0) (pure .bad) (pure (.char j))) (pure (.char j))))

/-- A character that is neither a space nor the end of a line with a carriage return, base64.c 173-192. -/
def charT (x i : Nat) (c : UInt8) (j : Nat) : M Step := do
  let c ← ldT i c
  ifT (c = 0x0a) (pure .eol) (ifT (x ≠ 0) (pure .bad) (do
    let c ← ldT i c
    ifT (c = 0x3d) (ifT (j + 1 > 2) (pure .bad) (lookT i c (j + 1))) (lookT i c j)))

/-- One character `c` at position `i` of the first pass, base64.c 159-192, followed by `rest`, after `x` spaces and with `j` signs `=`. -/
def stepT (x i : Nat) (c : UInt8) (rest : Bytes) (j : Nat) : M Step := do
  tick true
  let c ← ldT i c
  ifT (c = 0x20) (pure .space) (do
    tick false
    let eol ← eolT i c rest
    if eol then pure .eol else charT x i c j)

/-- The first pass of the decoder, base64.c 155-193, on the bytes from position `i` on; `top` at the test of the `for` loop, otherwise at the test of the
`while` loop of line 159, where `x` spaces have been counted. -/
def scanT : Bool → Nat → Nat → Bytes → Nat → Nat → M (Option (Nat × Nat))
  | true, _, _, [], n, j => do
    tick false
    pure (some (n, j))
  | false, _, _, [], n, j => do
    tick false
    tick true
    pure (some (n, j))
  | top, x, i, c :: rest, n, j => do
    if top then tick true
    match ← stepT x i c rest j with
    | .space => scanT false ((x + 1) % 4294967296) (i + 1) rest n j
    | .eol => scanT true 0 (i + 1) rest n j
    | .bad => pure none
    | .char j => scanT true 0 (i + 1) rest (n + 1) j

/-- `if (c) *p++ = b`. -/
def putIfT (c : Bool) (cap : Nat) (out : Bytes) (b : UInt8) : M Bytes := ifT (c = true) (putT cap out b) (pure out)

/-- Storing the bytes of a complete group, base64.c 222-226. -/
def emitGroupT (cap j x : Nat) (out : Bytes) : M Bytes := do
  let out ← putIfT (j > 0) cap out (UInt8.ofNat (x >>> 16))
  let out ← putIfT (j > 1) cap out (UInt8.ofNat (x >>> 8))
  putIfT (j > 2) cap out (UInt8.ofNat x)

/-- The second pass of the decoder, base64.c 213-227; `i` is the position. -/
def emitT (cap : Nat) : Nat → Bytes → Nat → Nat → Nat → Bytes → M Bytes
  | _, [], _, _, _, out => do
    tick false
    pure out
  | i, c :: rest, j, n, x, out => do
    tick true
    let c ← ldT i c
    let ws ← ifT (c = 0x0d) (pure true) (do
      let c ← ldT i c
      ifT (c = 0x0a) (pure true) (do
        let c ← ldT i c
        ifT (c = 0x20) (pure true) (pure false)))
    if ws then emitT cap (i + 1) rest j n x out
    else do
      let c ← ldT i c
      let d ← rdT .decMap decMap c.toNat
      let j := (j + 4294967296 - (if d = 64 then 1 else 0)) % 4294967296
      let c ← ldT i c
      let d ← rdT .decMap decMap c.toNat
      let x := ((x <<< 6) % 4294967296) ||| (d &&& 0x3F)
      ifT (n + 1 = 4) (do
        let out ← emitGroupT cap j x out
        emitT cap (i + 1) rest j 0 x out) (emitT cap (i + 1) rest j (n + 1) x out)

/-- `mbedtls_base64_decode`, base64.c 147-235. -/
def decodeT (dst : Option Nat) (src : Bytes) : M B64 := do
  match ← scanT true 0 0 src 0 0 with
  | none => pure .invalidChar
  | some (n, j) =>
    ifT (n = 0) (retT (.ok [] 0))
      (let n := (6 * (n >>> 3) + ((6 * (n &&& 0x7) + 7) >>> 3) + W64 - j) % W64
      ifT (dst = none) (retT (.tooSmall n)) (ifT (dst.getD 0 < n) (retT (.tooSmall n)) (do
        let out ← emitT (dst.getD 0) 0 src 3 0 0 []
        retT (.ok out out.length))))

/-- `memcpy(p, c, len); p += len` into the buffer of `cap` bytes, from offset `off` of `r`. -/
def blitT (cap : Nat) (out : Bytes) (r : Rg) (off : Nat) (b : Bytes) : M Bytes :=
  ⟨[.rd r off b.length, .wr .buf out.length b.length], blit cap out b⟩

/-- The loop that writes the lines, pem.c 162-171; `c` holds the characters left, the first of them at `off`. -/
def pemLinesT (cap : Nat) (off : Nat) (c out : Bytes) : M Bytes :=
  if h : c.length = 0 then do
    tick false
    pure out
  else do
    tick true
    let len ← ifT (c.length > 64) (pure 64) (pure c.length)
    if hl : len = if c.length > 64 then 64 else c.length then do
      let out ← blitT cap out .dst off (c.take len)
      let out ← ⟨[.wr .buf out.length 1], put cap out 0x0a⟩
      pemLinesT cap (off + len) (c.drop len) out
    else bad
  termination_by c.length
  decreasing_by rw [List.length_drop, hl]; split <;> omega

/-- `mbedtls_pem_write_buffer` after the sizing call, pem.c 143-183. -/
def pemFillT (header footer der : Bytes) (bufLen useLen : Nat) : M (Option Bytes) :=
  let addLen := header.length + footer.length + useLen / 64 + 1
  ifT ((useLen + addLen) % W64 > bufLen) (pure none) (do
    let r ← encodeT (some useLen) der
    match r with
    | .ok text len => do
      tick false
      let out ← blitT bufLen [] .mark 0 header
      let out ← pemLinesT bufLen 0 (text.take len) out
      let out ← blitT bufLen out .mark 0 footer
      let out ← ⟨[.wr .buf out.length 1], put bufLen out 0⟩
      pure (some out)
    | _ => do
      tick true
      pure none)

/-- `mbedtls_pem_write_buffer`, pem.c 134-183. -/
def pemWriteT (header footer der : Bytes) (bufLen : Nat) : M (Option Bytes) := do
  let size ← encodeT none der
  pemFillT header footer der bufLen size.olen

/-- The decoding step of `mbedtls_pem_read_buffer`, pem.c 102-121. -/
def pemDecodeT (body : Bytes) (useLen : Nat) : M PemR := do
  let size ← decodeT none body
  match size with
  | .invalidChar => do
    tick true
    pure .invalidData
  | .ok _ len | .tooSmall len => do
    tick false
    let r ← decodeT (some len) body
    match r with
    | .ok out _ => do
      tick false
      pure (.ok out useLen)
    | _ => do
      tick true
      pure .invalidData

end Verif.Io.Traced
