import Verif.Io.Asn1

/-!
# Model of the functions of `asn1write.c` and `asn1parse.c` that the library does not call

Booleans, strings, bit strings, sequences of elements with one tag, algorithm identifiers without parameters, and lists of named data.
Conventions as in `Asn1.lean`.
-/

namespace Verif.Io

open Verif Verif.Tdp

/-! ## Writing -/

/-- `mbedtls_asn1_write_bool`, asn1write.c 217-232. -/
def writeBool (w : Wr) (b : Bool) : Res (Wr × Nat) :=
  if w.avail < 1 then err
  else do
    let w ← push w (if b then 255 else 0)
    writeHeader (w, 1) 0x01

/-- The writers of strings: the content, then length and tag. -/
def writeText (tag : UInt8) (w : Wr) (text : Bytes) : Res (Wr × Nat) := do
  let a ← chkAdd (w, 0) fun w => writeRaw w text
  writeHeader a tag

/-- `mbedtls_asn1_write_printable_string`, asn1write.c 268-281. -/
def writePrintable (w : Wr) (text : Bytes) : Res (Wr × Nat) := writeText 0x13 w text

/-- `mbedtls_asn1_write_ia5_string`, asn1write.c 283-296. -/
def writeIa5 (w : Wr) (text : Bytes) : Res (Wr × Nat) := writeText 0x16 w text

/-- `mbedtls_asn1_write_octet_string`, asn1write.c 325-337. -/
def writeOctets (w : Wr) (buf : Bytes) : Res (Wr × Nat) := writeText 0x04 w buf

/-- `mbedtls_asn1_write_bitstring`, asn1write.c 298-323: `buf` is the memory that the caller points to. -/
def writeBitString (w : Wr) (buf : Bytes) (bits : Nat) : Res (Wr × Nat) :=
  let size := bits / 8 + if bits % 8 ≠ 0 then 1 else 0
  if w.avail < size + 1 then err
  else do
    let b ← takeN buf size
    let w ← pushBlock w b
    let w ← push w (UInt8.ofNat (size * 8 - bits))
    writeHeader (w, size + 1) 0x03

/-- `mbedtls_asn1_write_algorithm_identifier` with `par_len` different from 0, asn1write.c 196-215: the parameters are counted, they have to be written before. -/
def writeAlgPar (w : Wr) (oid : Bytes) (par : Nat) : Res (Wr × Nat) := do
  let a ← chkAdd (w, par) fun w => writeOid w oid
  writeHeader a 0x30

/-! ## Parsing -/

/-- `mbedtls_asn1_get_bool`, asn1parse.c 127-144. -/
def getBool (r : Bytes) : Res (Bool × Bytes) := do
  let a ← getTag r 0x01
  if a.1 ≠ 1 then err
  else do
    let c ← rd a.2 0
    pure (c ≠ 0, a.2.drop 1)

/-- `mbedtls_asn1_get_bitstring`, asn1parse.c 189-217: the bytes and the number of unused bits. -/
def getBitString (r : Bytes) : Res (Bytes × Nat) := do
  let a ← getTag r 0x03
  if a.1 < 1 then err
  else do
    let c ← rd a.2 0
    if c.toNat > 7 then err
    else if (a.2.drop 1).drop (a.1 - 1) ≠ [] then err
    else do
      let b ← takeN (a.2.drop 1) (a.1 - 1)
      pure (b, c.toNat)

/-- `mbedtls_asn1_get_alg_null`, asn1parse.c 335-351. -/
def getAlgNull (r : Bytes) : Res (Bytes × Bytes) := do
  let a ← getAlg r
  if (a.1.ptag ≠ 0x05 ∧ a.1.ptag ≠ 0) ∨ a.1.plen ≠ 0 then err else .ok (a.1.oid, a.2)

/-- What `mbedtls_asn1_get_sequence_of` leaves: whether it returned 0, the contents of the complete nodes of the list (the first one belongs to the
caller), and the number of nodes that it allocated. -/
structure SeqOut where
  ok : Bool
  nodes : List Bytes
  allocs : Nat
  deriving DecidableEq, Repr

/-- The loop of `mbedtls_asn1_get_sequence_of`, asn1parse.c 258-280; `al k` tells whether allocation number `k` succeeds, `fuel` bounds the iterations. -/
def seqLoop (tag : UInt8) (al : Nat → Bool) : Nat → Nat → Bytes → Res SeqOut
  | 0, _, _ => .ub
  | fuel + 1, k, r =>
    match getTag r tag with
    | .ok (n, rest) => do
      let b ← takeN rest n
      let rest' := rest.drop n
      if rest' = [] then .ok ⟨true, [b], 0⟩
      else if al k then do
        let o ← seqLoop tag al fuel (k + 1) rest'
        pure ⟨o.ok, b :: o.nodes, o.allocs + 1⟩
      else .ok ⟨false, [b], 0⟩
    | .exc _ => .ok ⟨false, [], 0⟩
    | .ub => .ub

/-- `mbedtls_asn1_get_sequence_of`, asn1parse.c 241-289; `old` is what the node of the caller holds, which an empty sequence leaves as it is. -/
def getSequenceOf (tag : UInt8) (al : Nat → Bool) (old r : Bytes) : Res SeqOut :=
  match getTag r 0x30 with
  | .ok (n, rest) =>
    if n ≠ rest.length then .ok ⟨false, [], 0⟩
    else if rest = [] then .ok ⟨true, [old], 0⟩
    else seqLoop tag al rest.length 0 rest
  | .exc _ => .ok ⟨false, [], 0⟩
  | .ub => .ub

/-! ## Lists of named data -/

/-- An entry: object identifier and value, in buffers of their lengths. -/
structure Named where
  oid : Bytes
  val : Bytes
  deriving DecidableEq, Repr

/-- The list and the number of allocated blocks. -/
structure NList where
  items : List Named
  live : Nat
  deriving DecidableEq, Repr

/-- `mbedtls_asn1_find_named_data`, asn1parse.c 376-392: the position. -/
def findNamed (l : List Named) (oid : Bytes) : Option Nat := l.findIdx? fun e => e.oid.length == oid.length && e.oid == oid

/-- `memcpy( cur->val.p, val, val_len )` into a buffer. -/
def copyInto (buf v : Bytes) : Res Bytes := if buf.length < v.length then .ub else .ok (v ++ buf.drop v.length)

/-- Writes the value, if there is one, asn1write.c 391-392. -/
def fill (val : Option Bytes) (buf : Bytes) : Res Bytes :=
  match val with
  | none => .ok buf
  | some v => copyInto buf v

/-- `mbedtls_asn1_store_named_data`, asn1write.c 339-396.  `al` tells which of the (at most three) allocations succeed, `vlen` is `val_len`, `val` the bytes to store or
`none` for a null pointer.  The result tells whether an entry is returned. -/
def storeNamed (al : Fin 3 → Bool) (l : NList) (oid : Bytes) (val : Option Bytes) (vlen : Nat) : Res (Bool × NList) :=
  match findNamed l.items oid with
  | none =>
    if !al 0 then .ok (false, l)
    else if !al 1 then .ok (false, ⟨l.items, l.live + 1 - 1⟩)
    else if !al 2 then .ok (false, ⟨l.items, l.live + 2 - 2⟩)
    else do
      let b ← fill val (List.replicate vlen 0)
      pure (true, ⟨⟨oid, b⟩ :: l.items, l.live + 3⟩)
  | some i =>
    match l.items[i]? with
    | none => .ub
    | some e =>
      if e.val.length < vlen then
        if !al 0 then .ok (false, l)
        else do
          let b ← fill val (List.replicate vlen 0)
          pure (true, ⟨l.items.set i ⟨e.oid, b⟩, l.live + 1 - 1⟩)
      else do
        let b ← fill val e.val
        pure (true, ⟨l.items.set i ⟨e.oid, b⟩, l.live⟩)

/-- `mbedtls_asn1_free_named_data_list`, asn1parse.c 364-374 with `mbedtls_asn1_free_named_data`, 353-362: three blocks for each entry (only their number is modelled). -/
def freeNamed : List Named → Nat → Res Nat
  | [], live => .ok live
  | _ :: r, live => if live < 2 + 1 then .ub else freeNamed r (live - 2 - 1)

end Verif.Io
