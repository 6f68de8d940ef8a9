import Verif.RCPrf.Model

/-!
# Serialization of the range-constrained PRF (rcprf.hpp)

Byte order: the code copies integers with `memcpy`; the model is for little-endian machines.
-/

namespace Verif.RCPrf

open Verif

/-- `serialize_element_info`, rcprf.hpp 625-634 (17 bytes). `subtree_height_` is a `uint8_t`. -/
def Elem.serInfo (e : Elem) : Bytes :=
  UInt8.ofNat e.subHeight :: (leBytes 8 e.min ++ leBytes 8 e.max)

/-- `serialize` of inner elements (800-803: the 32-byte key of the `Prg`) and of leaves (1003-1006). -/
def Elem.body (e : Elem) : Bytes :=
  match e.node with
  | .inner key => key
  | .leaf v => v

/-- `serialized_size` of inner elements (795-798) and of leaves (998-1001). -/
def Elem.bodySize (n : Nat) (e : Elem) : Nat :=
  match e.node with
  | .inner _ => 32
  | .leaf _ => n

/-- `ConstrainedRCPrf::serialized_size`, rcprf.hpp 1473-1490. -/
def CRCPrf.serializedSize (n : Nat) (c : CRCPrf) : Nat :=
  c.elems.foldl (fun t e => t + 17 + e.bodySize n) (1 + 4)

/-- `ConstrainedRCPrf::serialize`, rcprf.hpp 1492-1522: the bytes written to `out`.  The failing assertion
`elements_.size() <= UINT32_MAX` is `ub`. -/
def CRCPrf.serialize (c : CRCPrf) : Res Bytes :=
  if c.elems.length > 4294967295 then .ub
  else .ok (UInt8.ofNat c.treeHeight :: (leBytes 4 c.elems.length ++
    c.elems.flatMap (fun e => e.serInfo ++ e.body)))

/-- `ConstrainedRCPrfInnerElement::deserialize` (805-820, the size test is the one of `Prg::deserialize`,
prg.cpp) and `ConstrainedRCPrfLeafElement::deserialize` (1008-1027); returns the element and the bytes read. -/
def deserElem (n th sh min max : Nat) (inp : Bytes) : Res (Elem × Nat) :=
  if min = max ∧ sh = 1 then
    if inp.length < n then .exc .invalidArgument
    else (fun e => (e, n)) <$> mkLeaf (inp.take n) th min
  else
    if inp.length < 32 then .exc .invalidArgument
    else (fun e => (e, 32)) <$> mkInner (inp.take 32) th sh min max

/-- The loop of `ConstrainedRCPrf::deserialize`, rcprf.hpp 1570-1623: `cnt` elements from the remaining
bytes. Returns the elements and the number of bytes read. -/
def deserElems (n th : Nat) : Nat → Bytes → Res (List Elem × Nat)
  | 0, _ => .ok ([], 0)
  | cnt + 1, inp =>
    if inp.length ≤ 17 then .exc .runtimeError
    else do
      let sh := (inp.headD 0).toNat
      let min := leNat ((inp.drop 1).take 8)
      let max := leNat ((inp.drop 9).take 8)
      let r ← deserElem n th sh min max (inp.drop 17)
      let rs ← deserElems n th cnt (inp.drop (17 + r.2))
      pure (r.1 :: rs.1, 17 + r.2 + rs.2)

/-- `ConstrainedRCPrf::deserialize`, rcprf.hpp 1524-1626: the object and `n_bytes_read`. The allocation of the
vector of `n_elts` pointers is assumed to succeed. -/
def deserializeC (n : Nat) (inp : Bytes) : Res (CRCPrf × Nat) :=
  if inp.length ≤ 22 then .exc .invalidArgument
  else do
    let th := (inp.headD 0).toNat
    let cnt := leNat ((inp.drop 1).take 4)
    let r ← deserElems n th cnt (inp.drop 5)
    let c ← mkCRCPrf r.1
    pure (c, 5 + r.2)

/-- `RCPrf::serialize`, rcprf.hpp 1891-1896. -/
def RCPrf.serialize (p : RCPrf) : Bytes := UInt8.ofNat p.treeHeight :: p.key

/-- `RCPrf::deserialize`, rcprf.hpp 2018-2045 (with `Prg::deserialize`, prg.cpp, for the key).  The order of the
checks: input size, key bytes, then the constructor's height test. -/
def deserializeF (inp : Bytes) : Res (RCPrf × Nat) :=
  if inp.length < 1 then .exc .invalidArgument
  else if inp.length - 1 < 32 then .exc .invalidArgument
  else (fun p => (p, 32 + 1)) <$> mkRCPrf ((inp.drop 1).take 32) (inp.headD 0).toNat

end Verif.RCPrf
