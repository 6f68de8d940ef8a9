import Verif.Basic

/-!
# Substring search: model of `strstrn_uint8` (`src/utils.cpp` 235-266) and of the serialization of a TDP inverse
(`src/tdp.cpp` 288-329, `tdp.hpp` 585-588)

Positions are `size_t` (64-bit, with wrap-around).  Reading outside one of the two buffers is undefined behaviour.
-/

namespace Verif.Utils

open Verif

/-- `a - b` in `size_t`. -/
def subW (a b : Nat) : Nat := (a + W64 - b % W64) % W64

/-- The loop of `strstrn_uint8`, utils.cpp 252-264, from `loc_str1 = i`, `loc_str2 = j`.  The result is the position of the
returned pointer in `str1`, `none` for null.  `fuel` bounds the number of tests of the loop condition; the outer `none`
means that the loop has not ended by then. -/
def searchLoop (s t : Bytes) : Nat → Nat → Nat → Option (Res (Option Nat))
  | 0, _, _ => none
  | fuel + 1, i, j =>
    if (subW i j + t.length) % W64 ≤ s.length then
      match s[i]?, t[j]? with
      | some a, some b =>
        if a = b then
          let j' := (j + 1) % W64
          if j' = t.length then some (.ok (some ((subW i j' + 1) % W64)))
          else searchLoop s t fuel ((i + 1) % W64) j'
        else searchLoop s t fuel ((subW i j + 1) % W64) 0
      | _, _ => some .ub
    else some (.ok none)

/-- `strstrn_uint8(str1, str1_len, str2, str2_len)`, utils.cpp 238-266. -/
def strstrn (fuel : Nat) (s t : Bytes) : Option (Res (Option Nat)) :=
  if t.length = 0 then some (.ok (some 0))
  else if s.length = 0 then some (.ok none)
  else searchLoop s t fuel 0 0

/-- How many loop tests suffice (`c43_first`). -/
def enough (s t : Bytes) : Nat := (s.length + 2) * (t.length + 1)

/-- The suffix searched for, tdp.cpp 300-305. -/
def keySuffix : Bytes := "-----END RSA PRIVATE KEY-----".toUTF8.toList

/-- `TdpInverse::serialize` (tdp.cpp 288-293) and `serialized_size` (tdp.hpp 585-588): what is stored, where `pem` is
`private_key()`. -/
def serializeInverse {K : Type} (pem : K → Bytes) (k : K) : Bytes := pem k

/-- `TdpInverse::deserialize`, tdp.cpp 296-329. `parse` is the constructor from a PEM string.  A null result of the
search compares below `in` (the comparison `suffix_start <= in` of a null pointer is taken to be true). -/
def deserializeInverse {K : Type} (parse : Bytes → Res K) (fuel : Nat) (inp : Bytes) : Option (Res (K × Nat)) :=
  (strstrn fuel inp keySuffix).map fun r => do
    match ← r with
    | none => .exc .runtimeError
    | some pos =>
      if pos ≤ 0 then .exc .runtimeError
      else do
        let n := 29 + pos
        let k ← parse (inp.take n)
        if n < inp.length ∧ inp[n]? = some 0x0a then pure (k, n + 1) else pure (k, n)

end Verif.Utils
