import Verif.Basic

/-!
# Specification of HMAC (RFC 2104) and of the PRF expansion

Written without reference to the model.
-/

namespace Verif.Mac

open Verif

/-- RFC 2104: the key, zero-padded to the block length 128, xored with the repeated byte `c`. -/
def pad (k : Bytes) (c : UInt8) : Bytes := (k ++ List.replicate (128 - k.length) 0).map (· ^^^ c)

/-- RFC 2104 HMAC for keys of at most one block of 128 bytes. -/
def HMAC (H : Bytes → Bytes) (k m : Bytes) : Bytes :=
  H (pad k 0x5c ++ H (pad k 0x36 ++ m))

/-- Block `i` of the expansion: HMAC of the message followed by the one-byte counter. -/
def prfBlock (H : Bytes → Bytes) (k m : Bytes) (i : Nat) : Bytes := HMAC H k (m ++ [UInt8.ofNat i])

/-- Concatenation of the first `c` blocks. -/
def prfBlocks (H : Bytes → Bytes) (k m : Bytes) (c : Nat) : Bytes := (List.range c).flatMap (prfBlock H k m)

end Verif.Mac
