import Verif.Mac.Spec

/-! # Specification of the wrapping format (documentation of class `Wrapper`, wrapper.hpp 38-82) -/

namespace Verif.Wrapper

open Verif Verif.Mac

/-- What is authenticated: IV, header (type byte and public context), serialization. -/
def authData (iv header ser : Bytes) : Bytes := iv ++ header ++ ser

/-- The 12-byte tag. -/
def tagOf (H : Bytes → Bytes) (kt data : Bytes) : Bytes := (HMAC H kt data).take 12

/-- The bytes of a wrapped object: IV, serialization encrypted with the tag as nonce, tag. -/
def blob (H : Bytes → Bytes) (S : Bytes → Bytes → Nat → UInt8) (kt ke iv header ser : Bytes) : Bytes :=
  let tag := tagOf H kt (authData iv header ser)
  iv ++ (ser.mapIdx fun i b => b ^^^ S ke tag i) ++ tag

end Verif.Wrapper
