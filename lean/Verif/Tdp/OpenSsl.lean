import Verif.Tdp.PropsPool

/-!
# The OpenSSL backend of the trapdoor permutation: model of `src/tdp_impl/tdp_impl_openssl.cpp`

This backend is compiled only with `WITH_OPENSSL` and `SSE_CRYPTO_TDP_IMPL_OPENSSL` (tdp.cpp 30-86).

OpenSSL itself (version 1.0, whose `RSA` structure the code accesses) is described by its documentation: integers are represented by their values, and the
functions used are the ones at the head of this file.  Reading and writing PEM is a parameter.  Allocation failures and the release
of memory are left out.  The result of a function that failed, where the code does not look at the return value, is `ub` as soon as it is used.
-/

namespace Verif.Tdp.OpenSsl

open Verif Verif.Tdp

/-! ## OpenSSL -/

/-- The part of OpenSSL's `RSA` structure which is used. -/
structure Key where
  n : Nat
  e : Nat
  sec : Option Priv

/-- `BN_num_bytes`: the number of bytes of the value without leading zeros. -/
def numBytes (x : Nat) : Nat := if x = 0 then 0 else Nat.log 256 x + 1

/-- `BN_bn2bin`: the bytes of the value without leading zeros, the highest first. -/
def bn2bin (x : Nat) : Bytes := beBytes (numBytes x) x

/-- `BN_mod_exp`; `none` for the failure with modulus 0. -/
def bnModExp (a e m : Nat) : Option Nat := if m = 0 then none else some (a ^ e % m)

/-- `RSA_size`: the number of bytes of the modulus. -/
def Key.size (k : Key) : Nat := numBytes k.n

/-- `RSA_private_decrypt` with `RSA_NO_PADDING`: the input may not be longer than the modulus and must be below it; the result has the length of the
modulus.  A negative return value is `none`. -/
def privateDecrypt (k : Key) (inp : Bytes) : Option Bytes :=
  match k.sec with
  | none => none
  | some s =>
    if inp.length > k.size then none
    else if beNat inp ≥ k.n then none
    else some (beBytes k.size (beNat inp ^ s.D % k.n))

/-- `RSA_public_encrypt` with `RSA_NO_PADDING`: the input must have the length of the modulus and be below it, the exponent must be below the
modulus, and at most 64 bits long if the modulus is longer than 3072 bits (at most 16384 bits).  A negative return value is `none`. -/
def publicEncrypt (k : Key) (inp : Bytes) : Option Bytes :=
  if k.n ≥ 2 ^ 16384 then none
  else if k.n ≤ k.e then none
  else if k.n ≥ 2 ^ 3072 ∧ k.e ≥ 2 ^ 64 then none
  else if inp.length ≠ k.size then none
  else if beNat inp ≥ k.n then none
  else some (beBytes k.size (beNat inp ^ k.e % k.n))

/-- `RSAPublicKey_dup`. -/
def Key.dup (k : Key) : Key := { n := k.n, e := k.e, sec := none }

/-! ## Code -/

/-- An unchecked result. -/
def unchecked {α : Type} : Option α → Res α
  | none => .ub
  | some a => .ok a

/-- The end of `eval`, `sample_array`, `generate_array` and `invert_mult`: leading zeros, then `BN_bn2bin` at the end of a 256-byte array, for instance
tdp_impl_openssl.cpp 222-230 (`size_t pos = kMessageSpaceSize - BN_num_bytes(y)` wraps for longer numbers). -/
def store (y : Nat) : Res Bytes :=
  if numBytes y > 256 then .ub else .ok (List.replicate (256 - numBytes y) 0 ++ bn2bin y)

/-- The end of the constructors, `set_rsa_key(key)` for a key that was not an RSA key (`nullptr`), tdp_impl_openssl.cpp 119-130. -/
def setKey : Option Key → Res Key
  | none => .exc .invalidArgument
  | some k => .ok k

/-- `TdpImpl_OpenSSL(pk)`, tdp_impl_openssl.cpp 67-98: `parse` is `PEM_read_bio_RSA_PUBKEY`. -/
def mkPublic (parse : Bytes → Option Key) (pk : Bytes) : Res Key := orThrow .runtimeError (parse pk)

/-- The copy constructor and the assignment (`duplicate`), tdp_impl_openssl.cpp 100-112, 335-338. -/
def duplicate (k : Key) : Res Key := setKey (some k.dup)

/-- `TdpImpl_OpenSSL::eval(array)`, tdp_impl_openssl.cpp 201-237. -/
def evalArray (k : Key) (inp : Bytes) : Res Bytes :=
  if 256 ≠ k.size then .exc .runtimeError
  else do
    let y ← unchecked (bnModExp (beNat inp) k.e k.n)
    store y

/-- `TdpImpl_OpenSSL::eval(string)`, tdp_impl_openssl.cpp 183-198. -/
def evalString (k : Key) (s : Bytes) : Res Bytes :=
  if s.length ≠ k.size then .exc .invalidArgument
  else do
    let a ← copyIn s
    evalArray k a

/-- `sample_array` and `sample`, tdp_impl_openssl.cpp 240-273: `r` is the result of `BN_rand_range`, a number below the modulus, or `none`. -/
def sample (r : Option Nat) : Res Bytes := do
  let x ← orThrow .runtimeError r
  store x

/-- `generate_array(prf, seed)` and `generate`, tdp_impl_openssl.cpp 275-313 (`BN_mod` with modulus 0 fails). -/
def generate (H : Bytes → Bytes) (junk : Nat → UInt8) (fuel : Nat) (key : Option Bytes) (k : Key) (seed : Bytes) : Option (Res Bytes) :=
  (Mac.prfString H junk key 264 fuel seed).map fun r => do
    let rnd ← r
    let x ← unchecked (if k.n = 0 then none else some (beNat rnd % k.n))
    store x

/-- A `TdpInverseImpl_OpenSSL`: the key and `p_1_`, `q_1_`. -/
structure Inverse where
  key : Key
  s : Priv
  p1 : Nat
  q1 : Nat

/-- The end of the constructors of `TdpInverseImpl_OpenSSL`, tdp_impl_openssl.cpp 366-379, 420-429 (`BN_dup(nullptr)` is `nullptr`, which is then
dereferenced; a factor 0 would give a negative number, which is left out). -/
def mkInverse (k : Key) : Res Inverse :=
  match k.sec with
  | none => .ub
  | some s => if s.P = 0 ∨ s.Q = 0 then .ub else .ok { key := k, s := s, p1 := s.P - 1, q1 := s.Q - 1 }

/-- `TdpInverseImpl_OpenSSL(sk)`, tdp_impl_openssl.cpp 382-430: `parse` is `PEM_read_bio_PrivateKey`, and inside it a key that is not an RSA key
is `some none`. -/
def mkPrivate (parse : Bytes → Option (Option Key)) (sk : Bytes) : Res Inverse := do
  let ev ← orThrow .runtimeError (parse sk)
  let k ← setKey ev
  mkInverse k

/-- `invert(string)`, tdp_impl_openssl.cpp 494-520: the result goes to an array of 256 bytes. -/
def invertString (v : Inverse) (s : Bytes) : Res Bytes :=
  if s.length ≠ 256 then .exc .invalidArgument
  else match privateDecrypt v.key s with
    | none => .exc .runtimeError
    | some b => if b.length > 256 then .ub else .ok b

/-- `invert(array)`, tdp_impl_openssl.cpp 522-534: the return value is ignored, and the array is not initialised. -/
def invertArray (v : Inverse) (inp : Bytes) : Res Bytes :=
  match privateDecrypt v.key inp with
  | none => .ub
  | some b => if b.length = 256 then .ok b else .ub

/-- The computation of `invert_mult`, tdp_impl_openssl.cpp 558-580. -/
def crt (v : Inverse) (x order : Nat) : Option Nat := do
  let dp ← bnModExp v.s.D order v.p1
  let dq ← bnModExp v.s.D order v.q1
  let yp ← bnModExp x dp v.s.P
  let yq ← bnModExp x dq v.s.Q
  let h ← if v.s.P = 0 then none else some (((yp : Int) - yq) % (v.s.P : Int)).toNat
  let h := h * v.s.QP % v.s.P
  pure (h * v.s.Q + yq)

/-- `invert_mult(array)`, tdp_impl_openssl.cpp 536-598. -/
def invertMult (v : Inverse) (inp : Bytes) (order : Nat) : Res Bytes :=
  if order = 0 then .ok inp
  else if 256 ≠ v.key.size then .exc .invalidArgument
  else do
    let y ← unchecked (crt v (beNat inp) order)
    store y

/-- `invert_mult(string)`, tdp_impl_openssl.cpp 600-611. -/
def invertMultString (v : Inverse) (s : Bytes) (order : Nat) : Res Bytes := do
  let a ← copyIn s
  invertMult v a order

/-- A `TdpMultPoolImpl_OpenSSL`. -/
structure Pool where
  base : Key
  keys : List Key
  count : Nat

/-- The loop of the constructor, tdp_impl_openssl.cpp 625-631. -/
def poolLoop : Nat → Key → List Key
  | 0, _ => []
  | left + 1, prev =>
    let k := { prev.dup with e := prev.e * rsaPk }
    k :: poolLoop left k

/-- `TdpMultPoolImpl_OpenSSL(sk, size)`, tdp_impl_openssl.cpp 614-632; `size` is a `uint8_t`. -/
def mkPool (k : Key) (size : Nat) : Res Pool :=
  let count := (size + 255) % 256
  if size = 0 then .exc .invalidArgument
  else if count = 0 then .ub      -- `keys_` has no element, and `keys_[0]` is written
  else .ok { base := k, keys := poolLoop count k, count := count }

/-- The copy constructor (`duplicate_pool`), tdp_impl_openssl.cpp 634-643. -/
def Pool.copy (p : Pool) : Res Pool := do
  let b ← duplicate p.base
  pure { base := b, keys := p.keys.map Key.dup, count := p.count }

/-- `operator=` on different objects, tdp_impl_openssl.cpp 645-665: the base class part is not assigned. -/
def Pool.assign (self t : Pool) : Pool := { base := self.base, keys := t.keys.map Key.dup, count := t.count }

/-- `maximum_order`, tdp_impl_openssl.cpp 728-731. -/
def Pool.maxOrder (p : Pool) : Nat := (p.count + 1) % 256

/-- Which key `eval_pool` uses, tdp_impl_openssl.cpp 683-698. -/
def Pool.select (p : Pool) (order : Nat) : Res Key :=
  if order = 1 then .ok p.base
  else if order ≤ p.maxOrder then
    (if order < 2 then .ub else unchecked p.keys[order - 2]?)
  else .exc .invalidArgument

/-- `eval_pool(array)`, tdp_impl_openssl.cpp 677-706: the return value is ignored, and the array is not initialised. -/
def evalPool (p : Pool) (inp : Bytes) (order : Nat) : Res Bytes := do
  let k ← p.select order
  match publicEncrypt k inp with
  | none => .ub
  | some b => if b.length = 256 then .ok b else .ub

/-- `eval_pool(string)`, tdp_impl_openssl.cpp 709-726. -/
def evalPoolString (p : Pool) (s : Bytes) (order : Nat) : Res Bytes :=
  if s.length ≠ p.base.size then .exc .invalidArgument
  else do
    let a ← copyIn s
    evalPool p a order

end Verif.Tdp.OpenSsl
