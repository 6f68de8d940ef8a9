import Verif.Mac.Model
import Mathlib.Data.Int.GCD

/-!
# The RSA trapdoor permutation: model of `src/tdp_impl/tdp_impl_mbedtls.cpp` and `src/mbedtls/rsa.c`

Multi-precision integers are represented by their values; that the functions of `src/mbedtls/bignum.c` compute these values on limbs
is the subject of `Verif.Bignum`.  A non-zero return code of an mbedTLS function is `none`.
Left out here: the cached Montgomery constants `RN`, `RP`, `RQ` and the limbs, which are in `Verif.Rsa`; allocation failures, erasing.

The random source is `rng : Nat → Nat → Nat`: `rng i size` is the number read from the `size` bytes which the `i`-th call returns.
-/

namespace Verif.Tdp

open Verif

/-! ## Values of multi-precision integers -/

/-- `mbedtls_mpi_bitlen`, bignum.c 386-399. -/
def bitlen (n : Nat) : Nat := if n = 0 then 0 else Nat.log2 n + 1

/-- `mbedtls_mpi_size`, bignum.c 405-408. -/
def mpiSize (n : Nat) : Nat := (bitlen n + 7) / 8

/-- `mbedtls_mpi_write_binary`, bignum.c 632-647. -/
def mpiWrite (x buflen : Nat) : Option Bytes := if buflen < mpiSize x then none else some (beBytes buflen x)

/-- `mbedtls_mpi_mod_mpi` for a non-negative modulus, bignum.c 1393-1411. -/
def mpiMod (a : Int) (n : Nat) : Option Nat := if n = 0 then none else some (a % (n : Int)).toNat

/-- `mbedtls_mpi_exp_mod` for non-negative arguments, bignum.c 1547-1750. -/
def mpiExpMod (a e n : Nat) : Option Nat := if n % 2 = 0 then none else some (a ^ e % n)

/-- `mbedtls_mpi_gcd` for non-negative arguments, bignum.c 1755-1802 (with a zero second argument it returns 0). -/
def mpiGcd (a b : Nat) : Nat := if b = 0 then 0 else Nat.gcd a b

/-- `mbedtls_mpi_inv_mod` for non-negative arguments, bignum.c 1831-1923. -/
def mpiInv (a n : Nat) : Option Nat :=
  if n ≤ 1 then none
  else if mpiGcd a n ≠ 1 then none
  else mpiMod (Nat.gcdA a n) n

/-! ## RSA contexts -/

/-- The private members of `mbedtls_rsa_context`, rsa.h 66-97. -/
structure Priv where
  D : Nat
  P : Nat
  Q : Nat
  DP : Nat
  DQ : Nat
  QP : Nat

/-- `mbedtls_rsa_context`: `blind` holds the blinding values `Vi`, `Vf` once `Vf.p` is not null. -/
structure Rsa where
  len : Nat
  N : Nat
  E : Nat
  priv : Option Priv
  blind : Option (Nat × Nat)

/-- `mbedtls_rsa_check_pubkey`, rsa.c 170-188 (`true` for return code 0). -/
def checkPub (k : Rsa) : Bool :=
  if k.N % 2 = 0 ∨ k.E % 2 = 0 then false
  else if bitlen k.N < 128 ∨ bitlen k.N > 8192 then false
  else if bitlen k.E < 2 ∨ k.E ≥ k.N then false
  else true

/-- `mbedtls_rsa_check_privkey`, rsa.c 193-250 (`true` for return code 0). -/
def checkPriv (k : Rsa) : Bool :=
  if checkPub k = false then false
  else match k.priv with
  | none => false
  | some s =>
    let P1 : Int := (s.P : Int) - 1
    let Q1 : Int := (s.Q : Int) - 1
    if P1 < 0 ∨ Q1 < 0 then false  -- PQ = 0 ≠ N
    else
      let H := P1.toNat * Q1.toNat
      let G := mpiGcd k.E H
      let G2 := mpiGcd P1.toNat Q1.toNat
      if G2 = 0 then false           -- division by zero
      else
        let L1 := H / G2
        let L2 := H % G2
        match mpiMod ((s.D * k.E : Nat) : Int) L1, mpiMod (s.D : Int) P1.toNat, mpiMod (s.D : Int) Q1.toNat, mpiInv s.Q s.P with
        | some I, some DP, some DQ, some QP =>
          s.P * s.Q = k.N && DP = s.DP && DQ = s.DQ && QP = s.QP && L2 = 0 && I = 1 && G = 1
        | _, _, _, _ => false

/-- `mbedtls_rsa_copy`, rsa.c 562-594. -/
def rsaCopy (k : Rsa) : Rsa := { len := k.len, N := k.N, E := k.E, priv := k.priv, blind := k.blind }

/-! ## Key generation -/

/-- The loop of `mbedtls_rsa_gen_key`, rsa.c 113-138: `prime i` is the number returned by the `i`-th call of `mbedtls_mpi_gen_prime`.
Returns `P`, `Q`; `none` when the loop has not ended after `fuel` rounds. -/
def genLoop (prime : Nat → Nat) (nbits E : Nat) : Nat → Nat → Option (Nat × Nat)
  | 0, _ => none
  | fuel + 1, i =>
    let P := prime i
    let Q := prime (i + 1)
    if P = Q then genLoop prime nbits E fuel (i + 2)
    else if bitlen (P * Q) ≠ nbits then genLoop prime nbits E fuel (i + 2)
    else
      let P' := if P < Q then Q else P
      let Q' := if P < Q then P else Q
      if mpiGcd E ((P' - 1) * (Q' - 1)) ≠ 1 then genLoop prime nbits E fuel (i + 2)
      else some (P', Q')

/-- `mbedtls_rsa_gen_key`, rsa.c 91-163. -/
def genKey (prime : Nat → Nat) (nbits exponent fuel : Nat) : Option (Option Rsa) :=
  if nbits < 128 ∨ exponent < 3 ∨ nbits % 2 = 1 then some none
  else (genLoop prime nbits exponent fuel 0).map fun (P, Q) =>
    let H := (P - 1) * (Q - 1)
    do
      let D ← mpiInv exponent H
      let DP ← mpiMod (D : Int) (P - 1)
      let DQ ← mpiMod (D : Int) (Q - 1)
      let QP ← mpiInv Q P
      pure { len := (bitlen (P * Q) + 7) / 8, N := P * Q, E := exponent,
             priv := some { D := D, P := P, Q := Q, DP := DP, DQ := DQ, QP := QP }, blind := none }

/-! ## The private operation -/

/-- The loop of `rsa_prepare_blinding`, rsa.c 339-345, with `tries` rounds left: whether a candidate was accepted,
the content of `Vi` and `Vf`, and the next index of the random source. -/
def drawVf (rng : Nat → Nat → Nat) (N len : Nat) : Nat → Nat → Nat → Nat → Bool × Nat × Nat × Nat
  | 0, i, vi, vf => (false, vi, vf, i)
  | tries + 1, i, _, _ =>
    let vf := rng i (len - 1)
    let vi := mpiGcd vf N
    if vi = 1 then (true, vi, vf, i + 1) else drawVf rng N len tries (i + 1) vi vf

/-- `rsa_prepare_blinding`, rsa.c 322-354: whether it returns 0, the new blinding values, and the next index of the random source. -/
def prepBlind (rng : Nat → Nat → Nat) (k : Rsa) (i : Nat) : Bool × (Nat × Nat) × Nat :=
  match k.blind with
  | some (vi, vf) =>
    match mpiMod ((vi * vi : Nat) : Int) k.N, mpiMod ((vf * vf : Nat) : Int) k.N with
    | some vi', some vf' => (true, (vi', vf'), i)
    | _, _ => (false, (vi, vf), i)
  | none =>
    match drawVf rng k.N k.len 11 i 0 0 with
    | (false, vi, vf, i') => (false, (vi, vf), i')
    | (true, vi, vf, i') =>
      match mpiInv vf k.N with
      | none => (false, (vi, vf), i')
      | some inv =>
        match mpiExpMod inv k.E k.N with
        | none => (false, (inv, vf), i')
        | some vi' => (true, (vi', vf), i')

/-- The blinded CRT computation of `mbedtls_rsa_private`, rsa.c 440-519. `T` is the input, `R1` and `R2` are the exponent blinding values. -/
def crtPrivate (N : Nat) (s : Priv) (vi vf T R1 R2 : Nat) : Option Nat := do
  let T ← mpiMod ((T * vi : Nat) : Int) N
  let DP := (s.P - 1) * R1 + s.DP
  let DQ := (s.Q - 1) * R2 + s.DQ
  let T1 ← mpiExpMod T DP s.P
  let T2 ← mpiExpMod T DQ s.Q
  let T ← mpiMod (((T1 : Int) - T2) * s.QP) s.P
  let T := T2 + T * s.Q
  mpiMod ((T * vf : Nat) : Int) N

/-- What a private operation did: the bytes stored to `output` or an error, and the state left behind. -/
structure PrivOut where
  out : Option Bytes
  key : Rsa
  next : Nat

/-- `mbedtls_rsa_private`, rsa.c 380-557 with `f_rng` not null: `input` holds the `ctx->len` bytes that are read. -/
def rsaPrivate (rng : Nat → Nat → Nat) (k : Rsa) (i : Nat) (input : Bytes) : PrivOut :=
  match k.priv with
  | none => ⟨none, k, i⟩
  | some s =>
    let T := beNat input
    if T ≥ k.N then ⟨none, k, i⟩
    else match prepBlind rng k i with
    | (false, b, i') => ⟨none, { k with blind := some b }, i'⟩
    | (true, (vi, vf), i') =>
      let k' := { k with blind := some (vi, vf) }
      match crtPrivate k.N s vi vf T (rng i' 28) (rng (i' + 1) 28) with
      | none => ⟨none, k', i' + 2⟩
      | some y => ⟨mpiWrite y k.len, k', i' + 2⟩

/-! ## The trapdoor permutation classes -/

/-- `kMessageSize`, tdp.hpp 64. -/
def msgSize : Nat := 256

/-- An mbedTLS return code other than 0 turned into a `std::runtime_error`. -/
def orThrow {α : Type} (e : Exc) : Option α → Res α
  | none => .exc e
  | some a => .ok a

/-- `mbedtls_mpi_write_binary` into an uninitialised array whose return code is ignored. -/
def writeIgnored (x : Nat) : Res Bytes :=
  match mpiWrite x msgSize with
  | some b => .ok b
  | none => .ub  -- the array is returned uninitialised

/-- `TdpImpl_mbedTLS::eval(array)`, tdp_impl_mbedtls.cpp 170-229. -/
def evalArray (k : Rsa) (inp : Bytes) : Res Bytes :=
  if msgSize ≠ k.len then .exc .runtimeError
  else do
    let x ← orThrow .runtimeError (mpiMod (beNat inp : Int) k.N)
    let y ← orThrow .runtimeError (mpiExpMod x k.E k.N)
    writeIgnored y

/-- `memcpy(in_array.data(), in.data(), kMessageSpaceSize)` from a string. -/
def copyIn (s : Bytes) : Res Bytes := if s.length < msgSize then .ub else .ok (s.take msgSize)

/-- `TdpImpl_mbedTLS::eval(string)`, tdp_impl_mbedtls.cpp 149-168. -/
def evalString (k : Rsa) (s : Bytes) : Res Bytes :=
  if s.length ≠ k.len then .exc .invalidArgument
  else do
    let a ← copyIn s
    evalArray k a

/-- The write of a result into the zero-filled array of `sample_array` and `generate_array` (return code ignored). -/
def writeZeroed (x : Nat) : Bytes :=
  match mpiWrite x msgSize with
  | some b => b
  | none => List.replicate msgSize 0

/-- `TdpImpl_mbedTLS::sample_array` and `sample`, tdp_impl_mbedtls.cpp 232-274. -/
def sample (rng : Nat → Nat → Nat) (k : Rsa) (i : Nat) : Res Bytes := do
  let x ← orThrow .runtimeError (mpiMod (rng i 264 : Int) k.N)
  pure (writeZeroed x)

/-- `TdpImpl_mbedTLS::generate_array(prf, seed)` and `generate`, tdp_impl_mbedtls.cpp 276-323. -/
def generate (H : Bytes → Bytes) (junk : Nat → UInt8) (fuel : Nat) (key : Option Bytes) (k : Rsa) (seed : Bytes) : Option (Res Bytes) :=
  (Mac.prfString H junk key 264 fuel seed).map fun r => do
    let rnd ← r
    let x ← orThrow .runtimeError (mpiMod (beNat rnd : Int) k.N)
    pure (writeZeroed x)

/-- `TdpInverseImpl_mbedTLS::invert(array)`, tdp_impl_mbedtls.cpp 498-513, and the private key operation of `invert(string)`:
`ctx->len` bytes are read from the 256-byte input and stored to the 256-byte output. -/
def invertBuf (rng : Nat → Nat → Nat) (k : Rsa) (i : Nat) (inp : Bytes) : Res Bytes × Rsa × Nat :=
  if k.priv.isNone then (.exc .invalidArgument, k, i)
  else if k.len > inp.length then (.ub, k, i)      -- reads past the end of the input
  else
    let r := rsaPrivate rng k i (inp.take k.len)
    match r.out with
    | none => (.exc .invalidArgument, r.key, r.next)
    | some b => if b.length = msgSize then (.ok b, r.key, r.next)
                else (.ub, r.key, r.next)          -- the output is partly uninitialised, or overflows

/-- `TdpInverseImpl_mbedTLS::invert(string)`, tdp_impl_mbedtls.cpp 470-496. -/
def invertString (rng : Nat → Nat → Nat) (k : Rsa) (i : Nat) (s : Bytes) : Res Bytes × Rsa × Nat :=
  if s.length ≠ msgSize then (.exc .invalidArgument, k, i) else invertBuf rng k i s

/-- The loop of `insecure_mod_exp`, tdp_impl_mbedtls.cpp 534-542. -/
def expLoop (N : Nat) (exp X base : Nat) : Option Nat :=
  if h : exp = 0 then some X
  else do
    let X ← if exp % 2 = 1 then mpiMod ((X * base : Nat) : Int) N else some X
    let base ← mpiMod ((base * base : Nat) : Int) N
    expLoop N (exp / 2) X base
  termination_by exp
  decreasing_by omega

/-- `insecure_mod_exp`, tdp_impl_mbedtls.cpp 518-549. -/
def insecureModExp (A E N : Nat) : Option Nat := do
  let base ← mpiMod (A : Int) N
  expLoop N E 1 base

/-- The computation of `invert_mult`, tdp_impl_mbedtls.cpp 609-634. -/
def crtMult (s : Priv) (x order : Nat) : Option Nat := do
  let dp ← insecureModExp s.DP order (s.P - 1)
  let dq ← insecureModExp s.DQ order (s.Q - 1)
  let yp ← mpiExpMod x dp s.P
  let yq ← mpiExpMod x dq s.Q
  let y ← mpiMod (((yp : Int) - yq) * s.QP) s.P
  pure (yq + y * s.Q)

/-- `TdpInverseImpl_mbedTLS::invert_mult(array)`, tdp_impl_mbedtls.cpp 551-697. -/
def invertMult (k : Rsa) (inp : Bytes) (order : Nat) : Res Bytes :=
  if order = 0 then .ok inp
  else if msgSize ≠ k.len then .exc .invalidArgument
  else match k.priv with
    | none => .ub
    | some s => do
      let y ← orThrow .runtimeError (crtMult s (beNat inp) order)
      orThrow .runtimeError (mpiWrite y msgSize)

/-- `TdpInverseImpl_mbedTLS::invert_mult(string)`, tdp_impl_mbedtls.cpp 699-712. -/
def invertMultString (k : Rsa) (s : Bytes) (order : Nat) : Res Bytes := do
  let a ← copyIn s
  invertMult k a order

/-! ## The pool -/

/-- `RSA_PK`, tdp_impl_mbedtls.cpp 42. -/
def rsaPk : Nat := 65537

/-- A `TdpMultPoolImpl_mbedTLS`: the base key, `keys_` and `keys_count_`. -/
structure Pool where
  base : Rsa
  keys : List Rsa
  count : Nat

/-- The loop of the pool constructor, tdp_impl_mbedtls.cpp 736-747: `left` more keys after `prev`. -/
def poolLoop : Nat → Rsa → Res (List Rsa)
  | 0, _ => .ok []
  | left + 1, prev =>
    let k := { rsaCopy prev with E := prev.E * rsaPk }
    if checkPub k = false then .exc .runtimeError
    else (fun l => k :: l) <$> poolLoop left k

/-- `TdpMultPoolImpl_mbedTLS(sk, size)`, tdp_impl_mbedtls.cpp 715-748, after parsing the key `k`; `size` is a `uint8_t`. -/
def mkPool (k : Rsa) (size : Nat) : Res Pool :=
  let count := (size + 255) % 256
  if size = 0 then .exc .invalidArgument
  else if count = 0 then .ub      -- `keys_` has no element, and `keys_[0]` is written
  else do
    let keys ← poolLoop count k
    pure { base := k, keys := keys, count := count }

/-- `maximum_order`, tdp_impl_mbedtls.cpp 908-911. -/
def Pool.maxOrder (p : Pool) : Nat := (p.count + 1) % 256

/-- Which key `eval_pool` uses, tdp_impl_mbedtls.cpp 817-830. -/
def Pool.select (p : Pool) (order : Nat) : Res Rsa :=
  if order = 1 then .ok p.base
  else if order ≤ p.maxOrder then
    (if order < 2 then .ub else match p.keys[order - 2]? with
      | some k => .ok k
      | none => .ub)
  else .exc .invalidArgument

/-- `TdpMultPoolImpl_mbedTLS::eval_pool(array)`, tdp_impl_mbedtls.cpp 810-886. -/
def evalPool (p : Pool) (inp : Bytes) (order : Nat) : Res Bytes := do
  let k ← p.select order
  if msgSize ≠ p.base.len then .exc .runtimeError
  else do
    let y ← orThrow .runtimeError (mpiExpMod (beNat inp) k.E k.N)
    writeIgnored y

/-- `TdpMultPoolImpl_mbedTLS::eval_pool(string)`, tdp_impl_mbedtls.cpp 889-906. -/
def evalPoolString (p : Pool) (s : Bytes) (order : Nat) : Res Bytes :=
  if s.length ≠ p.base.len then .exc .invalidArgument
  else do
    let a ← copyIn s
    evalPool p a order

/-- The loop of the copy constructor and of the assignment, tdp_impl_mbedtls.cpp 756-767 and 785-796. -/
def copyKeys : List Rsa → Res (List Rsa)
  | [] => .ok []
  | k :: l => if checkPub (rsaCopy k) = false then .exc .runtimeError else (fun l' => rsaCopy k :: l') <$> copyKeys l

/-- The copy constructor (`duplicate_pool`), tdp_impl_mbedtls.cpp 83-106 and 750-768. -/
def Pool.copy (p : Pool) : Res Pool :=
  if checkPub (rsaCopy p.base) = false then .exc .runtimeError
  else do
    let keys ← copyKeys p.keys
    pure { base := rsaCopy p.base, keys := keys, count := p.count }

/-- `TdpMultPoolImpl_mbedTLS::operator=`, tdp_impl_mbedtls.cpp 770-799, on different objects: the base class part is not assigned. -/
def Pool.assign (self t : Pool) : Res Pool := do
  let keys ← copyKeys t.keys
  pure { base := self.base, keys := keys, count := t.count }

/-- `TdpImpl_mbedTLS(const TdpImpl_mbedTLS&)` (`duplicate`), tdp_impl_mbedtls.cpp 91-106. -/
def duplicate (k : Rsa) : Res Rsa := if checkPub (rsaCopy k) = false then .exc .runtimeError else .ok (rsaCopy k)

end Verif.Tdp
