import Verif.Rsa.Model
import Verif.Tdp.Model

/-!
# The trapdoor permutation classes on limbs: model of `src/tdp_impl/tdp_impl_mbedtls.cpp`

The methods are `const`, but change the members of the context that serve as caches: `RN`, `RP`, `RQ`, `Vi`, `Vf`.  Each function
returns what the caller sees and the context left behind.
-/

namespace Verif.Rsa

open Verif Verif.Bignum
open Verif.Tdp (msgSize)

/-- An mbedTLS return code other than 0 turned into an exception. -/
def toRes {α : Type} (e : Exc) : Out α → Res α
  | .ok a => .ok a
  | .err _ => .exc e
  | .ub => .ub

/-- `mbedtls_mpi_write_binary` into an uninitialised array whose return code is ignored. -/
def writeIgn (X : Mpi) : Res Bytes :=
  match writeBinary X msgSize with
  | .ok b => .ok b
  | .err _ => .ub
  | .ub => .ub

/-- `mbedtls_mpi_write_binary` into an array of zeros whose return code is ignored. -/
def writeZero (X : Mpi) : Res Bytes :=
  match writeBinary X msgSize with
  | .ok b => .ok b
  | .err _ => .ok (List.replicate msgSize 0)
  | .ub => .ub

/-! ## Evaluation -/

/-- The computation of `eval`, tdp_impl_mbedtls.cpp 184-211. -/
def evalExp (c : Ctx) (inp : Bytes) : Out (Mpi × Option Mpi) := do
  let x ← readBinary .null inp
  let x ← modMpi x .self c.N
  expMod x .self c.E c.N (some c.RN)

/-- What the caller of `eval` and `eval_pool` sees, and the context: tdp_impl_mbedtls.cpp 219-228 and 875-885. -/
def evalEnd (c : Ctx) : Out (Mpi × Option Mpi) → Res Bytes × Ctx
  | .ok (x, rr) => (writeIgn x, { c with RN := rr.getD .null })
  | .err _ => (.exc .runtimeError, c)
  | .ub => (.ub, c)

/-- `TdpImpl_mbedTLS::eval(array)`, tdp_impl_mbedtls.cpp 170-229. -/
def evalArray (c : Ctx) (inp : Bytes) : Res Bytes × Ctx :=
  if msgSize ≠ c.len then (.exc .runtimeError, c) else evalEnd c (evalExp c inp)

/-- `TdpImpl_mbedTLS::sample_array`, tdp_impl_mbedtls.cpp 244-274. -/
def sample (g : Rng) (c : Ctx) (i : Nat) : Res Bytes :=
  match (fillRandom g .null 264 i).1 with
  | .ok x => (toRes .runtimeError (modMpi x .self c.N)) >>= writeZero
  | .err _ => .exc .runtimeError
  | .ub => .ub

/-- `TdpImpl_mbedTLS::generate_array(prf, seed)`, tdp_impl_mbedtls.cpp 295-323, once `rnd` is computed. -/
def generate (c : Ctx) (rnd : Bytes) : Res Bytes := do
  let x ← toRes .runtimeError (readBinary .null rnd)
  let x ← toRes .runtimeError (modMpi x .self c.N)
  writeZero x

/-! ## Inversion -/

/-- `TdpInverseImpl_mbedTLS::invert(array)`, tdp_impl_mbedtls.cpp 498-513, and the private key operation of `invert(string)`. -/
def invertBuf (g : Rng) (c : Ctx) (i : Nat) (inp : Bytes) : Res Bytes × Ctx × Nat :=
  if c.P.p = [] ∨ c.Q.p = [] ∨ c.D.p = [] then (.exc .invalidArgument, c, i)
  else if c.len > inp.length then (.ub, c, i)           -- reads past the end of the input
  else
    let r := rsaPrivate g (inp.take c.len) c i
    match r.1 with
    | .err _ => (.exc .invalidArgument, r.2)
    | .ub => (.ub, r.2)
    | .ok b => if b.length = msgSize then (.ok b, r.2)
               else (.ub, r.2)                          -- the output is partly uninitialised, or overflows

/-- The loop of `insecure_mod_exp`, tdp_impl_mbedtls.cpp 534-542. -/
def expLoop (N : Mpi) (exp : Nat) (X base : Mpi) : Out Mpi :=
  if h : exp = 0 then .ok X
  else do
    let X ← (if exp % 2 = 1 then do
      let X ← mulMpi X .self (.ext base)
      modMpi X .self N
      else .ok X)
    let base ← mulMpi base .self .self
    let base ← modMpi base .self N
    expLoop N (exp / 2) X base
  termination_by exp
  decreasing_by omega

/-- `insecure_mod_exp`, tdp_impl_mbedtls.cpp 518-549, with a fresh destination. -/
def insecureModExp (A : Mpi) (E : Nat) (N : Mpi) : Out Mpi := do
  let X ← lset .null 1
  let base ← copy .null A
  let base ← modMpi base .self N
  expLoop N E X base

/-- The object of class `TdpInverseImpl_mbedTLS`, tdp_impl_mbedtls.hpp 111-112 (`phi_` is never read). -/
structure Inv where
  ctx : Ctx
  p1 : Mpi
  q1 : Mpi

/-- The exponents of `invert_mult`, tdp_impl_mbedtls.cpp 606-607. -/
def multExps (v : Inv) (order : Nat) : Out (Mpi × Mpi) := do
  let dp ← insecureModExp v.ctx.DP order v.p1
  let dq ← insecureModExp v.ctx.DQ order v.q1
  pure (dp, dq)

/-- `TdpInverseImpl_mbedTLS::invert_mult(array)`, tdp_impl_mbedtls.cpp 551-697, from the first computation on. -/
def multRun (v : Inv) (inp : Bytes) (order : Nat) : St Bytes := do
  let x ← St.of (readBinary .null inp)
  let d ← St.of (multExps v order)
  let y ← crt .null x d.1 d.2
  St.of (writeBinary y msgSize)

/-- `TdpInverseImpl_mbedTLS::invert_mult(array)`, tdp_impl_mbedtls.cpp 551-697. -/
def invertMult (v : Inv) (inp : Bytes) (order : Nat) : Res Bytes × Inv :=
  if order = 0 then (.ok inp, v)
  else if msgSize ≠ v.ctx.len then (.exc .invalidArgument, v)
  else
    let r := multRun v inp order v.ctx 0
    (toRes .runtimeError r.1, { v with ctx := r.2.1 })

/-- The constructors of `TdpInverseImpl_mbedTLS`, tdp_impl_mbedtls.cpp 354-395 and 397-443, from the check of the public key on. -/
def mkInv (c : Ctx) : Res Inv := do
  toRes .runtimeError (checkPub c)
  let p1 ← toRes .runtimeError (subInt .null (.ext c.P) 1)
  let q1 ← toRes .runtimeError (subInt .null (.ext c.Q) 1)
  let _ ← toRes .runtimeError (mulMpi .null (.ext p1) (.ext q1))
  pure ⟨c, p1, q1⟩

/-! ## Copies and pools -/

/-- `mbedtls_rsa_copy` onto a context that `mbedtls_rsa_init` has just filled; after an error the copy is empty, rsa.c 588-590. -/
def freshCopy (src : Ctx) : Out Ctx :=
  match rsaCopy .init src with
  | .ok c => .ok c
  | .err _ => .ok { Ctx.init with len := src.len }
  | .ub => .ub

/-- `TdpImpl_mbedTLS(const TdpImpl_mbedTLS&)` (`duplicate`), tdp_impl_mbedtls.cpp 91-106. -/
def duplicate (c : Ctx) : Res Ctx := do
  let d ← toRes .runtimeError (rsaCopy .init c)
  toRes .runtimeError (checkPub d)
  pure d

/-- `TdpImpl_mbedTLS::operator=`, tdp_impl_mbedtls.cpp 119-126, on different objects; the return code is ignored. -/
def assign (dst src : Ctx) : Res Ctx :=
  match rsaCopy dst src with
  | .ok c => .ok c
  | .err _ => .ok { Ctx.init with len := src.len }
  | .ub => .ub

/-! ## Keys from strings

The contents of the INTEGER elements are the arguments; `Verif.Io` describes how they are found in the string. -/

/-- The contents of the elements of an RSAPrivateKey. -/
structure PrivElems where
  n : Bytes
  e : Bytes
  d : Bytes
  p : Bytes
  q : Bytes
  dp : Bytes
  dq : Bytes
  qp : Bytes

/-- `pk_parse_key_pkcs1_der`, pkparse.c 240-250 (with `mbedtls_asn1_get_mpi`, asn1parse.c 171-186). -/
def readPriv (a : PrivElems) : Out Ctx := do
  let N ← readBinary .null a.n
  let E ← readBinary .null a.e
  let D ← readBinary .null a.d
  let P ← readBinary .null a.p
  let Q ← readBinary .null a.q
  let DP ← readBinary .null a.dp
  let DQ ← readBinary .null a.dq
  let QP ← readBinary .null a.qp
  pure ⟨size N, N, E, D, P, Q, DP, DQ, QP, .null, .null, .null, .null, .null⟩

/-- `pk_get_rsapubkey`, pkparse.c 70-81. -/
def readPub (n e : Bytes) : Out Ctx := do
  let N ← readBinary .null n
  let E ← readBinary .null e
  let c : Ctx := { Ctx.init with N := N, E := E }
  checkPub c
  pure { c with len := size N }

/-- `TdpImpl_mbedTLS(pk)`, tdp_impl_mbedtls.cpp 70-89, with `mbedtls_rsa_parse_public_key`, rsa_io.c 37-61, which ignores the return code of
`mbedtls_rsa_copy`. -/
def importPub (n e : Bytes) : Res Ctx := do
  let c ← toRes .runtimeError (readPub n e)
  let d ← toRes .runtimeError (freshCopy c)
  toRes .runtimeError (checkPub d)
  pure d

/-- `TdpInverseImpl_mbedTLS(sk)`, tdp_impl_mbedtls.cpp 397-443, with `mbedtls_rsa_parse_key`, rsa_io.c 66-91, and the check at pkparse.c 262. -/
def importPriv (a : PrivElems) : Res Inv := do
  let c ← toRes .runtimeError (readPriv a)
  toRes .runtimeError (checkPriv c)
  let d ← toRes .runtimeError (freshCopy c)
  mkInv d

/-- A `TdpMultPoolImpl_mbedTLS`: the base key, `keys_` and `keys_count_`. -/
structure Pool where
  base : Ctx
  keys : List Ctx
  count : Nat

/-- `mbedtls_mpi_mul_int( &E, &prev.E, RSA_PK )`, whose return code is ignored. -/
def mulE (E : Mpi) (A : Arg) : Mpi :=
  match mulInt E A Tdp.rsaPk with
  | .ok E => E
  | _ => E

/-- The loop of the pool constructor, tdp_impl_mbedtls.cpp 736-747: `left` more keys after `prev`. -/
def poolLoop : Nat → Ctx → Res (List Ctx)
  | 0, _ => .ok []
  | left + 1, prev => do
    let k ← toRes .runtimeError (freshCopy prev)
    let k := { k with E := mulE k.E (.ext prev.E) }
    toRes .runtimeError (checkPub k)
    let l ← poolLoop left k
    pure (k :: l)

/-- `TdpMultPoolImpl_mbedTLS(sk, size)`, tdp_impl_mbedtls.cpp 715-748, after parsing the key; `size` is a `uint8_t`. -/
def mkPool (c : Ctx) (size : Nat) : Res Pool :=
  let count := (size + 255) % 256
  if size = 0 then .exc .invalidArgument
  else if count = 0 then .ub      -- `keys_` has no element, and `keys_[0]` is written
  else do
    let k ← toRes .runtimeError (freshCopy c)
    let k := { k with E := mulE k.E .self }
    toRes .runtimeError (checkPub k)
    let keys ← poolLoop (count - 1) k
    pure ⟨c, k :: keys, count⟩

/-- `maximum_order`, tdp_impl_mbedtls.cpp 908-911. -/
def Pool.maxOrder (p : Pool) : Nat := (p.count + 1) % 256

/-- Which key `eval_pool` uses, tdp_impl_mbedtls.cpp 817-830. -/
def Pool.select (p : Pool) (order : Nat) : Res Ctx :=
  if order = 1 then .ok p.base
  else if order ≤ p.maxOrder then
    (if order < 2 then .ub else match p.keys[order - 2]? with
      | some k => .ok k
      | none => .ub)
  else .exc .invalidArgument

/-- The pool in which the key used by `eval_pool` has changed. -/
def Pool.update (p : Pool) (order : Nat) (c : Ctx) : Pool :=
  if order = 1 then { p with base := c } else { p with keys := p.keys.set (order - 2) c }

/-- The computation of `eval_pool`, tdp_impl_mbedtls.cpp 839-864. -/
def poolExp (k : Ctx) (inp : Bytes) : Out (Mpi × Option Mpi) := do
  let x ← readBinary .null inp
  expMod x .self k.E k.N (some k.RN)

/-- `TdpMultPoolImpl_mbedTLS::eval_pool(array)`, tdp_impl_mbedtls.cpp 810-886. -/
def evalPool (p : Pool) (inp : Bytes) (order : Nat) : Res Bytes × Pool :=
  match p.select order with
  | .ok k =>
    if msgSize ≠ p.base.len then (.exc .runtimeError, p)
    else
      let r := evalEnd k (poolExp k inp)
      (r.1, p.update order r.2)
  | .exc e => (.exc e, p)
  | .ub => (.ub, p)

/-- The loop of the copy constructor and of the assignment, tdp_impl_mbedtls.cpp 756-767 and 785-796. -/
def copyKeys : List Ctx → Res (List Ctx)
  | [] => .ok []
  | k :: l => do
    let d ← toRes .runtimeError (freshCopy k)
    toRes .runtimeError (checkPub d)
    let l ← copyKeys l
    pure (d :: l)

/-- The copy constructor (`duplicate_pool`), tdp_impl_mbedtls.cpp 750-768. -/
def Pool.copy (p : Pool) : Res Pool := do
  let base ← duplicate p.base
  let keys ← copyKeys p.keys
  pure ⟨base, keys, p.count⟩

/-- `TdpMultPoolImpl_mbedTLS::operator=`, tdp_impl_mbedtls.cpp 770-799, on different objects: the base class part is not assigned. -/
def Pool.assign (self t : Pool) : Res Pool := do
  let keys ← copyKeys t.keys
  pure ⟨self.base, keys, t.count⟩

end Verif.Rsa
