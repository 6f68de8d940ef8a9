import Verif.Bignum.ModelPrime
import Verif.Bignum.ModelInv

/-!
# RSA on limbs: model of `src/mbedtls/rsa.c` and of the RSA computations in `src/tdp_impl/tdp_impl_mbedtls.cpp`

`Verif.Tdp` describes the same functions on the values of the integers.  Here the members of `mbedtls_rsa_context` are multi-precision integers in
the representation of `bignum.c`, with the caches `RN`, `RP`, `RQ` of the Montgomery constants, which depend on the number of limbs of the modulus.

A computation gets a context and the number of calls of the random number generator made before, and returns both, also after an error.  An integer
that a failing function has changed only in part keeps its value here.  Codes of rsa.c are `.badInput` (`MBEDTLS_ERR_RSA_BAD_INPUT_DATA`) and
`.rsa` (all others); a code of bignum.c to which a code of rsa.c is added stays what it is.
-/

namespace Verif.Rsa

open Verif Verif.Bignum

/-- `mbedtls_rsa_context`, rsa.h 66-97. -/
structure Ctx where
  len : Nat
  N : Mpi
  E : Mpi
  D : Mpi
  P : Mpi
  Q : Mpi
  DP : Mpi
  DQ : Mpi
  QP : Mpi
  RN : Mpi
  RP : Mpi
  RQ : Mpi
  Vi : Mpi
  Vf : Mpi

/-- `mbedtls_rsa_init` and `mbedtls_rsa_free`, rsa.c 64-76 and 599-611. -/
def Ctx.init : Ctx := ⟨0, .null, .null, .null, .null, .null, .null, .null, .null, .null, .null, .null, .null, .null⟩

/-- A computation with a context and a random number generator. -/
def St (α : Type) := Ctx → Nat → Out α × Ctx × Nat

def St.next {α β : Type} (r : Out α × Ctx × Nat) (f : α → St β) : Out β × Ctx × Nat :=
  match r with
  | (.ok a, c, i) => f a c i
  | (.err e, s) => (.err e, s)
  | (.ub, s) => (.ub, s)

instance : Monad St where
  pure a := fun c i => (.ok a, c, i)
  bind x f := fun c i => St.next (x c i) f

def St.of {α : Type} (x : Out α) : St α := fun c i => (x, c, i)
def St.get : St Ctx := fun c i => (.ok c, c, i)
def St.put (c : Ctx) : St Unit := fun _ i => (.ok (), c, i)
def St.rand {α : Type} (r : Run α) : St α := fun c i => ((r i).1, c, (r i).2)

/-! ## Checking keys -/

/-- `mbedtls_rsa_check_pubkey`, rsa.c 170-188. -/
def checkPub (c : Ctx) : Out Unit :=
  if c.N.p = [] ∨ c.E.p = [] then .err .rsa
  else do
    let n ← limbAt c.N.p 0
    let e ← limbAt c.E.p 0
    if n &&& 1 = 0 ∨ e &&& 1 = 0 then .err .rsa
    else if bitlenL c.N < 128 ∨ bitlenL c.N > mpiMaxBits then .err .rsa
    else if bitlenL c.E < 2 ∨ cmpMpi c.E c.N ≥ 0 then .err .rsa
    else .ok ()

/-- The computations of `mbedtls_rsa_check_privkey`, rsa.c 209-222, and its test, rsa.c 226-235. -/
def checkPrivParts (c : Ctx) : Out Unit := do
  let PQ ← mulMpi .null (.ext c.P) (.ext c.Q)
  let DE ← mulMpi .null (.ext c.D) (.ext c.E)
  let P1 ← subInt .null (.ext c.P) 1
  let Q1 ← subInt .null (.ext c.Q) 1
  let H ← mulMpi .null (.ext P1) (.ext Q1)
  let G ← gcdMpi .null c.E H
  let G2 ← gcdMpi .null P1 Q1
  let L ← divMpi false false (some .null) (some .null) H G2
  let L1 ← orUb L.1
  let L2 ← orUb L.2
  let I ← modMpi .null (.ext DE) L1
  let DP ← modMpi .null (.ext c.D) P1
  let DQ ← modMpi .null (.ext c.D) Q1
  let QP ← invMod .null c.Q c.P
  if cmpMpi PQ c.N ≠ 0 ∨ cmpMpi DP c.DP ≠ 0 ∨ cmpMpi DQ c.DQ ≠ 0 ∨ cmpMpi QP c.QP ≠ 0 ∨ cmpInt L2 0 ≠ 0 ∨ cmpInt I 1 ≠ 0 ∨ cmpInt G 1 ≠ 0 then .err .rsa
  else .ok ()

/-- `mbedtls_rsa_check_privkey`, rsa.c 193-250. -/
def checkPriv (c : Ctx) : Out Unit := do
  checkPub c
  if c.P.p = [] ∨ c.Q.p = [] ∨ c.D.p = [] then .err .rsa else checkPrivParts c

/-- `mbedtls_rsa_copy`, rsa.c 562-594. -/
def rsaCopy (dst src : Ctx) : Out Ctx := do
  let N ← copy dst.N src.N
  let E ← copy dst.E src.E
  let D ← copy dst.D src.D
  let P ← copy dst.P src.P
  let Q ← copy dst.Q src.Q
  let DP ← copy dst.DP src.DP
  let DQ ← copy dst.DQ src.DQ
  let QP ← copy dst.QP src.QP
  let RN ← copy dst.RN src.RN
  let RP ← copy dst.RP src.RP
  let RQ ← copy dst.RQ src.RQ
  let Vi ← copy dst.Vi src.Vi
  let Vf ← copy dst.Vf src.Vf
  pure ⟨src.len, N, E, D, P, Q, DP, DQ, QP, RN, RP, RQ, Vi, Vf⟩

/-! ## The public operation -/

/-- `mbedtls_mpi_exp_mod( &T, &T, &ctx->E, &ctx->N, &ctx->RN )`. -/
def expN (T : Mpi) : St Mpi := do
  let c ← St.get
  let r ← St.of (expMod T .self c.E c.N (some c.RN))
  St.put { c with RN := r.2.getD .null }
  pure r.1

/-- `mbedtls_rsa_public`, rsa.c 275-314; `input` holds the `ctx->len` bytes that are read. -/
def rsaPublic (input : Bytes) : St Bytes := do
  let c ← St.get
  let T ← St.of (readBinary .null input)
  if cmpMpi T c.N ≥ 0 then St.of (.err .badInput)
  else do
    let T ← expN T
    St.of (writeBinary T c.len)

/-! ## The private operation -/

/-- The update of the blinding values, rsa.c 330-333. -/
def squareBlinding : St Unit := do
  let c ← St.get
  let Vi ← St.of (mulMpi c.Vi .self .self)
  St.put { c with Vi := Vi }
  let Vi ← St.of (modMpi Vi .self c.N)
  St.put { c with Vi := Vi }
  let Vf ← St.of (mulMpi c.Vf .self .self)
  St.put { c with Vi := Vi, Vf := Vf }
  let Vf ← St.of (modMpi Vf .self c.N)
  St.put { c with Vi := Vi, Vf := Vf }

/-- The loop of `rsa_prepare_blinding`, rsa.c 339-345, with `n` more rounds before it gives up. -/
def drawBlinding (g : Rng) : Nat → St Unit
  | 0 => St.of (.err .rsa)
  | n + 1 => do
    let c ← St.get
    let Vf ← St.rand (fillRandom g c.Vf ((c.len + (W64 - 1)) % W64))
    St.put { c with Vf := Vf }
    let Vi ← St.of (gcdMpi c.Vi Vf c.N)
    St.put { c with Vf := Vf, Vi := Vi }
    if cmpInt Vi 1 ≠ 0 then drawBlinding g n else pure ()

/-- `rsa_prepare_blinding`, rsa.c 322-354. -/
def prepareBlinding (g : Rng) : St Unit := do
  let c ← St.get
  if c.Vf.p ≠ [] then squareBlinding
  else do
    drawBlinding g 11
    let c ← St.get
    let Vi ← St.of (invMod c.Vi c.Vf c.N)
    St.put { c with Vi := Vi }
    let Vi ← expN Vi
    let c ← St.get
    St.put { c with Vi := Vi }

/-- A blinded exponent, rsa.c 461-465 and 472-476: `( P - 1 ) * R + DP`; the result is the exponent and `R`. -/
def blindExponent (g : Rng) (P1 D R : Mpi) : St (Mpi × Mpi) := do
  let R ← St.rand (fillRandom g R 28)
  let X ← St.of (mulMpi .null (.ext P1) (.ext R))
  let X ← St.of (addMpi X .self (.ext D))
  pure (X, R)

/-- The Chinese remainder computation, rsa.c 491-505 (with `T` as `dst`), and tdp_impl_mbedtls.cpp 609-628 (with a fresh `dst`). -/
def crt (dst T DP DQ : Mpi) : St Mpi := do
  let c ← St.get
  let a ← St.of (expMod .null (.ext T) DP c.P (some c.RP))
  St.put { c with RP := a.2.getD .null }
  let b ← St.of (expMod .null (.ext T) DQ c.Q (some c.RQ))
  St.put { c with RP := a.2.getD .null, RQ := b.2.getD .null }
  let T ← St.of (subMpi dst (.ext a.1) (.ext b.1))
  let T1 ← St.of (mulMpi a.1 (.ext T) (.ext c.QP))
  let T ← St.of (modMpi T (.ext T1) c.P)
  let T1 ← St.of (mulMpi T1 (.ext T) (.ext c.Q))
  St.of (addMpi T (.ext b.1) (.ext T1))

/-- The part of `mbedtls_rsa_private` after the blinding values are there, rsa.c 437-519. -/
def blindedPrivate (g : Rng) (T : Mpi) : St Bytes := do
  let c ← St.get
  let T ← St.of (mulMpi T .self (.ext c.Vi))
  let T ← St.of (modMpi T .self c.N)
  let P1 ← St.of (subInt .null (.ext c.P) 1)
  let Q1 ← St.of (subInt .null (.ext c.Q) 1)
  let x ← blindExponent g P1 c.DP .null
  let y ← blindExponent g Q1 c.DQ x.2
  let T ← crt T T x.1 y.1
  let T ← St.of (mulMpi T .self (.ext c.Vf))
  let T ← St.of (modMpi T .self c.N)
  St.of (writeBinary T c.len)

/-- `mbedtls_rsa_private`, rsa.c 380-557, with `f_rng` not null; `input` holds the `ctx->len` bytes that are read. -/
def rsaPrivate (g : Rng) (input : Bytes) : St Bytes := do
  let c ← St.get
  if c.P.p = [] ∨ c.Q.p = [] ∨ c.D.p = [] then St.of (.err .badInput)
  else do
    let T ← St.of (readBinary .null input)
    if cmpMpi T c.N ≥ 0 then St.of (.err .badInput)
    else do
      prepareBlinding g
      blindedPrivate g T

end Verif.Rsa
