import Verif.Tdp.Model

/-!
# The private operation when memory runs out: model

`mbedtls_rsa_private` calls functions of `bignum.c` that allocate; each of them can return `MBEDTLS_ERR_MPI_ALLOC_FAILED`, and the operation then ends with
an error.  What has been stored in the blinding values `Vi`, `Vf` of the key until then stays there.

A call is run with `b : Option Nat`, the number of calls of functions of `bignum.c` that succeed before one fails (`none`: none fails).  A function that fails
leaves its destination as it was: `mbedtls_mpi_mul_mpi` allocates before it stores (bignum.c 1121-1133), `mbedtls_mpi_mod_mpi`, `mbedtls_mpi_gcd` and
`mbedtls_mpi_inv_mod` store the result in the end (1360, 1795, 1912), `mbedtls_mpi_read_binary` allocates first (618).  Only `mbedtls_mpi_exp_mod` may
leave an intermediate value (1623-1648): it is the parameter `w`.
-/

namespace Verif.Tdp

open Verif

/-- One call of a function of `bignum.c`: `none` if it fails, else what remains of the budget. -/
def spend : Option Nat → Option (Option Nat)
  | none => some none
  | some 0 => none
  | some (b + 1) => some (some b)

/-- Several calls that do not change the key. -/
def spendN : Nat → Option Nat → Option (Option Nat)
  | 0, b => some b
  | n + 1, b => (spend b).bind (spendN n)

/-- The outcome of `rsa_prepare_blinding`: whether it returned 0 and with which budget, `Vi`, `Vf` (`none` while `Vf.p` is null), and the next index of the
random source. -/
structure Prep where
  left : Option (Option Nat)
  blind : Option (Nat × Nat)
  next : Nat

/-- The update of the blinding values, rsa.c 327-336. -/
def squareF (N vi vf i : Nat) (b : Option Nat) : Prep :=
  match spend b with
  | none => ⟨none, some (vi, vf), i⟩
  | some b =>
    match spend b with
    | none => ⟨none, some (vi * vi, vf), i⟩
    | some b =>
      match spend b with
      | none => ⟨none, some (vi * vi % N, vf), i⟩
      | some b =>
        match spend b with
        | none => ⟨none, some (vi * vi % N, vf * vf), i⟩
        | some b => ⟨some b, some (vi * vi % N, vf * vf % N), i⟩

/-- The inverse and the power, rsa.c 348-349. -/
def finishF (N E w vf i : Nat) (b : Option Nat) : Prep :=
  match spend b with
  | none => ⟨none, some (1, vf), i⟩
  | some b =>
    match mpiInv vf N with
    | none => ⟨none, some (1, vf), i⟩
    | some inv =>
      match spend b with
      | none => ⟨none, some (w, vf), i⟩
      | some b =>
        match mpiExpMod inv E N with
        | none => ⟨none, some (inv, vf), i⟩
        | some vi => ⟨some b, some (vi, vf), i⟩

/-- The loop that draws `Vf`, rsa.c 339-345, with `tries` rounds left; `old` is what `Vi` and `Vf` hold (0 for `Vi` while it has no limbs). -/
def drawF (rng : Nat → Nat → Nat) (N E len w : Nat) : Nat → Nat → Option (Nat × Nat) → Option Nat → Prep
  | 0, i, old, _ => ⟨none, old, i⟩
  | tries + 1, i, old, b =>
    match spend b with
    | none => ⟨none, old, i + 1⟩
    | some b =>
      let vf := rng i (len - 1)
      match spend b with
      | none => ⟨none, some ((old.map Prod.fst).getD 0, vf), i + 1⟩
      | some b =>
        let vi := mpiGcd vf N
        if vi = 1 then finishF N E w vf (i + 1) b else drawF rng N E len w tries (i + 1) (some (vi, vf)) b

/-- `rsa_prepare_blinding`, rsa.c 322-354. -/
def prepF (rng : Nat → Nat → Nat) (w : Nat) (k : Rsa) (i : Nat) (b : Option Nat) : Prep :=
  match k.blind with
  | some (vi, vf) => squareF k.N vi vf i b
  | none => drawF rng k.N k.E k.len w 11 i none b

/-- `mbedtls_rsa_private`, rsa.c 380-557.  The 20 calls after the blinding (440-519) do not change the values of the key; which numbers of the random source a
failing call has used does not matter below. -/
def rsaPrivateF (rng : Nat → Nat → Nat) (w : Nat) (k : Rsa) (i : Nat) (b : Option Nat) (input : Bytes) : PrivOut :=
  match k.priv with
  | none => ⟨none, k, i⟩
  | some s =>
    match spend b with
    | none => ⟨none, k, i⟩
    | some b =>
      let T := beNat input
      if T ≥ k.N then ⟨none, k, i⟩
      else
        let p := prepF rng w k i b
        let k' := { k with blind := p.blind }
        match p.left with
        | none => ⟨none, k', p.next⟩
        | some b =>
          match spendN 20 b with
          | none => ⟨none, k', p.next + 2⟩
          | some _ =>
            match p.blind with
            | none => ⟨none, k', p.next⟩  -- not reached
            | some (vi, vf) =>
              match crtPrivate k.N s vi vf T (rng p.next 28) (rng (p.next + 1) 28) with
              | none => ⟨none, k', p.next + 2⟩
              | some y => ⟨mpiWrite y k.len, k', p.next + 2⟩

/-- `TdpInverseImpl_mbedTLS::invert`, tdp_impl_mbedtls.cpp 470-513, on a string of 256 bytes. -/
def invertF (rng : Nat → Nat → Nat) (w : Nat) (k : Rsa) (i : Nat) (b : Option Nat) (s : Bytes) : Res Bytes × Rsa × Nat :=
  if s.length ≠ msgSize then (.exc .invalidArgument, k, i)
  else if k.priv.isNone then (.exc .invalidArgument, k, i)
  else if k.len > s.length then (.ub, k, i)
  else
    let r := rsaPrivateF rng w k i b (s.take k.len)
    match r.out with
    | none => (.exc .invalidArgument, r.key, r.next)
    | some o => if o.length = msgSize then (.ok o, r.key, r.next) else (.ub, r.key, r.next)

/-- A call in a history: the argument, the budget and the intermediate value. -/
structure CallF where
  arg : Bytes
  budget : Option Nat
  w : Nat

/-- A history of calls of one object: the results and the key that is left. -/
def historyF (rng : Nat → Nat → Nat) : Rsa → Nat → List CallF → List (Res Bytes) × Rsa × Nat
  | k, i, [] => ([], k, i)
  | k, i, c :: cs =>
    let r := invertF rng c.w k i c.budget c.arg
    let rs := historyF rng r.2.1 r.2.2 cs
    (r.1 :: rs.1, rs.2)

end Verif.Tdp
