import Verif.Bignum.ModelText
import Verif.Bignum.ModelExp
import Verif.Trace.Basic

/-!
# Big integers as seen by an observer: model

* `mbedtls_mpi_safe_cond_assign`, `mbedtls_mpi_safe_cond_swap` and `mbedtls_mpi_grow` with an event for every branch and every access to a limb.  The fields of
  the structures are at addresses that do not depend on data; they give no events.  Allocation succeeds, as in `Verif.Bignum.Model`.
* `mpi_mul_hlp`, with the events of its last loop.
* The main loop of `mbedtls_mpi_exp_mod` with the calls of `mpi_montmul` and the entry of the table that each of them uses: this is what an observer of the
  addresses of instructions and data sees at least.
-/

namespace Verif.Bignum.Traced

open Verif Verif.Bignum Verif.Trace Verif.Trace.T

/-- The arrays: the limbs of the two integers, the array allocated by `mbedtls_mpi_grow`. -/
inductive Arr where
  | x | y | new
deriving DecidableEq

abbrev M := T Arr

/-- A load of limb `i`. -/
def rdL (a : Arr) (p : List Nat) (i : Nat) : M Nat :=
  ⟨[.rd a i 1], match p[i]? with
    | some v => .ok v
    | none => .ub⟩

/-- A store of limb `i`. -/
def wrL (a : Arr) (p : List Nat) (i v : Nat) : M (List Nat) := ⟨[.wr a i 1], if i < p.length then .ok (p.set i v) else .ub⟩

/-- `mbedtls_mpi_grow`, bignum.c 115-139, on an integer whose limbs are the array `a`: an integer without limbs has the pointer `NULL`.  `memcpy` reads and
writes the limbs, `mbedtls_mpi_zeroize` writes them. -/
def growT (a : Arr) (X : Mpi) (nb : Nat) : M Mpi :=
  ifT (nb > maxLimbs) ⟨[], .exc .runtimeError⟩
    (ifT (X.p.length < nb) (ifT (X.p ≠ [])
        ⟨[.rd a 0 X.p.length, .wr .new 0 X.p.length, .wr a 0 X.p.length], .ok { X with p := X.p ++ List.replicate (nb - X.p.length) 0 }⟩
        (pure { X with p := X.p ++ List.replicate (nb - X.p.length) 0 }))
      (pure X))

/-- The sign that is stored; other values than 1 and -1 do not occur. -/
def signT (s : Int) : M Bool := ⟨[], if s = 1 then .ok false else if s = -1 then .ok true else .ub⟩

/-- `mbedtls_mpi_safe_cond_assign`, bignum.c 232-252. -/
def condAssignT (X Y : Mpi) (assign : Nat) : M Mpi := do
  let f := flag assign
  let X ← growT .x X Y.p.length
  let s ← signT (pickSign f X.s Y.s)
  let p ← forT (fun i p => do
    let u ← rdL .x p i
    let v ← rdL .y Y.p i
    wrL .x p i (pick f u v)) Y.p.length X.p
  let p ← forT (fun k p => do
    let u ← rdL .x p (Y.p.length + k)
    wrL .x p (Y.p.length + k) (u * ((1 + (W64 - f)) % W64) % W64)) (X.p.length - Y.p.length) p
  pure ⟨s, p⟩

/-- `mbedtls_mpi_safe_cond_swap` of two objects, bignum.c 260-289; the comparison of the pointers has failed. -/
def condSwapT (X Y : Mpi) (swap : Nat) : M (Mpi × Mpi) :=
  ifT False (pure (X, Y)) (do
    let f := flag swap
    let X ← growT .x X Y.p.length
    let Y ← growT .y Y X.p.length
    let s ← signT (pickSign f X.s Y.s)
    let t ← signT (pickSign f Y.s X.s)
    let r ← forT (fun i pq => do
      let u ← rdL .x pq.1 i
      let v ← rdL .y pq.2 i
      let p ← wrL .x pq.1 i (pick f u v)
      let q ← wrL .y pq.2 i (pick f v u)
      pure (p, q)) X.p.length (X.p, Y.p)
    pure (⟨s, r.1⟩, ⟨t, r.2⟩))

/-- The carries of `mpi_mul_hlp`, bignum.c 1103-1106: `do { *d += c; c = ( *d < c ); d++; } while( c != 0 )`, from limb `i`. -/
def carryT : Nat → Nat → List Nat → M (List Nat)
  | _, i, [] => ⟨[.rd .x i 1], .ub⟩
  | c, i, d :: r => (⟨[.rd .x i 1, .wr .x i 1], .ok ()⟩ : M Unit) >>= fun _ =>
    ifT ((d + c) % W64 < c) (carryT 1 (i + 1) r >>= fun t => pure ((d + c) % W64 :: t)) (pure ((d + c) % W64 :: r))

/-! ## Exponentiation -/

/-- A call of `mpi_montmul` in the main loop: `X = X * X` or `X = X * W[i]`. -/
inductive Op where
  | sq
  | mul (i : Nat)
deriving DecidableEq

/-- The variables `state`, `nbits`, `wbits`. -/
structure OpSt where
  state : Nat
  nbits : Nat
  wbits : Nat

/-- One round of the main loop, bignum.c 1675-1714. -/
def bitOps (ws : Nat) (s : OpSt) (ei : Nat) : List Op × OpSt :=
  if ei = 0 ∧ s.state = 0 then ([], s)
  else if ei = 0 ∧ s.state = 1 then ([.sq], s)
  else
    let nbits := s.nbits + 1
    let wbits := s.wbits ||| (ei <<< (ws - nbits))
    if nbits = ws then (List.replicate ws .sq ++ [.mul wbits], ⟨1, 0, 0⟩) else ([], ⟨2, nbits, wbits⟩)

def bitsOps (ws : Nat) : List Nat → OpSt → List Op × OpSt
  | [], s => ([], s)
  | e :: r, s =>
    let a := bitOps ws s e
    let b := bitsOps ws r a.2
    (a.1 ++ b.1, b.2)

/-- The remaining bits, bignum.c 1720-1728. -/
def restOps (ws : Nat) : Nat → Nat → List Op
  | 0, _ => []
  | k + 1, wbits =>
    let wbits := (wbits <<< 1) % W64
    .sq :: if wbits &&& (1 <<< ws) ≠ 0 then .mul 1 :: restOps ws k wbits else restOps ws k wbits

/-- All calls of the main loop and of the loop after it for an exponent. -/
def expOps (E : Mpi) : List Op :=
  let ws := winSize (bitlenL E)
  let r := bitsOps ws (bitsOf E.p) ⟨0, 0, 0⟩
  r.1 ++ restOps ws r.2.nbits r.2.wbits

/-- The calls carried out. -/
def runOps (N : Mpi) (mm tl : Nat) (W : List Mpi) : List Op → Mpi → Out Mpi
  | [], X => .ok X
  | .sq :: r, X => do
    let X ← montmul X X N mm tl
    runOps N mm tl W r X
  | .mul i :: r, X => do
    let Wi ← orUb W[i]?
    let X ← montmul X Wi N mm tl
    runOps N mm tl W r X

end Verif.Bignum.Traced
