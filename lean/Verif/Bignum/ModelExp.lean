import Verif.Bignum.ModelDiv

/-!
# Model of modular exponentiation in `src/mbedtls/bignum.c`
-/

namespace Verif.Bignum

open Verif

/-- One step `x *= ( 2 - ( m0 * x ) )`, bignum.c 1482. -/
def newton (m0 x : Nat) : Nat := x * ((2 + (W64 - m0 * x % W64)) % W64) % W64

/-- `mpi_montg_init`, bignum.c 1473-1485; the loop runs for `i` = 64, 32, 16, 8. -/
def montgInit (m0 : Nat) : Nat :=
  let x := (m0 + ((((m0 + 2) % W64) &&& 4) <<< 1)) % W64
  (W64 - newton m0 (newton m0 (newton m0 (newton m0 x)))) % W64

/-- One round of the loop of `mpi_montmul`, bignum.c 1506-1519; `t` is the memory of `T`, `d = T->p + i`. -/
def montStep (a b N : List Nat) (mm m i : Nat) (t : List Nat) : Out (List Nat) := do
  let u0 ← limbAt a i
  let d0 ← limbAt t i
  let b0 ← limbAt b 0
  let u1 := (d0 + u0 * b0) % W64 * mm % W64
  let d ← orUb (mulHlp (b.take m) (t.drop i) u0)
  let d ← orUb (mulHlp N d u1)
  let t ← setLimb (t.take i ++ d) i u0
  setLimb t (i + 1 + (N.length + 1)) 0

/-- The loop, `k` rounds from `i`. -/
def montLoop (a b N : List Nat) (mm m : Nat) : Nat → Nat → List Nat → Out (List Nat)
  | 0, _, t => .ok t
  | k + 1, i, t => do
    let t ← montStep a b N mm m i t
    montLoop a b N mm m k (i + 1) t

/-- The end of `mpi_montmul`, bignum.c 1521-1529; `memcpy` needs room for `n + 1` limbs on both sides. -/
def montEnd (A N : Mpi) (t : List Nat) : Out Mpi :=
  let n := N.p.length
  if A.p.length < n + 1 ∨ t.length < 2 * n + 1 then .ub
  else
    let A := { A with p := (t.drop n).take (n + 1) ++ A.p.drop (n + 1) }
    if cmpAbs A N ≥ 0 then do
      let p ← orUb (subHlp N.p A.p)
      pure { A with p := p }
    else do
      let _ ← orUb (subHlp (A.p.take n) t)
      pure A

/-- `mpi_montmul`, bignum.c 1490-1530.  `B` may be the same object as `A`, which does not change before the end.  `tl` is the number of limbs
    of `T`, whose contents are cleared first. -/
def montmul (A B N : Mpi) (mm tl : Nat) : Out Mpi :=
  if tl < N.p.length + 1 then .err .badInput
  else do
    let m := if B.p.length < N.p.length then B.p.length else N.p.length
    let t ← montLoop A.p B.p N.p mm m N.p.length 0 (List.replicate tl 0)
    montEnd A N t

/-- `mpi_montred`, bignum.c 1535-1544. -/
def montred (A N : Mpi) (mm tl : Nat) : Out Mpi := montmul A ⟨false, [1]⟩ N mm tl

/-- `n` squarings. -/
def squares (N : Mpi) (mm tl : Nat) : Nat → Mpi → Out Mpi
  | 0, X => .ok X
  | k + 1, X => do
    let X ← montmul X X N mm tl
    squares N mm tl k X

/-- The window size, bignum.c 1571-1577. -/
def winSize (i : Nat) : Nat :=
  let w := if i > 671 then 6 else if i > 239 then 5 else if i > 79 then 4 else if i > 23 then 3 else 1
  if w > 6 then 6 else w

/-- `RR`, bignum.c 1598-1609, and what is left in `_RR`. -/
def getRR (N : Mpi) (rr : Option Mpi) : Out (Mpi × Option Mpi) :=
  if (rr.getD Mpi.null).p = [] then do
    let RR ← lset Mpi.null 1
    let RR ← shiftL RR (N.p.length * 2 * 64)
    let RR ← modMpi RR .self N
    pure (RR, rr.map fun _ => RR)
  else .ok (rr.getD Mpi.null, rr)

/-- `W[1]` before the multiplication, bignum.c 1614-1617. -/
def reduceA (W1 A N : Mpi) : Out Mpi := if cmpMpi A N ≥ 0 then modMpi W1 (.ext A) N else copy W1 A

/-- The entries after the first one, bignum.c 1643-1649: `k` entries from `i`. -/
def tabLoop (N : Mpi) (mm tl : Nat) : Nat → Nat → List Mpi → Out (List Mpi)
  | 0, _, W => .ok W
  | k + 1, i, W => do
    let Wi ← orUb W[i]?
    let Wi ← grow Wi (N.p.length + 1)
    let Wp ← orUb W[i - 1]?
    let Wi ← copy Wi Wp
    let W1 ← orUb W[1]?
    let Wi ← montmul Wi W1 N mm tl
    tabLoop N mm tl k (i + 1) (W.set i Wi)

/-- The table, bignum.c 1627-1650. -/
def table (N : Mpi) (mm tl wsize : Nat) (W : List Mpi) : Out (List Mpi) :=
  if wsize > 1 then do
    let j := 1 <<< (wsize - 1)
    let Wj ← orUb W[j]?
    let Wj ← grow Wj (N.p.length + 1)
    let W1 ← orUb W[1]?
    let Wj ← copy Wj W1
    let Wj ← squares N mm tl (wsize - 1) Wj
    tabLoop N mm tl ((1 <<< wsize) - (j + 1)) (j + 1) (W.set j Wj)
  else .ok W

/-- The variables of the main loop. -/
structure ExpSt where
  X : Mpi
  state : Nat
  nbits : Nat
  wbits : Nat

/-- One round of the main loop, bignum.c 1675-1714. -/
def expBit (N : Mpi) (mm tl wsize : Nat) (W : List Mpi) (s : ExpSt) (ei : Nat) : Out ExpSt :=
  if ei = 0 ∧ s.state = 0 then .ok s
  else if ei = 0 ∧ s.state = 1 then do
    let X ← montmul s.X s.X N mm tl
    pure { s with X := X }
  else
    let nbits := s.nbits + 1
    let wbits := s.wbits ||| (ei <<< (wsize - nbits))
    if nbits = wsize then do
      let X ← squares N mm tl wsize s.X
      let Wk ← orUb W[wbits]?
      let X ← montmul X Wk N mm tl
      pure ⟨X, 1, 0, 0⟩
    else .ok ⟨s.X, 2, nbits, wbits⟩

def expBits (N : Mpi) (mm tl wsize : Nat) (W : List Mpi) : List Nat → ExpSt → Out ExpSt
  | [], s => .ok s
  | e :: r, s => do
    let s ← expBit N mm tl wsize W s e
    expBits N mm tl wsize W r s

/-- The bits of an exponent as the loop takes them: limbs from the last one, bits from the highest one, bignum.c 1660-1675. -/
def bitsOf (p : List Nat) : List Nat := p.reverse.flatMap fun x => (List.range 64).reverse.map fun b => (x >>> b) &&& 1

/-- The remaining bits, bignum.c 1720-1728. -/
def expRest (N : Mpi) (mm tl wsize : Nat) (W : List Mpi) : Nat → Mpi → Nat → Out Mpi
  | 0, X, _ => .ok X
  | k + 1, X, wbits => do
    let X ← montmul X X N mm tl
    let wbits := (wbits <<< 1) % W64
    if wbits &&& (1 <<< wsize) ≠ 0 then do
      let W1 ← orUb W[1]?
      let X ← montmul X W1 N mm tl
      expRest N mm tl wsize W k X wbits
    else expRest N mm tl wsize W k X wbits

/-- `A` without its sign, bignum.c 1586-1592. -/
def posA (A : Mpi) : Out Mpi :=
  if A.neg then do
    let P ← copy Mpi.null A
    pure { P with neg := false }
  else .ok A

/-- The correction for a negative `A`, bignum.c 1735-1739. -/
def fixSign (X N E : Mpi) (neg : Bool) : Out Mpi :=
  if neg ∧ E.p ≠ [] ∧ (E.p.getD 0 0) &&& 1 ≠ 0 then addMpi { X with neg := true } (.ext N) .self else .ok X

/-- `mbedtls_mpi_exp_mod`, bignum.c 1549-1750; `A` may be the destination, `E` and `N` are other objects.  `rr` is the cache `_RR`; the second
    component of the result is its new contents. -/
def expMod (X : Mpi) (A : Arg) (E N : Mpi) (rr : Option Mpi) : Out (Mpi × Option Mpi) :=
  if cmpInt N 0 < 0 then .err .badInput
  else do
    let n0 ← limbAt N.p 0
    if n0 &&& 1 = 0 then .err .badInput
    else if cmpInt E 0 < 0 then .err .badInput
    else do
      let mm := montgInit n0
      let wsize := winSize (bitlenL E)
      let j := N.p.length + 1
      let X ← grow X j
      let W1 ← grow Mpi.null j
      let T ← grow Mpi.null (j * 2)
      let tl := T.p.length
      let neg := (A.get X).neg
      let P ← posA (A.get X)
      let c ← getRR N rr
      let W1 ← reduceA W1 P N
      let W1 ← montmul W1 c.1 N mm tl
      let X ← copy X c.1
      let X ← montred X N mm tl
      let W ← table N mm tl wsize ((List.replicate 128 Mpi.null).set 1 W1)
      let s ← expBits N mm tl wsize W (bitsOf E.p) ⟨X, 0, 0, 0⟩
      let X ← expRest N mm tl wsize W s.nbits s.X s.wbits
      let X ← montred X N mm tl
      let X ← fixSign X N E neg
      pure (X, c.2)

end Verif.Bignum
