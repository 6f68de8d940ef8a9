import Verif.Basic
import Mathlib.Data.Nat.Digits.Defs
import Mathlib.Algebra.Module.Basic

/-!
# Model of the wrapper of RELIC: `src/ppke/relic_wrapper/relic_api.{h,cpp}`

Scalars (`ZR`), the integer functions of `PairingGroup`, the inputs of the three hash functions, and the printing operators.

The numbers of RELIC (`bn_t`) are modelled with their sign and their `used` digits of 64 bits, because `operator&` writes the digits
itself and because `bn_cmp` and `bn_is_zero` look at `used` before they look at the digits.  The other functions of RELIC are modelled by
the number that they compute, stored without leading zero digits (`nrm`).  Four of them are parameters (`Prims`), whose laws are in
`Prims.Ok` (Spec.lean).  The capacity of `bn_t` is not modelled: numbers are unbounded.

Left out: the assignments and moves (the macros `RELICXX_MOVE..` are nowhere defined), `ismember` of the groups, and the encodings of
group elements (see Verif/Ppke).  The groups are written additively.
-/

namespace Verif.Relic

open Verif

/-! ## Numbers of RELIC -/

/-- `bn_st`: the sign and the digits `dp[0 .. used - 1]`. -/
structure Bn where
  neg : Bool
  dp : List UInt64
  deriving DecidableEq, Repr

/-- The number that digits stand for. -/
def mag (dp : List UInt64) : Nat := Nat.ofDigits (2 ^ 64) (dp.map UInt64.toNat)

/-- The number that a `bn_t` stands for. -/
def Bn.val (a : Bn) : Int := if a.neg then -(mag a.dp : Int) else mag a.dp

/-- The digits of a number without leading zeros; zero has one digit (`bn_trim`, `bn_zero`). -/
def digs (n : Nat) : List UInt64 := if n = 0 then [0] else (Nat.digits (2 ^ 64) n).map UInt64.ofNat

/-- The result of a function of RELIC that computes the number `n`. -/
def nrm (n : Int) : Bn := ⟨decide (n < 0), digs n.natAbs⟩

/-- `bn_is_zero`: one digit, and it is zero. -/
def isZero (a : Bn) : Bool := a.dp.length == 0 || (a.dp.length == 1 && mag a.dp == 0)

/-- `bn_cmp_abs`: the number of digits first. -/
def cmpAbs (a b : Bn) : Ordering :=
  if a.dp.length > b.dp.length then .gt
  else if a.dp.length < b.dp.length then .lt
  else compare (mag a.dp) (mag b.dp)

/-- `bn_cmp`. -/
def cmp (a b : Bn) : Ordering :=
  match a.neg, b.neg with
  | false, true => .gt
  | true, false => .lt
  | true, true => cmpAbs b a
  | false, false => cmpAbs a b

/-- `bn_neg`: the sign of zero stays. -/
def bnNeg (a : Bn) : Bn := if isZero a then a else ⟨!a.neg, a.dp⟩

/-- The functions of RELIC that are parameters. -/
structure Prims where
  /-- the order, `g1_get_ord` -/
  r : Nat
  /-- `bn_mod(c, a, order)` -/
  mod : Int → Int
  /-- `bn_gcd_ext(s, c, nullptr, a, order)`: the number `c` -/
  cofactor : Int → Int
  /-- `bn_mxp(c, a, b, order)` -/
  mxp : Int → Int → Int
  /-- `md_map_sh256` -/
  sha : Bytes → Bytes

variable (P : Prims)

/-- `order` of every `ZR` and `grp_order`. -/
def order : Bn := nrm P.r

/-! ## Constructors -/

/-- Does an `int` hold this number? -/
def isInt (x : Int) : Prop := -2 ^ 31 ≤ x ∧ x < 2 ^ 31

instance (x : Int) : Decidable (isInt x) := by unfold isInt; infer_instance

/-- `ZR()`, relic_api.h 108-116. -/
def zrOne : Bn := nrm 1

/-- `ZR(int)`, relic_api.cpp 42-55: `-x` overflows for the least `int`. -/
def zrInt (x : Int) : Res Bn :=
  if x < 0 then
    if isInt (-x) then .ok (bnNeg (nrm (-x))) else .ub
  else .ok (nrm x)

/-- `ZR(bytes, len)`, relic_api.cpp 68-77. -/
def zrBytes (b : Bytes) : Bn := nrm (beNat b)

/-- The digits that `bn_read_str` reads in base ten: until a zero byte, another character, or the end. -/
def readDec : Nat → Bytes → Nat
  | acc, [] => acc
  | acc, c :: s => if 48 ≤ c.toNat ∧ c.toNat ≤ 57 then readDec (acc * 10 + (c.toNat - 48)) s else acc

/-- `ZR(str)`, relic_api.cpp 57-66. -/
def zrText (s : Bytes) : Bn :=
  match s with
  | 45 :: t => nrm (-(readDec 0 t : Int))
  | _ => nrm (readDec 0 s)

/-- `PairingGroup::randomZR`, relic_api.cpp 702-709: `x` is what `bn_rand` returns. -/
def zrRandom (x : Nat) : Bn := nrm (P.mod (nrm x).val)

/-- `PairingGroup::pseudoRandomZR`, relic_api.cpp 711-721: `out` is the output of the PRF. -/
def zrPrf (out : Bytes) : Bn := nrm (P.mod (nrm (beNat out)).val)

/-! ## Arithmetic -/

/-- `operator+`, relic_api.cpp 92-98. -/
def add (x y : Bn) : Bn := nrm (P.mod (nrm (x.val + y.val)).val)

/-- `operator-`, relic_api.cpp 100-111. -/
def sub (x y : Bn) : Bn :=
  let z := nrm (x.val - y.val)
  if z.neg then nrm (z.val + (order P).val) else nrm (P.mod z.val)

/-- Unary `operator-`, relic_api.cpp 113-121. -/
def neg (x : Bn) : Bn :=
  let z := bnNeg x
  if z.neg then nrm (z.val + (order P).val) else z

/-- `operator*`, relic_api.cpp 124-135. -/
def mul (x y : Bn) : Bn :=
  let z := nrm (x.val * y.val)
  if z.neg then nrm (z.val + (order P).val) else nrm (P.mod z.val)

/-- `invertZR`, relic_api.cpp 28-39. -/
def invertZR (a : Bn) : Bn :=
  let c := nrm (P.cofactor a.val)
  if c.neg then nrm (c.val + (order P).val) else c

/-- `ZR::inverse`, relic_api.cpp 85-90. -/
def inverse (a : Bn) : Bn := invertZR P a

/-- `operator/`, relic_api.cpp 137-145. -/
def div (x y : Bn) : Res Bn := if isZero y then .exc .logicError else .ok (mul P x (invertZR P y))

/-- `PairingGroup::div(int, ZR)`, relic_api.cpp 888-891. -/
def divInt (g : Int) (h : Bn) : Res Bn := do
  let x ← zrInt g
  div P x h

/-- `power(const ZR&, const ZR&)`, relic_api.cpp 155-160. -/
def pow (x k : Bn) : Bn := nrm (P.mxp x.val k.val)

/-- `power(const ZR&, int)`, relic_api.cpp 147-152. -/
def powInt (x : Bn) (k : Int) : Res Bn := do
  let k ← zrInt k
  pure (nrm (P.mxp x.val k.val))

/-- `operator<<(ZR, int)`, relic_api.cpp 213-222, for shifts that are not negative. -/
def shl (a : Bn) (n : Nat) : Bn :=
  let z := nrm (a.val * 2 ^ n)
  if cmp z (order P) = .gt then nrm (P.mod z.val) else z

/-- `operator>>(ZR, int)`, relic_api.cpp 224-230, for shifts that are not negative: `bn_rsh` shifts the digits and keeps the sign. -/
def shr (a : Bn) (n : Nat) : Bn :=
  let z := nrm (mag a.dp / 2 ^ n : Nat)
  if a.neg then bnNeg z else z

/-- `operator&`, relic_api.cpp 232-247: the digits are written one by one, `used` is the smaller of the two, the sign is that of a new number. -/
def land (a b : Bn) : Bn := ⟨false, List.zipWith (· &&& ·) a.dp b.dp⟩

/-- `operator==`, relic_api.h 216-240. -/
def eq (x y : Bn) : Bool := cmp x y == .eq

/-- `operator<`, relic_api.h 291-315. -/
def lt (x y : Bn) : Bool := cmp x y == .lt

/-- `ZR::ismember`, relic_api.cpp 189-192. -/
def ismember (x : Bn) : Bool := cmp x (order P) == .lt && !x.neg

/-! ## Bytes and text -/

/-- `ZR::getBytes`, `ZR::writeBytes`, relic_api.cpp 79-82, 194-199: `RELIC_BN_BYTES` = 32 bytes.  `bn_write_bin` fills the buffer from the
end; with `CHECK=off` it does not stop when the number is longer. -/
def getBytes (x : Bn) : Res Bytes := if mag x.dp < 256 ^ 32 then .ok (beBytes 32 (mag x.dp)) else .ub

/-- The digits in base ten. -/
def dec (n : Nat) : Bytes := if n = 0 then [48] else ((Nat.digits 10 n).map fun d => UInt8.ofNat (48 + d)).reverse

/-- The text that `bn_write_str` writes, without the zero byte at its end. -/
def text (x : Bn) : Bytes := (if x.neg then [45] else []) ++ dec (mag x.dp)

/-- `bn_size_str`: the text and the zero byte. -/
def sizeStr (x : Bn) : Nat := (text x).length + 1

/-- `operator<<(std::ostream&, const ZR&)`, relic_api.cpp 201-211: what is written to the stream. -/
def printZR (x : Bn) : Bytes :=
  let length := sizeStr x
  let data := text x ++ List.replicate (length + 1 - (text x).length) 0
  data.take length

/-- An `unsigned int` in base sixteen, as `std::hex` prints it. -/
def hexNat (n : Nat) : Bytes :=
  if n = 0 then [48] else ((Nat.digits 16 n).map fun d => UInt8.ofNat (if d < 10 then 48 + d else 87 + d)).reverse

/-- The loop of `operator<<` for group elements, relic_api.cpp 380-382: `i` is a byte of the encoding, and the index of the byte printed. -/
def printLoop (data : Bytes) : Bytes → Res Bytes
  | [] => .ok []
  | i :: s =>
    match data[i.toNat]? with
    | none => .ub
    | some x => do
      let t ← printLoop data s
      pure (hexNat x.toNat ++ t)

/-- `operator<<(std::ostream&, const G1&)`, and the same for `G2` and `GT`, relic_api.cpp 373-389, 492-508, 635-651: `data` is what
`getBytes()` returns. -/
def printPoint (data : Bytes) : Res Bytes := do
  let t ← printLoop data data
  pure ([48, 120] ++ t ++ [10])

/-! ## Hash functions -/

/-- What `hashToZR` passes to SHA-256, relic_api.cpp 168-170. -/
def inputZR (b : Bytes) : Bytes := 0x01 :: b

/-- What `hashToG1` passes to `g1_map`, relic_api.cpp 331-333. -/
def inputG1 (b : Bytes) : Bytes := 0x02 :: b

/-- What `hashToG2` passes to `g2_map`, relic_api.cpp 448-450. -/
def inputG2 (b : Bytes) : Bytes := 0x02 :: b

/-- `hashToZR`, relic_api.cpp 162-182. -/
def hashToZR (b : Bytes) : Bn :=
  let z := nrm (beNat (P.sha (inputZR b)))
  if cmp z (order P) = .gt then nrm (P.mod z.val) else z

/-! ## The functions of `PairingGroup` on `int` -/

/-- `PairingGroup::add(int, int)`, relic_api.cpp 846-849. -/
def intAdd (g h : Int) : Res Int := if isInt (g + h) then .ok (g + h) else .ub

/-- `PairingGroup::sub(int, int)`, relic_api.cpp 856-859. -/
def intSub (g h : Int) : Res Int := if isInt (g - h) then .ok (g - h) else .ub

/-- `PairingGroup::mul(int, int)`, relic_api.cpp 866-869. -/
def intMul (g h : Int) : Res Int := if isInt (g * h) then .ok (g * h) else .ub

/-- `PairingGroup::div(int, int)`, relic_api.cpp 909-915. -/
def intDiv (g h : Int) : Res Int := if h = 0 then .exc .logicError else if isInt (g.tdiv h) then .ok (g.tdiv h) else .ub

/-! ## Group elements -/

section Groups

variable {G : Type} [AddCommGroup G]

/-- `operator+` of `G1` and `G2`, `operator*` of `GT`, relic_api.cpp 292-299, 404-411, 523-530. -/
def gAdd (x y : G) : G := x + y

/-- `operator-` of `G1` and `G2`, relic_api.cpp 301-308, 413-421. -/
def gSub (x y : G) : G := x - y

/-- Unary `operator-`, relic_api.cpp 310-315, 423-429, 564-570; also `PairingGroup::inv`, 775-786. -/
def gNeg (x : G) : G := -x

/-- `PairingGroup::div` of `G1` and `G2`, relic_api.cpp 809-812, 899-902. -/
def gDiv (x y : G) : G := gAdd x (gNeg y)

/-- `operator/` of `GT`, relic_api.cpp 532-546; also `PairingGroup::div`, 904-907. -/
def tDiv (x y : G) : G :=
  let t := -y
  gAdd x t

/-- `power` of `G1` and `G2`, relic_api.cpp 317-322, 431-438. -/
def gPow (g : G) (k : Bn) : G := k.val • g

/-- `power` of `GT`, relic_api.cpp 548-562. -/
def tPow (g : G) (k : Bn) : Res G := do
  let m ← zrInt (-1)
  if eq k m then pure (gNeg g) else pure (k.val • g)

/-- `PairingGroup::exp(G1, int)`, `exp(G2, int)`, relic_api.cpp 820-824, 934-938. -/
def gPowInt (g : G) (k : Int) : Res G := do
  let k ← zrInt k
  pure (gPow g k)

/-- `PairingGroup::exp(GT, int)`, relic_api.cpp 946-950. -/
def tPowInt (g : G) (k : Int) : Res G := do
  let k ← zrInt k
  tPow g k

end Groups

end Verif.Relic
