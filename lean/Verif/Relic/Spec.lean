import Verif.Relic.Model
import Mathlib.Data.ZMod.Basic
import Mathlib.Algebra.Field.ZMod

/-!
# What scalars and group elements of the wrapper of RELIC should be

An expression of scalars is a program that uses the constructors and operators of `ZR`; its meaning is a number modulo the order.
-/

namespace Verif.Relic

open Verif

/-- What is assumed of the four parameters. -/
structure Prims.Ok (P : Prims) : Prop where
  prime : P.r.Prime
  /-- the order has 254 bits -/
  low : 2 ^ 253 < P.r
  high : P.r < 2 ^ 254
  /-- `bn_mod` is the remainder of numbers that are not negative, -/
  mod_pos : ∀ x : Int, 0 ≤ x → P.mod x = x % P.r
  /-- and a number with the same remainder otherwise. -/
  mod_neg : ∀ x : Int, x < 0 → (P.mod x) % P.r = x % P.r
  /-- `bn_gcd_ext` finds inverses of the numbers between zero and the order. -/
  cofactor_inv : ∀ x : Int, 0 < x → x < P.r → (P.cofactor x * x) % P.r = 1
  cofactor_abs : ∀ x : Int, 0 < x → x < P.r → -(P.r : Int) < P.cofactor x ∧ P.cofactor x < P.r
  /-- `bn_mxp` of numbers that are not negative -/
  mxp_pos : ∀ x : Int, 0 ≤ x → ∀ k : Nat, P.mxp x k = x ^ k % P.r

/-- Programs that compute scalars. -/
inductive Expr where
  | dflt
  | int (x : Int)
  | bytes (b : Bytes)
  | text (s : Bytes)
  | rand (x : Nat)
  | prf (out : Bytes)
  | hash (msg : Bytes)
  | order
  | add (a b : Expr)
  | sub (a b : Expr)
  | neg (a : Expr)
  | mul (a b : Expr)
  | div (a b : Expr)
  | divInt (g : Int) (b : Expr)
  | inv (a : Expr)
  | pow (a b : Expr)
  | powInt (a : Expr) (k : Int)
  | shl (a : Expr) (n : Nat)
  | shr (a : Expr) (n : Nat)

variable (P : Prims)

/-- What the code computes. -/
def eval : Expr → Res Bn
  | .dflt => .ok zrOne
  | .int x => zrInt x
  | .bytes b => .ok (zrBytes b)
  | .text s => .ok (zrText s)
  | .rand x => .ok (zrRandom P x)
  | .prf out => .ok (zrPrf P out)
  | .hash m => .ok (hashToZR P m)
  | .order => .ok (Relic.order P)
  | .add a b => do let x ← eval a; let y ← eval b; pure (Relic.add P x y)
  | .sub a b => do let x ← eval a; let y ← eval b; pure (Relic.sub P x y)
  | .neg a => do let x ← eval a; pure (Relic.neg P x)
  | .mul a b => do let x ← eval a; let y ← eval b; pure (Relic.mul P x y)
  | .div a b => do let x ← eval a; let y ← eval b; Relic.div P x y
  | .divInt g b => do let y ← eval b; Relic.divInt P g y
  | .inv a => do let x ← eval a; pure (inverse P x)
  | .pow a b => do let x ← eval a; let y ← eval b; pure (Relic.pow P x y)
  | .powInt a k => do let x ← eval a; Relic.powInt P x k
  | .shl a n => do let x ← eval a; pure (Relic.shl P x n)
  | .shr a n => do let x ← eval a; pure (Relic.shr x n)

/-- The number that a text in base ten stands for: a sign, digits, then anything. -/
def textVal (s : Bytes) : Int :=
  let num (t : Bytes) : Nat := (t.takeWhile fun c => decide (48 ≤ c.toNat ∧ c.toNat ≤ 57)).foldl (fun a c => a * 10 + (c.toNat - 48)) 0
  if s.head? = some 45 then -(num s.tail : Int) else num s

/-- The meaning of a program modulo the order; nothing when it divides by zero. -/
noncomputable def den : Expr → Option (ZMod P.r)
  | .dflt => some 1
  | .int x => some (x : ZMod P.r)
  | .bytes b => some (beNat b : ZMod P.r)
  | .text s => some (textVal s : ZMod P.r)
  | .rand x => some (x : ZMod P.r)
  | .prf out => some (beNat out : ZMod P.r)
  | .hash m => some (beNat (P.sha (0x01 :: m)) : ZMod P.r)
  | .order => some 0
  | .add a b => do let x ← den a; let y ← den b; pure (x + y)
  | .sub a b => do let x ← den a; let y ← den b; pure (x - y)
  | .neg a => do let x ← den a; pure (-x)
  | .mul a b => do let x ← den a; let y ← den b; pure (x * y)
  | .div a b => do let x ← den a; let y ← den b; if y.val = 0 then none else pure (y⁻¹ * x)
  | .divInt g b => do let y ← den b; if y.val = 0 then none else pure (y⁻¹ * (g : ZMod P.r))
  | .inv a => do let x ← den a; pure x⁻¹
  | .pow a b => do let x ← den a; let y ← den b; pure (x ^ y.val)
  | .powInt a k => do let x ← den a; pure (x ^ k.toNat)
  | .shl a n => do let x ← den a; pure (2 ^ n * x)
  | .shr a n => do let x ← den a; pure ((x.val / 2 ^ n : Nat) : ZMod P.r)

/-- Programs without negative numbers, without numbers that reach the order, and without the inverse of zero. -/
def Fine : Expr → Prop
  | .dflt => True
  | .int x => isInt x ∧ 0 ≤ x
  | .bytes b => beNat b < P.r
  | .text s => 0 ≤ textVal s ∧ textVal s < P.r
  | .rand _ => True
  | .prf _ => True
  | .hash m => beNat (P.sha (0x01 :: m)) ≠ P.r
  | .order => False
  | .add a b => Fine a ∧ Fine b
  | .sub a b => Fine a ∧ Fine b
  | .neg a => Fine a
  | .mul a b => Fine a ∧ Fine b
  | .div a b => Fine a ∧ Fine b
  | .divInt g b => isInt g ∧ 0 ≤ g ∧ Fine b
  | .inv a => Fine a ∧ den P a ≠ some 0
  | .pow a b => Fine a ∧ Fine b
  | .powInt a k => Fine a ∧ isInt k ∧ 0 ≤ k
  | .shl a _ => Fine a
  | .shr a _ => Fine a

/-- Programs that may also use negative numbers and numbers beyond the order, except where a representative is chosen. -/
def Loose : Expr → Prop
  | .dflt => True
  | .int x => isInt x ∧ isInt (-x)
  | .bytes _ => True
  | .text _ => True
  | .rand _ => True
  | .prf _ => True
  | .hash _ => True
  | .order => True
  | .add a b => Loose a ∧ Loose b
  | .sub a b => Loose a ∧ Loose b
  | .neg a => Loose a
  | .mul a b => Loose a ∧ Loose b
  | .div a b => Loose a ∧ Fine P b
  | .divInt g b => isInt g ∧ isInt (-g) ∧ Fine P b
  | .inv a => Fine P a ∧ den P a ≠ some 0
  | .pow a b => Fine P a ∧ Fine P b
  | .powInt a k => Fine P a ∧ isInt k ∧ 0 ≤ k
  | .shl a _ => Loose a
  | .shr a _ => Fine P a

/-- A scalar of the code is this number modulo the order, and is stored as the group expects: below the order, without leading zero digits. -/
def Stored (b : Bn) (x : ZMod P.r) : Prop := b.val = x.val ∧ b = nrm b.val

/-- Programs that compute group elements. -/
inductive GExpr (G : Type) where
  | elem (g : G)
  | add (a b : GExpr G)
  | sub (a b : GExpr G)
  | neg (a : GExpr G)
  | div (a b : GExpr G)
  | exp (a : GExpr G) (k : Expr)
  | expInt (a : GExpr G) (k : Int)

section Groups

variable {G : Type} [AddCommGroup G]

/-- What the code computes for `G1` and `G2`. -/
def geval : GExpr G → Res G
  | .elem g => .ok g
  | .add a b => do let x ← geval a; let y ← geval b; pure (gAdd x y)
  | .sub a b => do let x ← geval a; let y ← geval b; pure (gSub x y)
  | .neg a => do let x ← geval a; pure (gNeg x)
  | .div a b => do let x ← geval a; let y ← geval b; pure (gDiv x y)
  | .exp a k => do let x ← geval a; let b ← eval P k; pure (gPow x b)
  | .expInt a k => do let x ← geval a; gPowInt x k

/-- What the code computes for `GT`. -/
def teval : GExpr G → Res G
  | .elem g => .ok g
  | .add a b => do let x ← teval a; let y ← teval b; pure (gAdd x y)
  | .sub a b => do let x ← teval a; let y ← teval b; pure (tDiv x y)
  | .neg a => do let x ← teval a; pure (gNeg x)
  | .div a b => do let x ← teval a; let y ← teval b; pure (tDiv x y)
  | .exp a k => do let x ← teval a; let b ← eval P k; tPow x b
  | .expInt a k => do let x ← teval a; tPowInt x k

/-- The meaning of a program in a group whose order divides the order: nothing when a scalar divides by zero. -/
noncomputable def gden [Module (ZMod P.r) G] : GExpr G → Option G
  | .elem g => some g
  | .add a b => do let x ← gden a; let y ← gden b; pure (x + y)
  | .sub a b => do let x ← gden a; let y ← gden b; pure (x - y)
  | .neg a => do let x ← gden a; pure (-x)
  | .div a b => do let x ← gden a; let y ← gden b; pure (x - y)
  | .exp a k => do let x ← gden a; let b ← den P k; pure (b • x)
  | .expInt a k => do let x ← gden a; pure ((k : ZMod P.r) • x)

/-- All scalars are loose, all `int` have an opposite. -/
def GLoose : GExpr G → Prop
  | .elem _ => True
  | .add a b => GLoose a ∧ GLoose b
  | .sub a b => GLoose a ∧ GLoose b
  | .neg a => GLoose a
  | .div a b => GLoose a ∧ GLoose b
  | .exp a k => GLoose a ∧ Loose P k
  | .expInt a k => GLoose a ∧ isInt k ∧ isInt (-k)

end Groups

/-- What an answer is: the meaning, or a division by zero. -/
def Answers {α β : Type} (R : α → β → Prop) (out : Res α) : Option β → Prop
  | some x => ∃ b, out = .ok b ∧ R b x
  | none => out = .exc .logicError

end Verif.Relic
