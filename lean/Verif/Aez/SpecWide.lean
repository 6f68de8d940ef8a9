import Verif.Lazy
import Verif.Aez.SpecRandom

/-!
# Attacks on the permutation of long strings: the specification of C111

As for C110, with strings of at least 32 bytes.  `ℓ` bounds their lengths: they have at most `ℓ` pairs of blocks before the last two blocks and the partial
ones, that is less than 32 `ℓ` + 64 bytes.
-/

namespace Verif.AezWide

open Verif Verif.Avg Verif.Oracle Verif.AezRandom

/-- Lengths from 32 to 32 `ℓ` + 63 bytes. -/
abbrev Len (ℓ : Nat) := { n : Fin (32 * ℓ + 64) // 32 ≤ n.1 }

/-- A question about a string of such a length. -/
def Long (ℓ : Nat) (a : Ask) : Prop := 32 ≤ a.2.length ∧ a.2.length < 32 * ℓ + 64

/-- The answers of permutations, one for each length. -/
def permAnswer {ℓ : Nat} (π : ∀ n : Len ℓ, Equiv.Perm (Block n.1.1)) (a : Ask) : Bytes :=
  if h : 32 ≤ a.2.length ∧ a.2.length < 32 * ℓ + 64 then
    let p := π ⟨⟨a.2.length, h.2⟩, h.1⟩
    toBytes (if a.1 then p.symm (ofBytes _ a.2) else p (ofBytes _ a.2))
  else []

/-- The probability that the attack guesses `true` when uniform permutations answer. -/
noncomputable def ideal (ℓ : Nat) (A : Att Ask Bytes) : ℚ := E fun π : ∀ n : Len ℓ, Equiv.Perm (Block n.1.1) => play (permAnswer π) A

/-- The keyed functions that AEZ-core is made of: `E (0, i)` (for `i` = 1, 2 the hash of nonce and associated data is added to the result), from 8 on
`E (-1, i - 8)`, from 16 on `E (1, i)` at 16 + 2 `i` and `E (2, i)` at 17 + 2 `i`. -/
def keyed (r : Nat → Nat) (k : Bytes) (a : Nat × Nat) : Nat :=
  if a.1 = 1 ∨ a.1 = 2 then AezSpec.delta r (AezSpec.key k) ^^^ AezSpec.E0 r (AezSpec.key k) a.1 a.2
  else if a.1 < 8 then AezSpec.E0 r (AezSpec.key k) a.1 a.2
  else if a.1 < 16 then AezSpec.Em1 r (AezSpec.key k) (a.1 - 8) a.2
  else if a.1 % 2 = 0 then AezSpec.E1 r (AezSpec.key k) ((a.1 - 16) / 2) a.2
  else AezSpec.E2 r (AezSpec.key k) ((a.1 - 16) / 2) a.2

/-- Functions on blocks of 128 bits, as a table. -/
abbrev Table (ℓ : Nat) := Fin (2 * ℓ + 18) × Fin (2 ^ 128) → Fin (2 ^ 128)

/-- The answers of a table. -/
def look {ℓ : Nat} (ρ : Table ℓ) (a : Nat × Nat) : Nat :=
  (ρ (⟨a.1 % (2 * ℓ + 18), Nat.mod_lt _ (Nat.succ_pos _)⟩, ⟨a.2 % 2 ^ 128, Nat.mod_lt _ (Nat.two_pow_pos 128)⟩)).1

/-- How well `B` tells the keyed functions, for a uniform key of 48 bytes, from uniform functions. -/
noncomputable def adv (ℓ : Nat) (r : Nat → Nat) (B : Att (Nat × Nat) Nat) : ℚ :=
  |E (fun k : Block 48 => play (keyed r (toBytes k)) B) - E (fun ρ : Table ℓ => play (look ρ) B)|

/-! ## The attack on the keyed functions -/

/-- A computation that asks for values of the functions. -/
inductive Prog (α : Type) where
  | ret (a : α)
  | ask (x : Nat × Nat) (k : Nat → Prog α)

def Prog.bind {α β : Type} : Prog α → (α → Prog β) → Prog β
  | .ret a, f => f a
  | .ask x k, f => .ask x fun v => (k v).bind f

instance : Monad Prog where
  pure := .ret
  bind := .bind

/-- One value. -/
def get (t x : Nat) : Prog Nat := .ask (t, x) .ret

/-- The values of `f` at 1, …, `m`. -/
def all {α : Type} (z : α) (f : Nat → Prog α) : Nat → Prog (Nat → α)
  | 0 => pure fun _ => z
  | m + 1 => do
    let g ← all z f m
    let v ← f (m + 1)
    pure fun i => if i = m + 1 then v else g i

/-- The sum of the partial parts. -/
def uvQ (n : Nat) (u v : Bytes) : Prog Nat :=
  if n % 32 = 0 then pure 0
  else if n % 32 < 16 then get 4 (AezSpec.pad10 u)
  else do
    let a ← get 4 (beNat u)
    let b ← get 5 (AezSpec.pad10 v)
    pure (a ^^^ b)

/-- One string: `a` = 1 and `b` = 2 for encryption, `a` = 2 and `b` = 1 for decryption. -/
def coreQ (a b : Nat) (M : Bytes) : Prog Bytes := do
  let first i := AezSpec.block M (32 * (i - 1))
  let second i := AezSpec.block M (32 * (i - 1) + 16)
  let m := AezSpec.pairs M
  let W ← all 0 (fun i => do
    let v ← get (16 + 2 * i) (second i)
    pure (first i ^^^ v)) m
  let X ← all 0 (fun i => do
    let v ← get 0 (W i)
    pure (second i ^^^ v)) m
  let uv ← uvQ M.length (AezSpec.uPart M) (AezSpec.vPart M)
  let f ← get a (AezSpec.block M (M.length - 16))
  let sx := AezSpec.block M (M.length - 32) ^^^ (AezSpec.xorSum X m ^^^ uv) ^^^ f
  let g ← get (8 + a) sx
  let sy := AezSpec.block M (M.length - 16) ^^^ g
  let K ← all 0 (fun i => get (17 + 2 * i) (sx ^^^ sy)) m
  let c1 ← all 0 (fun i => do
    let v ← get 0 (X i ^^^ K i)
    pure ((W i ^^^ K i) ^^^ v)) m
  let c0 ← all 0 (fun i => do
    let v ← get (16 + 2 * i) (c1 i)
    pure ((X i ^^^ K i) ^^^ v)) m
  let u ← get 12 (sx ^^^ sy)
  let v ← get 13 (sx ^^^ sy)
  let cu := AezSpec.xorBytes (AezSpec.uPart M) (beBytes 16 u)
  let cv := AezSpec.xorBytes (AezSpec.vPart M) (beBytes 16 v)
  let uv' ← uvQ M.length cu cv
  let g' ← get (8 + b) sy
  let f' ← get b (sx ^^^ g')
  let cx := sy ^^^ (AezSpec.xorSum (fun i => W i ^^^ K i) m ^^^ uv') ^^^ f'
  pure ((List.range m).flatMap (fun i => beBytes 16 (c0 (i + 1)) ++ beBytes 16 (c1 (i + 1))) ++ cu ++ cv ++ beBytes 16 cx ++ beBytes 16 (sx ^^^ g'))

/-- A computation, then an attack. -/
def Prog.before {α : Type} : Prog α → (α → Att (Nat × Nat) Nat) → Att (Nat × Nat) Nat
  | .ret a, k => k a
  | .ask x c, k => .ask x fun v => (c v).before k

/-- The attack on the keyed functions that computes the answers itself. -/
def toFunctions : Att Ask Bytes → Att (Nat × Nat) Nat
  | .done b => .done b
  | .ask a c => (if a.1 then coreQ 2 1 a.2 else coreQ 1 2 a.2).before fun y => toFunctions (c y)

end Verif.AezWide
