import Verif.Lazy
import Verif.Aez.Spec
import Mathlib.Data.Fintype.Perm
import Mathlib.Data.Fintype.Sigma

/-!
# Attacks on the permutation of short strings: the specification of C110

An attack asks for encryptions and decryptions of strings of its choice, each chosen after the answers to those before, and guesses whether the answers
come from the code with a uniform key or from uniform permutations, one for each length, chosen independently.
-/

namespace Verif.AezRandom

open Verif Verif.Avg Verif.Oracle

/-- A question: `true` for decryption, and the string. -/
abbrev Ask := Bool × Bytes

/-- Lengths from `m` to 32 bytes. -/
abbrev Len (m : Nat) := { n : Fin 33 // m ≤ n.1 }

/-- A question about a string of such a length. -/
def Short (m : Nat) (a : Ask) : Prop := m ≤ a.2.length ∧ a.2.length < 33

/-- The bytes of a list as a function. -/
def ofBytes (n : Nat) (s : Bytes) : Block n := fun i => s.getD i.1 0

/-- The answers of permutations, one for each length. -/
def permAnswer {m : Nat} (π : ∀ n : Len m, Equiv.Perm (Block n.1.1)) (a : Ask) : Bytes :=
  if h : m ≤ a.2.length ∧ a.2.length < 33 then
    let p := π ⟨⟨a.2.length, h.2⟩, h.1⟩
    toBytes (if a.1 then p.symm (ofBytes _ a.2) else p (ofBytes _ a.2))
  else []

/-- The probability that the attack guesses `true` when uniform permutations answer. -/
noncomputable def ideal (m : Nat) (A : Att Ask Bytes) : ℚ := E fun π : ∀ n : Len m, Equiv.Perm (Block n.1.1) => play (permAnswer π) A

/-- The keyed functions that AEZ is made of: `E (0, i)` under the key, with the hash of nonce and associated data added to the block (for `i` < 3, to the
result), and from 8 on `E (-1, i - 8)`. -/
def keyed (r : Nat → Nat) (k : Bytes) (a : Nat × Nat) : Nat :=
  if a.1 < 3 then AezSpec.delta r (AezSpec.key k) ^^^ AezSpec.E0 r (AezSpec.key k) a.1 a.2
  else if a.1 < 8 then AezSpec.E0 r (AezSpec.key k) a.1 (AezSpec.delta r (AezSpec.key k) ^^^ a.2)
  else AezSpec.Em1 r (AezSpec.key k) (a.1 - 8) a.2

/-- Twelve functions on blocks of 128 bits, as a table. -/
abbrev Table := Fin 12 × Fin (2 ^ 128) → Fin (2 ^ 128)

/-- The answers of a table. -/
def look (ρ : Table) (a : Nat × Nat) : Nat :=
  (ρ (⟨a.1 % 12, Nat.mod_lt _ (by decide)⟩, ⟨a.2 % 2 ^ 128, Nat.mod_lt _ (Nat.two_pow_pos 128)⟩)).1

/-- How well `B` tells the keyed functions, for a uniform key of 48 bytes, from uniform functions. -/
noncomputable def adv (r : Nat → Nat) (B : Att (Nat × Nat) Nat) : ℚ :=
  |E (fun k : Block 48 => play (keyed r (toBytes k)) B) - E (fun ρ : Table => play (look ρ) B)|

/-! ## The attack on the keyed functions -/

/-- The index of the function for strings of `n` bytes. -/
def tw (n : Nat) : Nat := if n < 16 then 7 else 6

/-- The indices of the functions of the four rounds for strings of 32 bytes: `E (0, 1)`, `E (-1, 1)`, `E (-1, 2)`, `E (0, 2)`. -/
def coreIndex (j : Nat) : Nat := if j = 0 then 1 else if j = 1 then 9 else if j = 2 then 10 else 2

/-- What round `j` asks for, when the right half is `R`. -/
def point (n R j : Nat) : Nat × Nat := if n = 32 then (coreIndex j, R) else (tw n, AezSpec.padHalf n R ^^^ j)

/-- The rounds `js`, then `k`. -/
def rounds (n : Nat) : List Nat → Nat × Nat → (Nat × Nat → Att (Nat × Nat) Nat) → Att (Nat × Nat) Nat
  | [], p, k => k p
  | j :: js, p, k => .ask (point n p.2 j) fun v => rounds n js (p.2, p.1 ^^^ v / 2 ^ (128 - 4 * n)) k

/-- The change of the first bit, then `k`. -/
def flip (n x : Nat) (k : Nat → Att (Nat × Nat) Nat) : Att (Nat × Nat) Nat :=
  if n < 16 then .ask (3, x * 2 ^ (128 - 8 * n) ||| 2 ^ 127) fun v => k (x ^^^ v / 2 ^ 127 * 2 ^ (8 * n - 1))
  else k x

/-- One string, then `k`. -/
def cipher (a : Ask) (k : Bytes → Att (Nat × Nat) Nat) : Att (Nat × Nat) Nat :=
  let n := a.2.length
  if n = 32 then
    rounds n (if a.1 then [3, 2, 1, 0] else [0, 1, 2, 3]) (beNat (a.2.take 16), beNat (a.2.drop 16)) fun p => k (beBytes 16 p.2 ++ beBytes 16 p.1)
  else if a.1 then
    flip n (beNat a.2) fun x => rounds n (List.range (AezSpec.tinyRounds n)).reverse (AezSpec.halvesOf n x) fun p => k (beBytes n (AezSpec.joined n p))
  else
    rounds n (List.range (AezSpec.tinyRounds n)) (AezSpec.halvesOf n (beNat a.2)) fun p => flip n (AezSpec.joined n p) fun y => k (beBytes n y)

/-- The attack on the keyed functions that computes the answers itself. -/
def toFunctions : Att Ask Bytes → Att (Nat × Nat) Nat
  | .done b => .done b
  | .ask a c => cipher a fun y => toFunctions (c y)

end Verif.AezRandom
