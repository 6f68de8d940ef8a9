import Verif.Aez.SpecWide

/-!
# Attacks that mix short and long strings: the specification of C112

As for C110 and C111, with strings of both kinds in one attack, under one key.
-/

namespace Verif.AezAll

open Verif Verif.Avg Verif.Oracle Verif.AezRandom

/-- Lengths from `m` to 32 `ℓ` + 63 bytes. -/
abbrev Len (m ℓ : Nat) := { n : Fin (32 * ℓ + 64) // m ≤ n.1 }

/-- A question about a string of such a length. -/
def Good (m ℓ : Nat) (a : Ask) : Prop := m ≤ a.2.length ∧ a.2.length < 32 * ℓ + 64

/-- The answers of permutations, one for each length. -/
def permAnswer {m ℓ : Nat} (π : ∀ n : Len m ℓ, Equiv.Perm (Block n.1.1)) (a : Ask) : Bytes :=
  if h : m ≤ a.2.length ∧ a.2.length < 32 * ℓ + 64 then
    let p := π ⟨⟨a.2.length, h.2⟩, h.1⟩
    toBytes (if a.1 then p.symm (ofBytes _ a.2) else p (ofBytes _ a.2))
  else []

/-- The probability that the attack guesses `true` when uniform permutations answer. -/
noncomputable def ideal (m ℓ : Nat) (A : Att Ask Bytes) : ℚ := E fun π : ∀ n : Len m ℓ, Equiv.Perm (Block n.1.1) => play (permAnswer π) A

/-- The functions that only strings of less than 32 bytes ask for. -/
def small (t : Nat) : Bool := t == 3 || t == 6 || t == 7

/-- The keyed functions that AEZ is made of: for `i` = 3, 6, 7 `E (0, i)` with the hash of nonce and associated data added to the block, and those of C111. -/
def keyed (r : Nat → Nat) (k : Bytes) (a : Nat × Nat) : Nat :=
  if small a.1 then AezSpec.E0 r (AezSpec.key k) a.1 (AezSpec.delta r (AezSpec.key k) ^^^ a.2) else AezWide.keyed r k a

/-- How well `B` tells the keyed functions, for a uniform key of 48 bytes, from uniform functions. -/
noncomputable def adv (ℓ : Nat) (r : Nat → Nat) (B : Att (Nat × Nat) Nat) : ℚ :=
  |E (fun k : Block 48 => play (keyed r (toBytes k)) B) - E (fun ρ : AezWide.Table ℓ => play (AezWide.look ρ) B)|

/-- The attack on the keyed functions that computes the answers itself. -/
def toFunctions : Att Ask Bytes → Att (Nat × Nat) Nat
  | .done b => .done b
  | .ask a c =>
    if a.2.length < 32 then AezRandom.cipher a fun y => toFunctions (c y)
    else (if a.1 then AezWide.coreQ 2 1 a.2 else AezWide.coreQ 1 2 a.2).before fun y => toFunctions (c y)

end Verif.AezAll
