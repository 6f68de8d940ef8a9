import Verif.Aez.SpecAll

/-!
# The three functions behind AEZ: the specification of the positive part of C113

All keyed functions of AEZ come from three, each AES rounds with fixed round keys, by adding offsets to the block.
-/

namespace Verif.AezMask

open Verif Verif.Avg Verif.Oracle Verif.AezRandom

/-- A block, as a number. -/
abbrev B := Fin (2 ^ 128)

/-- Three functions on blocks, as a table. -/
abbrev Three := Fin 3 × B → B

/-- A number as a block. -/
def block (x : Nat) : B := ⟨x % 2 ^ 128, Nat.mod_lt _ (Nat.two_pow_pos 128)⟩

/-- The value of one of the three functions. -/
def at3 (f : Three) (j : Fin 3) (x : Nat) : Nat := (f (j, block x)).1

/-- AES with four rounds for `E (0, i)`, `E (1, i)` and the hash, with four rounds for `E (2, i)`, with ten rounds for `E (-1, i)`. -/
def aes (r : Nat → Nat) (k : AezSpec.Key) (j : Fin 3) (x : Nat) : Nat :=
  if j = 0 then AezSpec.aesRounds r x [k.J, k.I, k.L, 0]
  else if j = 1 then AezSpec.aesRounds r x [k.L, k.I, k.J, k.L]
  else AezSpec.aesRounds r x [k.I, k.J, k.L, k.I, k.J, k.L, k.I, k.J, k.L, k.I]

/-- Which of the three functions; the numbering of the keyed functions is that of C111. -/
def which (t : Nat) : Fin 3 := if t < 8 then 0 else if t < 16 then 2 else if t % 2 = 0 then 0 else 1

/-- The offset of a keyed function. -/
def offset (k : AezSpec.Key) (t : Nat) : Nat :=
  if t < 8 then AezSpec.times t k.I else if t < 16 then AezSpec.times (t - 8) k.J else AezSpec.off k.I ((t - 16) / 2)

/-- The hash of nonce and associated data, both fixed. -/
def hash (g : Fin 3 → Nat → Nat) (k : AezSpec.Key) : Nat :=
  (g 0 (AezSpec.offH k 3 1) ^^^ AezSpec.offH k 3 1) ^^^ (g 0 (AezSpec.offH k 4 1) ^^^ AezSpec.offH k 4 1) ^^^
    (g 0 (2 ^ 127 ^^^ AezSpec.offH k 5 0) ^^^ AezSpec.offH k 5 0)

/-- The keyed functions, from three functions. -/
def shape (g : Fin 3 → Nat → Nat) (k : AezSpec.Key) (a : Nat × Nat) : Nat :=
  (if a.1 = 1 ∨ a.1 = 2 then hash g k else 0) ^^^ g (which a.1) ((if AezAll.small a.1 then hash g k else 0) ^^^ a.2 ^^^ offset k a.1)

/-- Three blocks as the key of the offsets. -/
def masks (κ : Fin 3 → B) : AezSpec.Key := ⟨(κ 0).1, (κ 1).1, (κ 2).1⟩

/-- How well `B` tells the keyed functions, for a uniform key of 48 bytes, from those with three uniform functions and uniform offsets. -/
noncomputable def adv (r : Nat → Nat) (A : Att (Nat × Nat) Nat) : ℚ :=
  |E (fun k : Block 48 => play (AezAll.keyed r (toBytes k)) A) - E (fun κ : Fin 3 → B => E (fun f : Three => play (shape (at3 f) (masks κ)) A))|

end Verif.AezMask
