import Verif.Aez.SpecMasked
import Verif.Aez.PropsRandom

/-!
# An attack on one `Prp` object through all its functions (C114)

The attack chooses between the functions on strings and those on integers of 32 and 64 bits, all under the same key.
-/

namespace Verif.AezWhole

open Verif Verif.Avg Verif.Oracle Verif.AezRandom

/-- A call of one of the functions of `Prp` (src/include/sse/crypto/prp.hpp); `d` chooses `decrypt`, `wide` the functions on `uint64_t`. -/
inductive Call
  | str (d : Bool) (s : Bytes)
  | num (wide d : Bool) (x : Nat)

/-- The size in bytes of the integers. -/
def width (wide : Bool) : Nat := if wide then 8 else 4

/-- What the caller sees: src/prp.cpp:117–148, 201–227 and 265–291 for strings, src/prp.cpp:124–141 and 150–166 for integers. -/
def code (R : Aez.Block → Aez.Block) (junk : Nat → UInt8) (k : Bytes) : Call → Bytes ⊕ Nat
  | .str d s => .inl (codeString R junk k (d, s))
  | .num wide d x => .inr (codeInt R junk (width wide) k (d, x))

/-- The calls that the statement is about: strings of `m` to 32 `ℓ` + 63 bytes and all integers of the type. -/
def Fine (m ℓ : Nat) : Call → Prop
  | .str d s => AezAll.Good m ℓ (d, s)
  | .num wide _ x => x < 256 ^ width wide

/-- Permutations of the strings of each length that also serve the integers, which are strings of four or eight bytes, lowest byte first. -/
def shared {m ℓ : Nat} (π : ∀ n : AezAll.Len m ℓ, Equiv.Perm (Block n.1.1)) : Call → Bytes ⊕ Nat
  | .str d s => .inl (AezAll.permAnswer π (d, s))
  | .num wide d x => .inr (leNat (AezAll.permAnswer π (d, leBytes (width wide) x)))

/-- Permutations of the strings of each length, and others of the integers. -/
def apart {m ℓ : Nat} (π : ∀ n : AezAll.Len m ℓ, Equiv.Perm (Block n.1.1)) (σ : ∀ wide : Bool, Equiv.Perm (Fin (256 ^ width wide))) : Call → Bytes ⊕ Nat
  | .str d s => .inl (AezAll.permAnswer π (d, s))
  | .num wide d x => .inr (permNum (σ wide) (d, x))

/-- The attack on strings that an attack on the object is. -/
def toStrings : Att Call (Bytes ⊕ Nat) → Att Ask Bytes
  | .done b => .done b
  | .ask (.str d s) c => .ask (d, s) fun y => toStrings (c (.inl y))
  | .ask (.num wide d x) c => .ask (d, leBytes (width wide) x) fun y => toStrings (c (.inr (leNat y)))

end Verif.AezWhole
