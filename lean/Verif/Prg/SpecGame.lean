import Verif.Prg.Props
import Verif.Lazy
import Verif.RCPrf.SpecGame

/-!
# The game for the generator: a client of one object with a uniform key, compared with a uniform stream

An attack calls `derive`, `derive_key` and `derive_keys` with arguments that may depend on all answers before.
The block function of the key stream is attacked by asking for blocks.
-/

namespace Verif.Prg.Game

open Verif Verif.Avg Verif.Oracle

/-- A call of a method of `Prg`. -/
inductive Call
  | derive (off len : Nat)
  | key (K off : Nat)
  | keys (K n off : Nat)
  deriving DecidableEq

/-- What the code answers for a key. -/
def code (B : Bytes → Nat → Nat → UInt8) (k : Bytes) : Call → Res (List Bytes)
  | .derive off len => (fun b => [b]) <$> derive B (some k) off len false
  | .key K off => (fun b => [b]) <$> deriveKey B K (some k) off
  | .keys K n off => deriveKeys B K (some k) n off

/-- Arguments of type `size_t`, and outputs of at most `2^63` bytes. -/
def Sized : Call → Prop
  | .derive off len => off < W64 ∧ len ≤ 2 ^ 63
  | .key K _ => K ≤ 2 ^ 63
  | .keys K n _ => K ≤ 2 ^ 63 ∧ n * K ≤ 2 ^ 63

/-- Bytes `off, …, off + len - 1` of a stream. -/
def win (S : Nat → UInt8) (off len : Nat) : Bytes := (List.range len).map fun i => S (off + i)

/-- What a stream answers. -/
def answer (S : Nat → UInt8) : Call → Res (List Bytes)
  | .derive off len => .ok [win S off len]
  | .key K off => if W64 ≤ off * (K + 1) then .exc .invalidArgument else .ok [win S (off * K) K]
  | .keys K n off =>
    if W64 ≤ off * (K + 1) ∨ W64 ≤ n * (K + 1) then .exc .invalidArgument
    else .ok ((List.range n).map fun j => win S ((off + j) * K) K)

/-- The part of the stream that a call shows: first byte and number of bytes. -/
def span : Call → Nat × Nat
  | .derive off len => (off, len)
  | .key K off => (off * K, K)
  | .keys K n off => (off * K, n * K)

/-- The blocks of this part. -/
def need (c : Call) : List Nat := List.range' ((span c).1 / 64) (((span c).1 + (span c).2 + 63) / 64 - (span c).1 / 64)

/-- The block with a number, under a key. -/
def blk (B : Bytes → Nat → Nat → UInt8) (k : Bytes) (c : Nat) : Block 64 := fun i => B k c i

/-- The stream of a sequence of blocks. -/
def streamOf (T : Nat → Block 64) (i : Nat) : UInt8 := T (i / 64) ⟨i % 64, Nat.mod_lt _ (by decide)⟩

/-- Asks for blocks one after the other and goes on with what is known then. -/
def askAll : List Nat → (Nat → Block 64) → ((Nat → Block 64) → Att Nat (Block 64)) → Att Nat (Block 64)
  | [], T, k => k T
  | i :: l, T, k => .ask i fun b => askAll l (Function.update T i b) k

/-- The attack on the block function that an attack on the generator is turned into. -/
def toBlocks : Att Call (Res (List Bytes)) → Att Nat (Block 64)
  | .done b => .done b
  | .ask c k => askAll (need c) (fun _ _ => 0) fun T => toBlocks (k (answer (streamOf T) c))

/-- How well an attack tells the block function, with a uniform key, from a uniform table of `D` blocks. -/
def advBlock (B : Bytes → Nat → Nat → UInt8) (D : Nat) (C : Att Nat (Block 64)) : ℚ :=
  |E (fun k : Block 32 => play (blk B (toBytes k)) C) - E (fun T : Fin D → Block 64 => play (entry (fun _ => 0) T) C)|

/-- How well a test of the first `w` blocks tells them from uniform ones. -/
def advFirst (B : Bytes → Nat → Nat → UInt8) (w : Nat) (g : (Fin w → Block 64) → ℚ) : ℚ :=
  |E (fun k : Block 32 => g fun c => blk B (toBytes k) c) - E g|

end Verif.Prg.Game
