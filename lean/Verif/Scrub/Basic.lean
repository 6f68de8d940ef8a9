import Verif.Mac.Model

/-!
# Functions with temporary buffers

A function of the library keeps intermediate values in local arrays, in vectors, and in blocks from `new[]` or `sodium_malloc`.
Here such a function is a program over the contents of its buffers.  When the function is left, by `return` or by an exception, what the
buffers hold stays in memory which the program no longer owns: the stack below, freed blocks, or blocks whose last pointer went out of
scope.  `Out.left` is the list of these contents, of the function and of all functions it called, in the order in which they were given up.

A buffer which is the result of a function (returned without a copy, or owned by the caller) is not in the list.
-/

namespace Verif.Scrub

open Verif

/-- What a call leaves behind in memory it gave up, and its outcome. -/
structure Out (α : Type) where
  left : List Bytes
  res : Res α

/-- What a program over the local buffers `σ` did: what was left by the functions it called, its buffers, its outcome. -/
structure Step (σ α : Type) where
  left : List Bytes
  st : σ
  res : Res α

/-- A program over the local buffers `σ`. -/
def Z (σ α : Type) : Type := σ → Step σ α

namespace Z

variable {σ α β : Type}

/-- Running `f` after `x`; an exception leaves the buffers as they are. -/
def bind (x : Z σ α) (f : α → Z σ β) : Z σ β := fun s =>
  match (x s).res with
  | .ok a => ⟨(x s).left ++ (f a (x s).st).left, (f a (x s).st).st, (f a (x s).st).res⟩
  | .exc e => ⟨(x s).left, (x s).st, .exc e⟩
  | .ub => ⟨(x s).left, (x s).st, .ub⟩

instance : Monad (Z σ) where
  pure a := fun s => ⟨[], s, .ok a⟩
  bind := bind

/-- A computation without buffers. -/
def lift (r : Res α) : Z σ α := fun s => ⟨[], s, r⟩

/-- A change of the buffers. -/
def upd (f : σ → Res σ) : Z σ Unit := fun s =>
  match f s with
  | .ok s' => ⟨[], s', .ok ()⟩
  | .exc e => ⟨[], s, .exc e⟩
  | .ub => ⟨[], s, .ub⟩

/-- The contents of the buffers. -/
def get : Z σ σ := fun s => ⟨[], s, .ok s⟩

/-- A call of another function. -/
def call (o : Out α) : Z σ α := fun s => ⟨o.left, s, o.res⟩

/-- A function with the buffers `i` at its start; `own s r` are those of its buffers which are not handed to the caller when the outcome
is `r`. -/
def run (i : σ) (own : σ → Res α → List Bytes) (x : Z σ α) : Out α :=
  ⟨(x i).left ++ own (x i).st (x i).res, (x i).res⟩

end Z

/-- `sodium_memzero(buf, n)`. -/
def memzero (n : Nat) (buf : Bytes) : Res Bytes := Mac.putAt buf 0 (List.replicate n 0)

end Verif.Scrub
