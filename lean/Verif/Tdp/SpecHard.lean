import Verif.Tdp.Model
import Verif.Average

/-!
# Games about the one-wayness of the trapdoor permutation

A client keeps `n` chains of tokens: the first token of a chain is its seed, the next one is the inverse of the one before (as in searchable encryption, where
`invert_mult` gives the token at a level).  A player sees tokens at levels of its choice and names a token that is further than all that it saw of the chain.

The algorithms that the player is turned into compute with the evaluation function only.
-/

namespace Verif.Tdp.Hard

open Verif Verif.Tdp Verif.Avg

/-- A player: asks for tokens (chain and level), and ends with a chain, a level and a string. -/
inductive Player (n T : Nat) where
  | guess (j : Fin n) (t : Fin T) (x : Bytes)
  | ask (j : Fin n) (t : Fin T) (next : Bytes → Player n T)

/-- The player names the token of a level above all levels asked for in this chain.  `seen j`: the least level of chain `j` above those asked for. -/
def wins {n T : Nat} (tok : Fin n → Fin T → Bytes) : (Fin n → Nat) → Player n T → Bool
  | seen, .guess j t x => decide (seen j ≤ t.val) && decide (x = tok j t)
  | seen, .ask j t next => wins tok (Function.update seen j (max (seen j) (t.val + 1))) (next (tok j t))

/-- The algorithm for the chain `j` and the level `u`: `y` is the token below level `u` of this chain, `top i` the last token of another chain; all else is
computed with the evaluation function `ev`. -/
def solve {n T : Nat} (ev : Bytes → Bytes) (j : Fin n) (u : Nat) (y : Bytes) (top : Fin n → Bytes) : Player n T → Option Bytes
  | .guess i t x => if i = j ∧ u ≤ t.val then some (ev^[t.val - u] x) else none
  | .ask i t next =>
    if i = j then if t.val < u then solve ev j u y top (next (ev^[u - 1 - t.val] y)) else none
    else solve ev j u y top (next (ev^[T - 1 - t.val] (top i)))

/-- The evaluation that a holder of the public key computes (`[]` if it throws). -/
def evalOf (k : Rsa) (m : Bytes) : Bytes :=
  match evalString k m with
  | .ok c => c
  | _ => []

/-- The token at a level, as a `TdpInverse` object computes it (`[]` if it throws). -/
def token (k : Rsa) (seed : Bytes) (t : Nat) : Bytes :=
  match invertMultString k seed t with
  | .ok x => x
  | _ => []

/-- `x` is an inverse of `y`. -/
def Inverts (k : Rsa) (x : Option Bytes) (y : Bytes) : Prop := ∃ b, x = some b ∧ evalString k b = .ok y

instance (k : Rsa) (x : Option Bytes) (y : Bytes) : Decidable (Inverts k x y) :=
  match x with
  | none => isFalse fun ⟨_, h, _⟩ => by cases h
  | some b =>
    if h : evalString k b = .ok y then isTrue ⟨b, rfl, h⟩
    else isFalse fun ⟨_, h1, h2⟩ => h (by cases h1; exact h2)

/-- Probability of an event as a number. -/
def prob (p : Prop) [Decidable p] : ℚ := if p then 1 else 0

/-- Inverting `y` with an algorithm `A` for other messages: ask it for the inverse of `y * eval(r)` and divide by `r`. -/
def shifted (k : Rsa) (A : Bytes → Option Bytes) (y : Bytes) (r : Nat) : Option Bytes :=
  match A (beBytes 256 (beNat y * beNat (evalOf k (beBytes 256 r)) % k.N)) with
  | none => none
  | some x =>
    match mpiInv r k.N with
    | none => none
    | some i => some (beBytes 256 (beNat x * i % k.N))

end Verif.Tdp.Hard
