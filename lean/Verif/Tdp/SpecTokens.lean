import Verif.Tdp.SpecHard
import Verif.Mac.SpecRom

/-!
# The tokens of a client whose seeds come from a key

As in `SpecHard`, but the seed of a chain is `generate(prf, name)` for a name of the chain, so that the client stores only the key of the PRF and the private key of
the permutation.  The player may compute hash values.
-/

namespace Verif.Tdp.Tokens

open Verif Verif.Tdp Verif.Tdp.Hard Verif.Avg

/-- A player that also asks for hash values. -/
inductive HPlayer (n T : Nat) where
  | guess (j : Fin n) (t : Fin T) (x : Bytes)
  | ask (j : Fin n) (t : Fin T) (next : Bytes → HPlayer n T)
  | hash (s : Bytes) (next : Bytes → HPlayer n T)

/-- The player of `SpecHard` that is left when `H` is the hash function. -/
def under {n T : Nat} (H : Bytes → Bytes) : HPlayer n T → Player n T
  | .guess j t x => .guess j t x
  | .ask j t next => .ask j t fun y => under H (next y)
  | .hash s next => under H (next (H s))

/-- It asks for at most `q` hash values. -/
inductive Hashes {n T : Nat} : Nat → HPlayer n T → Prop
  | guess {q : Nat} (j : Fin n) (t : Fin T) (x : Bytes) : Hashes q (.guess j t x)
  | ask {q : Nat} {j : Fin n} {t : Fin T} {next : Bytes → HPlayer n T} : (∀ y, Hashes q (next y)) → Hashes q (.ask j t next)
  | hash {q : Nat} {s : Bytes} {next : Bytes → HPlayer n T} : (∀ y, Hashes q (next y)) → Hashes (q + 1) (.hash s next)

/-- The bytes of a result, `[]` if there are none. -/
def found : Option (Res Bytes) → Bytes
  | some (.ok b) => b
  | _ => []

/-- The tokens of the client: PRF key `key`, permutation `k`, names of the chains. -/
def clientToken (H : Bytes → Bytes) (junk : Bytes → Nat → UInt8) (fuel : Nat) (key : Bytes) (k : Rsa) {n T : Nat} (names : Fin n → Bytes) (j : Fin n) (t : Fin T) : Bytes :=
  token k (found (generate H (junk (names j)) fuel (some key) k (names j))) t

end Verif.Tdp.Tokens
