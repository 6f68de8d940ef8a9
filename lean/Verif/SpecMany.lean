import Verif.Many
import Verif.Aez.SpecWhole
import Verif.Mac.PropsGame
import Verif.Prg.PropsGame

/-!
# Attacks on many objects at once (C115)

The attack names an object with every call.  The keys of the objects are independent and uniform, or derived from one key with `Prg::derive_key`.
-/

namespace Verif.Many

open Verif Verif.Avg Verif.Oracle

/-- `Prp` objects; the key of each is uniform. -/
def prp (R : Aez.Block → Aez.Block) (junk : Nat → UInt8) {n : Nat} (_ : Fin n) (k : Block 48) : AezWhole.Call → Bytes ⊕ Nat := AezWhole.code R junk (toBytes k)

/-- Permutations in place of a `Prp` object. -/
def perms (m ℓ : Nat) {n : Nat} (_ : Fin n) (π : ∀ n : AezAll.Len m ℓ, Equiv.Perm (Block n.1.1)) : AezWhole.Call → Bytes ⊕ Nat := AezWhole.shared π

/-- `Prg` objects. -/
def prg (B : Bytes → Nat → Nat → UInt8) {n : Nat} (_ : Fin n) (k : Block 32) : Prg.Game.Call → Res (List Bytes) := Prg.Game.code B (toBytes k)

/-- A uniform stream in place of a `Prg` object. -/
def stream (D : Nat) {n : Nat} (_ : Fin n) (S : Fin (64 * D) → UInt8) : Prg.Game.Call → Res (List Bytes) := Prg.Game.answer (entry 0 S)

/-- `Prf<nb>` objects, asked for `prf` of a string (src/include/sse/crypto/prf.hpp). -/
def prf (H : Bytes → Bytes) (junk : Nat → UInt8) (nb fuel : Nat) {n : Nat} (_ : Fin n) (k : Block 32) : Bytes → Option (Res Bytes) :=
  Mac.prfString H junk (some (toBytes k)) nb fuel

/-- A table of uniform strings for all strings of at most `L` bytes in place of a `Prf<nb>` object. -/
def table (nb L : Nat) {n : Nat} (_ : Fin n) (T : { s : Bytes // s.length ≤ L } → Block nb) (s : Bytes) : Option (Res Bytes) :=
  some (.ok (toBytes (row (fun _ => 0) T s)))

/-- `Prf<nb>` objects whose keys are derived: object `i` has the key `derive_key(i)` of a `Prg` with key `k` (src/include/sse/crypto/prg.hpp). -/
def derivedPrf (B : Bytes → Nat → Nat → UInt8) (H : Bytes → Bytes) (junk : Nat → UInt8) (nb fuel : Nat) {n : Nat} (k : Bytes) (p : Fin n × Bytes) : Option (Res Bytes) :=
  match Prg.deriveKey B 32 (some k) p.1 with
  | .ok key => Mac.prfString H junk (some key) nb fuel p.2
  | _ => none

/-- The guess of the attack. -/
def guess {ι γ : Type} (F : ι → γ) : Att ι γ → Bool
  | .done b => b
  | .ask s c => guess F (c (F s))

/-- The bytes of a key. -/
def bytes : Res Bytes → Bytes
  | .ok b => b
  | _ => []

/-- Asks for the keys in the list one after the other; `g` guesses from the keys. -/
def gather : List Nat → (Nat → Bytes) → ((Nat → Bytes) → Bool) → Att Nat (Res Bytes)
  | [], T, g => .done (g T)
  | i :: l, T, g => .ask i fun y => gather l (Function.update T i (bytes y)) g

/-- The attack on keys derived with `Prg` that an attack on objects with these keys is. -/
def onKeys {ι γ : Type} {n : Nat} (F : Bytes → ι → γ) (A : Att (Fin n × ι) γ) : Att Nat (Res Bytes) :=
  gather (List.range n) (fun _ => []) fun T => guess (fun p : Fin n × ι => F (T p.1) p.2) A

end Verif.Many
