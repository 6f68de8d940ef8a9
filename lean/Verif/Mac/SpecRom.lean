import Verif.Mac.PropsGame
import Mathlib.Data.Set.Finite.List

/-!
# HMAC with a random hash function: what an attack sees

The hash function is a uniform table of 64-byte values of all strings of at most `N` bytes.  An attack asks, adaptively, for hash values and for values under a
key that it does not know.  Written without reference to the model.
-/

namespace Verif.Mac.Rom

open Verif Verif.Mac Verif.Avg Verif.Oracle

/-- The strings of at most `N` bytes. -/
abbrev Str (N : Nat) : Type := {s : Bytes // s.length ≤ N}

noncomputable instance (N : Nat) : Fintype (Str N) := @Fintype.ofFinite _ (List.finite_length_le UInt8 N).to_subtype

/-- The hash function of a table. -/
def hashOf {N : Nat} (T : Str N → Block 64) (s : Bytes) : Bytes := if h : s.length ≤ N then toBytes (T ⟨s, h⟩) else List.replicate 64 0

/-- A question: the hash value of a string, or the value of a message under the secret key. -/
inductive Ask where
  | hash (s : Bytes)
  | mac (m : Bytes)

/-- The answers: `H` for hash values, `F` for values under the key. -/
def answers {γ : Type} (H F : Bytes → γ) : Ask → γ
  | .hash s => H s
  | .mac m => F m

/-- At most `qh` hash values and `qm` values under the key are asked for. -/
inductive Counts {γ : Type} : Nat → Nat → Att Ask γ → Prop
  | done {qh qm : Nat} (b : Bool) : Counts qh qm (.done b)
  | hash {qh qm : Nat} {s : Bytes} {c : γ → Att Ask γ} : (∀ y, Counts qh qm (c y)) → Counts (qh + 1) qm (.ask (.hash s) c)
  | mac {qh qm : Nat} {m : Bytes} {c : γ → Att Ask γ} : (∀ y, Counts qh qm (c y)) → Counts qh (qm + 1) (.ask (.mac m) c)

/-- Messages have at most `n` bytes. -/
def Short (n : Nat) : Ask → Prop
  | .hash _ => True
  | .mac m => m.length ≤ n

/-- What is left of the attack when `H` answers the questions for hash values: an attack on the function under the key. -/
def overHash {γ : Type} (H : Bytes → γ) : Att Ask γ → Att Bytes γ
  | .done b => .done b
  | .ask (.hash s) c => overHash H (c (H s))
  | .ask (.mac m) c => .ask m fun y => overHash H (c y)

/-- The ideal: values under the key are independent uniform strings of `n` bytes, independent of the hash function. -/
noncomputable def ideal (N n : Nat) (A : Att Ask Bytes) : ℚ :=
  E fun T : Str N → Block 64 => fresh (fun b : Block n => toBytes b) [] (overHash (hashOf T) A)

/-- Whoever wants to find a tag: asks for hash values and tags, and ends with a message and a tag. -/
inductive Forger where
  | out (m tag : Bytes)
  | hash (s : Bytes) (c : Bytes → Forger)
  | mac (m : Bytes) (c : Bytes → Forger)

/-- 1 if the tag is right and that of the message has not been asked for; `asked` are the messages asked for so far. -/
def wins (H F : Bytes → Bytes) : List Bytes → Forger → ℚ
  | asked, .out m tag => if m ∉ asked ∧ F m = tag then 1 else 0
  | asked, .hash s c => wins H F asked (c (H s))
  | asked, .mac m c => wins H F (m :: asked) (c (F m))

/-- At most `qh` hash values and `qm` tags are asked for. -/
inductive Forger.Counts : Nat → Nat → Forger → Prop
  | out {qh qm : Nat} (m tag : Bytes) : Counts qh qm (.out m tag)
  | hash {qh qm : Nat} {s : Bytes} {c : Bytes → Forger} : (∀ y, Counts qh qm (c y)) → Counts (qh + 1) qm (.hash s c)
  | mac {qh qm : Nat} {m : Bytes} {c : Bytes → Forger} : (∀ y, Counts qh qm (c y)) → Counts qh (qm + 1) (.mac m c)

/-- The messages have at most `n` bytes. -/
inductive Forger.Short (n : Nat) : Forger → Prop
  | out {m tag : Bytes} : m.length ≤ n → Short n (.out m tag)
  | hash {s : Bytes} {c : Bytes → Forger} : (∀ y, Short n (c y)) → Short n (.hash s c)
  | mac {m : Bytes} {c : Bytes → Forger} : m.length ≤ n → (∀ y, Short n (c y)) → Short n (.mac m c)

end Verif.Mac.Rom
