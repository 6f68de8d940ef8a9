import Verif.Cipher.SpecGame

/-!
# The game of C117: attacks on many `Cipher` objects

As the game of C90, with an object named in every question.  Each object refuses only what it has returned itself: a string that another object
returned may be given to it.
-/

namespace Verif.Cipher.Many

open Verif Verif.Mac Verif.Avg Verif.Cipher.Game

/-- An attack on `n` objects. -/
inductive Atts (n : Nat) where
  | done (b : Bool)
  | flip (f : Block 16 → Atts n)
  | enc (i : Fin n) (m0 m1 : Bytes) (c : Res Bytes → Atts n)
  | dec (i : Fin n) (x : Bytes) (c : Res Bytes → Atts n)

variable {n : Nat}

/-- The attack asks object `i` for at most `qe` encryptions and `qd` decryptions. -/
inductive AtMostFor (i : Fin n) : Nat → Nat → Atts n → Prop
  | done {qe qd : Nat} (b : Bool) : AtMostFor i qe qd (.done b)
  | flip {qe qd : Nat} {f : Block 16 → Atts n} : (∀ b, AtMostFor i qe qd (f b)) → AtMostFor i qe qd (.flip f)
  | encHere {qe qd : Nat} {m0 m1 : Bytes} {c : Res Bytes → Atts n} : (∀ y, AtMostFor i qe qd (c y)) → AtMostFor i (qe + 1) qd (.enc i m0 m1 c)
  | encThere {qe qd : Nat} {j : Fin n} {m0 m1 : Bytes} {c : Res Bytes → Atts n} : j ≠ i → (∀ y, AtMostFor i qe qd (c y)) →
    AtMostFor i qe qd (.enc j m0 m1 c)
  | decHere {qe qd : Nat} {x : Bytes} {c : Res Bytes → Atts n} : (∀ y, AtMostFor i qe qd (c y)) → AtMostFor i qe (qd + 1) (.dec i x c)
  | decThere {qe qd : Nat} {j : Fin n} {x : Bytes} {c : Res Bytes → Atts n} : j ≠ i → (∀ y, AtMostFor i qe qd (c y)) → AtMostFor i qe qd (.dec j x c)

/-- What object `j` answers when it is asked for an encryption: that of the second message if it is ideal. -/
def encOf (P : Prims) (junk : Nat → UInt8) (W : Fin n → Bool) (k : Fin n → Bytes) (j : Fin n) (s : Block 16) (m0 m1 : Bytes) : Res Bytes :=
  encryptString P junk (some (k j)) (toBytes s) (if W j then m1 else m0)

/-- What object `j` answers when it is asked for a decryption: it accepts nothing if it is ideal, and nothing that it has returned. -/
def decOf (P : Prims) (W : Fin n → Bool) (k : Fin n → Bytes) (C : Fin n → List Bytes) (j : Fin n) (x : Bytes) : Res Bytes :=
  if W j || (C j).contains x then reject x else decryptString P (some (k j)) x

/-- The probability that the attack guesses `true` when the objects with `W` are ideal, object `j` has the key `k j` and has returned the strings in `C j`. -/
def worlds (P : Prims) (junk : Nat → UInt8) (W : Fin n → Bool) (k : Fin n → Bytes) : (Fin n → List Bytes) → Atts n → ℚ
  | _, .done b => bit b
  | C, .flip f => E fun b => worlds P junk W k C (f b)
  | C, .enc j m0 m1 c =>
    if m0.length = m1.length then
      E fun s : Block 16 => worlds P junk W k (Function.update C j (returned (encOf P junk W k j s m0 m1) ++ C j)) (c (encOf P junk W k j s m0 m1))
    else worlds P junk W k C (c (.exc .logicError))
  | C, .dec j x c => worlds P junk W k C (c (decOf P W k C j x))

/-- The real objects with the keys `k`. -/
def reals (P : Prims) (junk : Nat → UInt8) (A : Atts n) (k : Fin n → Block 32) : ℚ :=
  worlds P junk (fun _ => false) (fun j => toBytes (k j)) (fun _ => []) A

/-- The ideal objects. -/
def ideals (P : Prims) (junk : Nat → UInt8) (A : Atts n) (k : Fin n → Block 32) : ℚ :=
  worlds P junk (fun _ => true) (fun j => toBytes (k j)) (fun _ => []) A

/-- The attack on object `i` alone, which encrypts and decrypts for the others. -/
def only (P : Prims) (junk : Nat → UInt8) (i : Fin n) (W : Fin n → Bool) (k : Fin n → Bytes) : (Fin n → List Bytes) → Atts n → Att
  | _, .done b => .done b
  | C, .flip f => .flip fun b => only P junk i W k C (f b)
  | C, .enc j m0 m1 c =>
    if j = i then .enc m0 m1 fun y => only P junk i W k C (c y)
    else if m0.length = m1.length then
      .flip fun s => only P junk i W k (Function.update C j (returned (encOf P junk W k j s m0 m1) ++ C j)) (c (encOf P junk W k j s m0 m1))
    else only P junk i W k C (c (.exc .logicError))
  | C, .dec j x c => if j = i then .dec x fun y => only P junk i W k C (c y) else only P junk i W k C (c (decOf P W k C j x))

/-- The same when the objects before `i` are ideal. -/
def onlyAt (P : Prims) (junk : Nat → UInt8) (A : Atts n) (i : Fin n) (k : Fin n → Block 32) : Att :=
  only P junk i (fun j => decide (j.1 < i.1)) (fun j => toBytes (k j)) (fun _ => []) A

/-- The attack that only looks for a decryption that is accepted. -/
def watch : Atts n → Atts n
  | .done _ => .done false
  | .flip f => .flip fun b => watch (f b)
  | .enc j m0 m1 c => .enc j m0 m1 fun y => watch (c y)
  | .dec j x c => .dec j x fun y => match y with
    | .ok _ => .done true
    | .exc e => watch (c (.exc e))
    | .ub => watch (c .ub)

end Verif.Cipher.Many
