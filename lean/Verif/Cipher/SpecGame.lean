import Verif.Cipher.Props
import Verif.Average

/-!
# The game of C90: attacks on `Cipher`

An attack asks for encryptions of one of two messages and for decryptions, and ends with a guess.  In the real world
it gets the encryption of the first message, and decryptions; in the ideal world the encryption of the second message,
and decryption accepts nothing.  Strings that were returned by encryption are not decrypted for it.
-/

namespace Verif.Cipher.Game

open Verif Verif.Mac Verif.Avg

/-- An attack.  `flip` draws 16 random bytes. -/
inductive Att where
  | done (b : Bool)
  | flip (f : Block 16 → Att)
  | enc (m0 m1 : Bytes) (c : Res Bytes → Att)
  | dec (x : Bytes) (c : Res Bytes → Att)

/-- `S` asks for at most `qe` encryptions and `qd` decryptions. -/
inductive AtMost : Nat → Nat → Att → Prop
  | done {qe qd : Nat} (b : Bool) : AtMost qe qd (.done b)
  | flip {qe qd : Nat} {f : Block 16 → Att} : (∀ b, AtMost qe qd (f b)) → AtMost qe qd (.flip f)
  | enc {qe qd : Nat} {m0 m1 : Bytes} {c : Res Bytes → Att} : (∀ y, AtMost qe qd (c y)) →
    AtMost (qe + 1) qd (.enc m0 m1 c)
  | dec {qe qd : Nat} {x : Bytes} {c : Res Bytes → Att} : (∀ y, AtMost qe qd (c y)) → AtMost qe (qd + 1) (.dec x c)

/-- The guess as a number. -/
def bit (b : Bool) : ℚ := if b then 1 else 0

/-- What decryption answers when it accepts nothing. -/
def reject (x : Bytes) : Res Bytes := if x.length ≤ 32 then .exc .invalidArgument else .exc .runtimeError

/-- The string that a call returned, if any. -/
def returned : Res Bytes → List Bytes
  | .ok y => [y]
  | _ => []

/-- The probability that the attack guesses `true` in the real (`w = false`) or ideal (`w = true`) world, with key `k`,
when the strings in `C` have been returned by encryption.  Pairs of messages of different lengths are not encrypted. -/
def world (P : Prims) (junk : Nat → UInt8) (w : Bool) (k : Bytes) : List Bytes → Att → ℚ
  | _, .done b => bit b
  | C, .flip f => E fun b => world P junk w k C (f b)
  | C, .enc m0 m1 c =>
    if m0.length = m1.length then
      E fun s : Block 16 =>
        world P junk w k (returned (encryptString P junk (some k) (toBytes s) (if w then m1 else m0)) ++ C)
          (c (encryptString P junk (some k) (toBytes s) (if w then m1 else m0)))
    else world P junk w k C (c (.exc .logicError))
  | C, .dec x c =>
    world P junk w k C (c (if w || C.contains x then reject x else decryptString P (some k) x))

/-- The first 16 bytes. -/
def saltOf (x : Bytes) : Block 16 := fun i => x.getD i 0

/-- The same functions with a function in the place of the key derivation. -/
def withKdf (P : Prims) (R : Block 16 → Block 32) : Prims := { P with kdf := fun _ s => toBytes (R (saltOf s)) }

/-- The same functions with the key derivation with key `k` in the place of the key derivation, whatever key is given. -/
def fixKdf (P : Prims) (k : Bytes) : Prims := { P with kdf := fun _ s => P.kdf k s }

/-- How well the attack, together with the cipher, tells the key derivation with a uniform key from a uniformly random
function; the cipher itself is given no key. -/
def advKdf (P : Prims) (junk : Nat → UInt8) (w : Bool) (S : Att) : ℚ :=
  |E (fun k : Block 32 => world (fixKdf P (toBytes k)) junk w [] [] S) -
    E (fun R : Block 16 → Block 32 => world (withKdf P R) junk w [] [] S)|

/-! ### Attacks on one key of the authenticated encryption -/

/-- An attack on the authenticated encryption with one key and one nonce. -/
inductive One where
  | done (b : Bool)
  | flip (f : Block 16 → One)
  | enc (m0 m1 : Bytes) (c : Bytes → One)
  | dec (e : Bytes) (c : Option Bytes → One)

/-- The attack encrypts at most once, two messages of the same length, and does not decrypt what encryption returned. -/
def Legal : Option Bytes → One → Prop
  | _, .done _ => True
  | r, .flip f => ∀ b, Legal r (f b)
  | r, .enc m0 m1 c => r = none ∧ m0.length = m1.length ∧ ∀ e, Legal (some e) (c e)
  | r, .dec e c => r ≠ some e ∧ ∀ o, Legal r (c o)

/-- At most `q` decryptions. -/
def Decs : Nat → One → Prop
  | _, .done _ => True
  | q, .flip f => ∀ b, Decs q (f b)
  | q, .enc _ _ c => ∀ e, Decs q (c e)
  | q, .dec _ c => 0 < q ∧ ∀ o, Decs (q - 1) (c o)

/-- The probability that it guesses `true`: in the real world it gets encryptions of the first message and decryptions,
in the ideal world encryptions of the second message, and nothing is accepted. -/
def oneVal (P : Prims) (w : Bool) (K N : Bytes) : One → ℚ
  | .done b => bit b
  | .flip f => E fun b => oneVal P w K N (f b)
  | .enc m0 m1 c => oneVal P w K N (c (P.enc K N (if w then m1 else m0)))
  | .dec e c => oneVal P w K N (c (if w then none else P.dec K N e))

/-- The advantage of an attack on one uniform key. -/
def adv1 (P : Prims) (N : Bytes) (D : One) : ℚ :=
  |E (fun K : Block 32 => oneVal P false (toBytes K) N D) - E (fun K : Block 32 => oneVal P true (toBytes K) N D)|

/-! ### From attacks on `Cipher` to attacks on one key -/

/-- The nonce that goes with a salt. -/
def nonceOf (s : Block 16) : Bytes := (toBytes s).take 12

/-- What decryption returns for the answer of the authenticated encryption. -/
def answer : Option Bytes → Res Bytes
  | none => .exc .runtimeError
  | some m => .ok m

/-- The attack on the key of salt `s₀`: the keys of the other salts are given by `R`, those in `A` are treated as in the
ideal world; the attack gives up when a salt comes for the second time (`U` are the salts so far). -/
def single (P : Prims) (s₀ : Block 16) (A : Block 16 → Bool) (R : Block 16 → Block 32) :
    List (Block 16) → List Bytes → Att → One
  | _, _, .done b => .done b
  | U, C, .flip f => .flip fun b => single P s₀ A R U C (f b)
  | U, C, .enc m0 m1 c =>
    if m0.length = m1.length then
      if m0 = [] then single P s₀ A R U C (c (.exc .invalidArgument))
      else .flip fun s =>
        if U.contains s then .done false
        else if s = s₀ then
          .enc m0 m1 fun e => single P s₀ A R (s :: U) ((toBytes s ++ e) :: C) (c (.ok (toBytes s ++ e)))
        else
          single P s₀ A R (s :: U) ((toBytes s ++ P.enc (toBytes (R s)) (nonceOf s) (if A s then m1 else m0)) :: C)
            (c (.ok (toBytes s ++ P.enc (toBytes (R s)) (nonceOf s) (if A s then m1 else m0))))
    else single P s₀ A R U C (c (.exc .logicError))
  | U, C, .dec x c =>
    if x.length ≤ 32 || C.contains x then single P s₀ A R U C (c (reject x))
    else if saltOf x = s₀ then .dec (x.drop 16) fun o => single P s₀ A R U C (c (answer o))
    else if A (saltOf x) then single P s₀ A R U C (c (reject x))
    else single P s₀ A R U C (c (answer (P.dec (toBytes (R (saltOf x))) (nonceOf (saltOf x)) (x.drop 16))))

/-- The same when the attack has just asked for an encryption and the salt is `s₀`. -/
def singleEnc (P : Prims) (s₀ : Block 16) (A : Block 16 → Bool) (R : Block 16 → Block 32) (U : List (Block 16))
    (C : List Bytes) (m0 m1 : Bytes) (c : Res Bytes → Att) : One :=
  .enc m0 m1 fun e => single P s₀ A R (s₀ :: U) ((toBytes s₀ ++ e) :: C) (c (.ok (toBytes s₀ ++ e)))

/-- `S'` is what is left of the attack `S` after some answers. -/
inductive Rest (S : Att) : Att → Prop
  | refl : Rest S S
  | flip {f : Block 16 → Att} (b : Block 16) : Rest S (.flip f) → Rest S (f b)
  | enc {m0 m1 : Bytes} {c : Res Bytes → Att} (y : Res Bytes) : Rest S (.enc m0 m1 c) → Rest S (c y)
  | dec {x : Bytes} {c : Res Bytes → Att} (y : Res Bytes) : Rest S (.dec x c) → Rest S (c y)

/-- The strings returned by encryption so far: none with a salt that has not been used. -/
def Past (U : List (Block 16)) (C : List Bytes) : Prop := ∀ x ∈ C, ∃ s ∈ U, ∃ e, x = toBytes s ++ e

/-- The attacks on one key that `S` is turned into, with the nonces. -/
inductive Derived (P : Prims) (S : Att) : Bytes → One → Prop
  | rest {S' : Att} (s : Block 16) (A : Block 16 → Bool) (R : Block 16 → Block 32) (U : List (Block 16)) (C : List Bytes) :
    Rest S S' → Past U C → s ∉ U → Derived P S (nonceOf s) (single P s A R U C S')
  | first {m0 m1 : Bytes} {c : Res Bytes → Att} (s : Block 16) (A : Block 16 → Bool) (R : Block 16 → Block 32)
    (U : List (Block 16)) (C : List Bytes) : Rest S (.enc m0 m1 c) → m0.length = m1.length → Past U C → s ∉ U →
    Derived P S (nonceOf s) (singleEnc P s A R U C m0 m1 c)

/-- The probability that some of `q` salts come twice, when `u` have come so far: at most this. -/
def coll : Nat → Nat → ℚ
  | _, 0 => 0
  | u, q + 1 => u / 2 ^ 128 + coll (u + 1) q

end Verif.Cipher.Game
