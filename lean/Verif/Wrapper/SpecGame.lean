import Verif.Wrapper.Props
import Verif.Average

/-!
# The game of C91: attacks on `Wrapper`

An attack asks for wrapped objects of its choice and for unwrapping of any strings, and ends with a guess.  In the ideal
world wrapping returns uniformly random strings and unwrapping accepts nothing.  A string that wrapping returned is not
unwrapped for it as a class with the same header (type byte and public context).
-/

namespace Verif.Wrapper.Game

open Verif Verif.Mac Verif.Avg

section game
variable {ι : Type} {cls : ι → Class}

/-- An attack on a wrapper for the classes `cls`.  `flip` draws 16 random bytes. -/
inductive Att (cls : ι → Class) where
  | done (b : Bool)
  | flip (f : Block 16 → Att cls)
  | wrap (t : ι) (x : (cls t).σ) (c : Res Bytes → Att cls)
  | unwrap (t : ι) (y : Bytes) (c : Res (cls t).σ → Att cls)

/-- `A` asks for at most `qw` wrapped objects and `qu` unwrapped ones. -/
inductive AtMost : Nat → Nat → Att cls → Prop
  | done {qw qu : Nat} (b : Bool) : AtMost qw qu (.done b)
  | flip {qw qu : Nat} {f : Block 16 → Att cls} : (∀ b, AtMost qw qu (f b)) → AtMost qw qu (.flip f)
  | wrap {qw qu : Nat} {t : ι} {x : (cls t).σ} {c : Res Bytes → Att cls} : (∀ y, AtMost qw qu (c y)) →
    AtMost (qw + 1) qu (.wrap t x c)
  | unwrap {qw qu : Nat} {t : ι} {y : Bytes} {c : Res (cls t).σ → Att cls} : (∀ o, AtMost qw qu (c o)) →
    AtMost qw (qu + 1) (.unwrap t y c)

/-- The guess as a number. -/
def bit (b : Bool) : ℚ := if b then 1 else 0

/-- The serialization of an object, if it has one, of the announced size, and if it is not too long: at most `N` bytes are
authenticated, with the random bytes and the header. -/
def serOf (C : Class) (N : Nat) (x : C.σ) : Option Bytes :=
  match C.serialize x with
  | .ok s => if s.length = C.size x ∧ 16 + C.header.length + s.length ≤ N then some s else none
  | _ => none

/-- Strings that are not unwrapped for the attack: those that wrapping returned for the header, and too long ones. -/
def refused (N : Nat) (R : List (Bytes × Bytes)) (C : Class) (y : Bytes) : Bool :=
  R.contains (C.header, y) || decide (N < 16 + C.header.length + (y.length - 28))

/-- What wrapping returned. -/
def returned (hd : Bytes) : Res Bytes → List (Bytes × Bytes)
  | .ok y => [(hd, y)]
  | _ => []

/-- What unwrapping answers when it accepts nothing. -/
def reject {α : Type} (y : Bytes) : Res α := if y.length ≤ 28 then .exc .invalidArgument else .exc .runtimeError

/-- The probability that the attack guesses `true` against the wrapper `w`, when `R` has been returned. -/
def real (H : Bytes → Bytes) (S : Bytes → Bytes → Nat → UInt8) (junk : Nat → UInt8) (N : Nat) (w : Wrapper) :
    List (Bytes × Bytes) → Att cls → ℚ
  | _, .done b => bit b
  | R, .flip f => E fun b => real H S junk N w R (f b)
  | R, .wrap t x c =>
    match serOf (cls t) N x with
    | none => real H S junk N w R (c (.exc .logicError))
    | some _ => E fun iv : Block 16 =>
      real H S junk N w (returned (cls t).header (Wrapper.wrap H S junk w (cls t) x (toBytes iv)).res ++ R)
        (c (Wrapper.wrap H S junk w (cls t) x (toBytes iv)).res)
  | R, .unwrap t y c =>
    if refused N R (cls t) y then real H S junk N w R (c (.exc .logicError))
    else real H S junk N w R (c (Prod.fst <$> (Wrapper.unwrap H S junk w (cls t) y).res))

/-- The same with the wrapper that the constructor makes of the key `k`. -/
def realKey (H : Bytes → Bytes) (S : Bytes → Bytes → Nat → UInt8) (junk : Nat → UInt8) (N : Nat) (A : Att cls)
    (k : Block 32) : ℚ :=
  match mkWrapper H junk (some (toBytes k)) with
  | .ok w => real H S junk N w [] A
  | _ => 0

/-- The ideal world. -/
def ideal (N : Nat) : List (Bytes × Bytes) → Att cls → ℚ
  | _, .done b => bit b
  | R, .flip f => E fun b => ideal N R (f b)
  | R, .wrap t x c =>
    match serOf (cls t) N x with
    | none => ideal N R (c (.exc .logicError))
    | some s => E fun iv : Block 16 => E fun g : Block 12 => E fun z : Block s.length =>
      ideal N (((cls t).header, toBytes iv ++ toBytes z ++ toBytes g) :: R) (c (.ok (toBytes iv ++ toBytes z ++ toBytes g)))
  | R, .unwrap t y c =>
    if refused N R (cls t) y then ideal N R (c (.exc .logicError)) else ideal N R (c (reject y))

/-! ### With other functions for the tag and the key stream -/

/-- 12 bytes of a string. -/
def tagB (x : Bytes) : Block 12 := fun i => x.getD i 0

/-- Adds the key stream for the tag `g`. -/
def xorZ (Z : Block 12 → Nat → UInt8) (g : Block 12) (m : Bytes) : Bytes := m.mapIdx fun i b => b ^^^ Z g i

/-- The string for a tag. -/
def blobG (Z : Block 12 → Nat → UInt8) (iv ser : Bytes) (g : Block 12) : Bytes := iv ++ xorZ Z g ser ++ toBytes g

/-- What unwrapping does after the tag was accepted. -/
def finish (C : Class) (ser : Bytes) : Res C.σ :=
  match C.deserialize ser with
  | .ok r => if r.2 ≠ ser.length then .exc .runtimeError else .ok r.1
  | .exc e => .exc e
  | .ub => .ub

/-- Unwrapping with the tag function `F`. -/
def openF (F : Bytes → Block 12) (Z : Block 12 → Nat → UInt8) (C : Class) (y : Bytes) : Res C.σ :=
  if y.length ≤ 28 then .exc .invalidArgument
  else
    let g := tagB (y.drop (y.length - 12))
    let ser := xorZ Z g ((y.drop 16).take (y.length - 28))
    if F (authData (y.take 16) C.header ser) ≠ g then .exc .runtimeError else finish C ser

/-- The world with tag function `F` and key stream `Z`. -/
def sim (F : Bytes → Block 12) (Z : Block 12 → Nat → UInt8) (N : Nat) : List (Bytes × Bytes) → Att cls → ℚ
  | _, .done b => bit b
  | R, .flip f => E fun b => sim F Z N R (f b)
  | R, .wrap t x c =>
    match serOf (cls t) N x with
    | none => sim F Z N R (c (.exc .logicError))
    | some s => E fun iv : Block 16 =>
      sim F Z N (((cls t).header, blobG Z (toBytes iv) s (F (authData (toBytes iv) (cls t).header s))) :: R)
        (c (.ok (blobG Z (toBytes iv) s (F (authData (toBytes iv) (cls t).header s)))))
  | R, .unwrap t y c =>
    if refused N R (cls t) y then sim F Z N R (c (.exc .logicError)) else sim F Z N R (c (openF F Z (cls t) y))

/-- The world with uniformly random tags and key stream `Z`, in which nothing is accepted. -/
def mid (Z : Block 12 → Nat → UInt8) (N : Nat) : List (Bytes × Bytes) → Att cls → ℚ
  | _, .done b => bit b
  | R, .flip f => E fun b => mid Z N R (f b)
  | R, .wrap t x c =>
    match serOf (cls t) N x with
    | none => mid Z N R (c (.exc .logicError))
    | some s => E fun iv : Block 16 => E fun g : Block 12 =>
      mid Z N (((cls t).header, blobG Z (toBytes iv) s g) :: R) (c (.ok (blobG Z (toBytes iv) s g)))
  | R, .unwrap t y c =>
    if refused N R (cls t) y then mid Z N R (c (.exc .logicError)) else mid Z N R (c (reject y))

/-- Strings of at most `N` bytes. -/
abbrev Dom (N : Nat) : Type := { d : Bytes // d.length ≤ N }

instance (N : Nat) : Fintype (Dom N) :=
  Fintype.ofSurjective (fun p : (n : Fin (N + 1)) × Block n => (⟨toBytes p.2, by simp [toBytes]; omega⟩ : Dom N)) (by
    rintro ⟨d, hd⟩
    refine ⟨⟨⟨d.length, by omega⟩, fun i => d[i]⟩, ?_⟩
    simp [toBytes])

/-- The tag function of a wrapper: PRF with a 12-byte output. -/
def tagF (H : Bytes → Bytes) (kt : Block 32) : Bytes → Block 12 := fun d => tagB (tagOf H (toBytes kt) d)

/-- A function on strings of at most `N` bytes as a function on strings. -/
def ext {N : Nat} (T : Dom N → Block 12) : Bytes → Block 12 := fun d => if h : d.length ≤ N then T ⟨d, h⟩ else fun _ => 0

/-- The key stream of a key. -/
def streamF (S : Bytes → Bytes → Nat → UInt8) (ke : Block 32) : Block 12 → Nat → UInt8 := fun g i => S (toBytes ke) (toBytes g) i

/-- `N` bytes as a key stream. -/
def extZ {N : Nat} (G : Block 12 → Block N) : Block 12 → Nat → UInt8 := fun g i => if h : i < N then G g ⟨i, h⟩ else 0

/-- 32 bytes of a string. -/
def keyB (x : Bytes) : Block 32 := fun i => x.getD i 0

/-- How well the attack tells the values of the PRF (HMAC) with a uniform key at 01 and 02 from two independent uniform
keys, for the tags and for the key stream. -/
def advKdf (H : Bytes → Bytes) (S : Bytes → Bytes → Nat → UInt8) (N : Nat) (A : Att cls) : ℚ :=
  |E (fun k : Block 32 => sim (tagF H (keyB ((HMAC H (toBytes k) [1]).take 32))) (streamF S (keyB ((HMAC H (toBytes k) [2]).take 32)))
      N [] A) -
    E (fun ke => E (fun kt => sim (tagF H kt) (streamF S ke) N [] A))|

/-- How well the attack tells the PRF with a uniform key from a uniformly random function. -/
def advTag (H : Bytes → Bytes) (S : Bytes → Bytes → Nat → UInt8) (N : Nat) (A : Att cls) : ℚ :=
  |E (fun ke => E (fun kt => sim (tagF H kt) (streamF S ke) N [] A)) -
    E (fun ke => E (fun T : Dom N → Block 12 => sim (ext T) (streamF S ke) N [] A))|

/-- How well the attack tells the key streams of a uniform key, at uniformly random nonces, from those of a uniformly
random function. -/
def advStream (S : Bytes → Bytes → Nat → UInt8) (N : Nat) (A : Att cls) : ℚ :=
  |E (fun ke => mid (streamF S ke) N [] A) - E (fun G : Block 12 → Block N => mid (extZ G) N [] A)|

/-- Collisions among `q` samples after `n` earlier ones, of `2 ^ e` values. -/
def coll (e : Nat) : Nat → Nat → ℚ
  | _, 0 => 0
  | n, q + 1 => n / 2 ^ e + coll e (n + 1) q

/-- No header is the beginning of another: the header and the serialization can be read off their concatenation. -/
def HeadersFree (cls : ι → Class) : Prop :=
  ∀ t u s s', (cls t).header ++ s = (cls u).header ++ s' → (cls t).header = (cls u).header ∧ s = s'

end game

end Verif.Wrapper.Game
