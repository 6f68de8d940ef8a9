import Verif.Wrapper.SpecGame

/-!
# The game of C118: attacks on many `Wrapper` objects

As the game of C91, with a wrapper named in every question.  Each wrapper refuses only what it has returned itself.
-/

namespace Verif.Wrapper.Many

open Verif Verif.Mac Verif.Avg Verif.Wrapper.Game

section game
variable {ι : Type} {cls : ι → Class} {n : Nat}

/-- An attack on `n` wrappers. -/
inductive Atts (cls : ι → Class) (n : Nat) where
  | done (b : Bool)
  | flip (f : Block 16 → Atts cls n)
  | wrap (i : Fin n) (t : ι) (x : (cls t).σ) (c : Res Bytes → Atts cls n)
  | unwrap (i : Fin n) (t : ι) (y : Bytes) (c : Res (cls t).σ → Atts cls n)

/-- The attack asks wrapper `i` for at most `qw` wrapped objects and `qu` unwrapped ones. -/
inductive AtMostFor (i : Fin n) : Nat → Nat → Atts cls n → Prop
  | done {qw qu : Nat} (b : Bool) : AtMostFor i qw qu (.done b)
  | flip {qw qu : Nat} {f : Block 16 → Atts cls n} : (∀ b, AtMostFor i qw qu (f b)) → AtMostFor i qw qu (.flip f)
  | wrapHere {qw qu : Nat} {t : ι} {x : (cls t).σ} {c : Res Bytes → Atts cls n} : (∀ y, AtMostFor i qw qu (c y)) →
    AtMostFor i (qw + 1) qu (.wrap i t x c)
  | wrapThere {qw qu : Nat} {j : Fin n} {t : ι} {x : (cls t).σ} {c : Res Bytes → Atts cls n} : j ≠ i → (∀ y, AtMostFor i qw qu (c y)) →
    AtMostFor i qw qu (.wrap j t x c)
  | unwrapHere {qw qu : Nat} {t : ι} {y : Bytes} {c : Res (cls t).σ → Atts cls n} : (∀ o, AtMostFor i qw qu (c o)) →
    AtMostFor i qw (qu + 1) (.unwrap i t y c)
  | unwrapThere {qw qu : Nat} {j : Fin n} {t : ι} {y : Bytes} {c : Res (cls t).σ → Atts cls n} : j ≠ i → (∀ o, AtMostFor i qw qu (c o)) →
    AtMostFor i qw qu (.unwrap j t y c)

/-- What wrapper `j` answers when it is asked to unwrap: it accepts nothing if it is ideal, and nothing that it has returned. -/
def unOf (H : Bytes → Bytes) (S : Bytes → Bytes → Nat → UInt8) (junk : Nat → UInt8) (N : Nat) (W : Fin n → Bool) (w : Fin n → Wrapper)
    (R : Fin n → List (Bytes × Bytes)) (j : Fin n) (C : Class) (y : Bytes) : Res C.σ :=
  if refused N (R j) C y then .exc .logicError
  else if W j then reject y
  else Prod.fst <$> (Wrapper.unwrap H S junk (w j) C y).res

/-- The probability that the attack guesses `true` when the wrappers with `W` are ideal, the others are `w`, and wrapper `j` has returned `R j`. -/
def worlds (H : Bytes → Bytes) (S : Bytes → Bytes → Nat → UInt8) (junk : Nat → UInt8) (N : Nat) (W : Fin n → Bool) (w : Fin n → Wrapper) :
    (Fin n → List (Bytes × Bytes)) → Atts cls n → ℚ
  | _, .done b => bit b
  | R, .flip f => E fun b => worlds H S junk N W w R (f b)
  | R, .wrap j t x c =>
    match serOf (cls t) N x with
    | none => worlds H S junk N W w R (c (.exc .logicError))
    | some s =>
      if W j then
        E fun iv : Block 16 => E fun g : Block 12 => E fun z : Block s.length =>
          worlds H S junk N W w (Function.update R j (((cls t).header, toBytes iv ++ toBytes z ++ toBytes g) :: R j))
            (c (.ok (toBytes iv ++ toBytes z ++ toBytes g)))
      else
        E fun iv : Block 16 =>
          worlds H S junk N W w
            (Function.update R j (returned (cls t).header (Wrapper.wrap H S junk (w j) (cls t) x (toBytes iv)).res ++ R j))
            (c (Wrapper.wrap H S junk (w j) (cls t) x (toBytes iv)).res)
  | R, .unwrap j t y c => worlds H S junk N W w R (c (unOf H S junk N W w R j (cls t) y))

/-- The wrapper that the constructor makes of a key. -/
def made (H : Bytes → Bytes) (junk : Nat → UInt8) (k : Block 32) : Wrapper :=
  match mkWrapper H junk (some (toBytes k)) with
  | .ok w => w
  | _ => ⟨none, none⟩

/-- The real wrappers with the keys `k`. -/
def reals (H : Bytes → Bytes) (S : Bytes → Bytes → Nat → UInt8) (junk : Nat → UInt8) (N : Nat) (A : Atts cls n) (k : Fin n → Block 32) : ℚ :=
  worlds H S junk N (fun _ => false) (fun j => made H junk (k j)) (fun _ => []) A

/-- The ideal wrappers: random strings, and nothing is accepted. -/
def ideals (N : Nat) : (Fin n → List (Bytes × Bytes)) → Atts cls n → ℚ
  | _, .done b => bit b
  | R, .flip f => E fun b => ideals N R (f b)
  | R, .wrap j t x c =>
    match serOf (cls t) N x with
    | none => ideals N R (c (.exc .logicError))
    | some s => E fun iv : Block 16 => E fun g : Block 12 => E fun z : Block s.length =>
      ideals N (Function.update R j (((cls t).header, toBytes iv ++ toBytes z ++ toBytes g) :: R j))
        (c (.ok (toBytes iv ++ toBytes z ++ toBytes g)))
  | R, .unwrap j t y c =>
    if refused N (R j) (cls t) y then ideals N R (c (.exc .logicError)) else ideals N R (c (reject y))

/-- The attack draws `m` random bytes. -/
def draw : (m : Nat) → (Block m → Att cls) → Att cls
  | 0, f => f fun i => i.elim0
  | m + 1, f => .flip fun b => draw m fun z => f (Fin.cons (b 0) z)

/-- The attack on wrapper `i` alone, which wraps and unwraps for the others. -/
def only (H : Bytes → Bytes) (S : Bytes → Bytes → Nat → UInt8) (junk : Nat → UInt8) (N : Nat) (i : Fin n) (W : Fin n → Bool) (w : Fin n → Wrapper) :
    (Fin n → List (Bytes × Bytes)) → Atts cls n → Att cls
  | _, .done b => .done b
  | R, .flip f => .flip fun b => only H S junk N i W w R (f b)
  | R, .wrap j t x c =>
    if j = i then .wrap t x fun y => only H S junk N i W w R (c y)
    else match serOf (cls t) N x with
    | none => only H S junk N i W w R (c (.exc .logicError))
    | some s =>
      if W j then
        .flip fun iv => draw 12 fun g => draw s.length fun z =>
          only H S junk N i W w (Function.update R j (((cls t).header, toBytes iv ++ toBytes z ++ toBytes g) :: R j))
            (c (.ok (toBytes iv ++ toBytes z ++ toBytes g)))
      else
        .flip fun iv =>
          only H S junk N i W w
            (Function.update R j (returned (cls t).header (Wrapper.wrap H S junk (w j) (cls t) x (toBytes iv)).res ++ R j))
            (c (Wrapper.wrap H S junk (w j) (cls t) x (toBytes iv)).res)
  | R, .unwrap j t y c =>
    if j = i then .unwrap t y fun o => only H S junk N i W w R (c o)
    else only H S junk N i W w R (c (unOf H S junk N W w R j (cls t) y))

/-- The same when the wrappers before `i` are ideal. -/
def onlyAt (H : Bytes → Bytes) (S : Bytes → Bytes → Nat → UInt8) (junk : Nat → UInt8) (N : Nat) (A : Atts cls n) (i : Fin n)
    (k : Fin n → Block 32) : Att cls :=
  only H S junk N i (fun j => decide (j.1 < i.1)) (fun j => made H junk (k j)) (fun _ => []) A

/-- The attack that only looks for a string that is accepted. -/
def watch : Atts cls n → Atts cls n
  | .done _ => .done false
  | .flip f => .flip fun b => watch (f b)
  | .wrap j t x c => .wrap j t x fun y => watch (c y)
  | .unwrap j t y c => .unwrap j t y fun o => match o with
    | .ok _ => .done true
    | .exc e => watch (c (.exc e))
    | .ub => watch (c .ub)

end game

end Verif.Wrapper.Many
