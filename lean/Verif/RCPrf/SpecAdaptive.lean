import Verif.RCPrf.SpecGame
import Verif.Lazy
import Mathlib.Data.Nat.Find

/-!
# The adaptive game: constrained keys for fixed ranges, and values outside of them asked for one after the other

An attack fetches constrained keys for ranges of a list that is fixed beforehand, and values at leaves outside of all of
these ranges; each step may depend on all that it has seen.
-/

namespace Verif.RCPrf.Adapt

open Verif Spec Verif.Avg Verif.Oracle Verif.RCPrf.Game

/-- An attack on the range-constrained PRF. -/
inductive Adv where
  | done (b : Bool)
  | key (r : Nat × Nat) (c : Res CRCPrf → Adv)
  | value (q : Nat) (c : Res Bytes → Adv)

/-- How likely (0 or 1) the attack ends with `true`, when `K` gives the constrained keys and `V` the values. -/
def run (K : Nat × Nat → Res CRCPrf) (V : Nat → Res Bytes) : Adv → ℚ
  | .done b => if b then 1 else 0
  | .key r c => run K V (c (K r))
  | .value q c => run K V (c (V q))

/-- The attack fetches keys for ranges in `rs` and values outside of all of them, in a tree of height `h`. -/
inductive Fair (h : Nat) (rs : List (Nat × Nat)) : Adv → Prop
  | done (b : Bool) : Fair h rs (.done b)
  | key {r : Nat × Nat} {c : Res CRCPrf → Adv} : r ∈ rs → (∀ y, Fair h rs (c y)) → Fair h rs (.key r c)
  | value {q : Nat} {c : Res Bytes → Adv} : Outside h rs q → (∀ y, Fair h rs (c y)) → Fair h rs (.value q c)

/-- The attack fetches at most `a` keys and at most `b` values. -/
inductive Within : Nat → Nat → Adv → Prop
  | done {a b : Nat} (o : Bool) : Within a b (.done o)
  | key {a b : Nat} {r : Nat × Nat} {c : Res CRCPrf → Adv} : (∀ y, Within a b (c y)) → Within (a + 1) b (.key r c)
  | value {a b : Nat} {q : Nat} {c : Res Bytes → Adv} : (∀ y, Within a b (c y)) → Within a (b + 1) (.value q c)

/-- The attack with given values: it fetches keys only. -/
def given (V : Nat → Res Bytes) : Adv → Adv
  | .done b => .done b
  | .key r c => .key r fun y => given V (c y)
  | .value q c => given V (c (V q))

/-! ### The attack on the nodes of the tree -/

/-- Node `(t, j)` is the one with `t` levels below it that is number `j` of these. -/
abbrev Query : Type := Nat × Nat

/-- Asks for the contents of the elements of a constrained key. -/
def askElems : List Elem → List Elem → (List Elem → Att Query Bytes) → Att Query Bytes
  | [], acc, k => k acc
  | e :: es, acc, k => .ask (e.subHeight - 1, e.min / 2 ^ (e.subHeight - 1)) fun y => askElems es (acc ++ [fill e y]) k

/-- The attack as one on nodes.  Which nodes a constrained key is made of does not depend on the key of the tree, so it
is taken from the constrained key of the empty string. -/
def toNodes (G : Bytes → Nat → UInt8) (n m : Nat) : Adv → Att Query Bytes
  | .done b => .done b
  | .key r c =>
    match RCPrf.constrain G n ⟨m + 2, []⟩ r.1 r.2 with
    | .ok c0 => askElems c0.elems [] fun es => toNodes G n m (c (.ok ⟨m + 2, es⟩))
    | x => toNodes G n m (c x)
  | .value q c => .ask (0, q) fun y => toNodes G n m (c (.ok y))

/-- The node lies inside one of the ranges. -/
def stop (rs : List (Nat × Nat)) (s p : Nat) : Bool := inside rs s (p * 2 ^ s)

/-- The level of the highest ancestor of the node `(t, j)` that lies inside one of the ranges; `t` if there is none. -/
def level (rs : List (Nat × Nat)) (M t j : Nat) : Nat :=
  max t (Nat.findGreatest (fun s => t ≤ s ∧ stop rs s (j / 2 ^ (s - t)) = true) M)

/-- What the node `(t, j)` holds when its ancestor at level `s` holds `v`. -/
def below (G : Bytes → Nat → UInt8) (n s : Nat) (v : Bytes) (t j : Nat) : Bytes :=
  content G n s v t (j % 2 ^ (s - t) * 2 ^ t)

/-- The attack on the pairs of children of the nodes at level `l + 1`: nodes at or below stopping nodes above level `l`
are answered from `N`, all others from the pair asked for. -/
def toPairs (G : Bytes → Nat → UInt8) (n : Nat) (rs : List (Nat × Nat)) (M : Nat) (N : Nat → Nat → Bytes) (l : Nat) :
    Att Query Bytes → Att Nat (Val n l × Val n l)
  | .done b => .done b
  | .ask q c =>
    if l < level rs M q.1 q.2 then
      toPairs G n rs M N l (c (below G n (level rs M q.1 q.2) (N (level rs M q.1 q.2) (q.2 / 2 ^ (level rs M q.1 q.2 - q.1))) q.1 q.2))
    else
      .ask (q.2 / 2 ^ (l - q.1) / 2) fun y =>
        toPairs G n rs M N l (c (below G n l (toBytes (if q.2 / 2 ^ (l - q.1) % 2 = 0 then y.1 else y.2)) q.1 q.2))

/-- `ε` bounds the advantage of every test of one pair of children that the attack is turned into: at level `l`, with the
stopping nodes above fixed to `N` and the pairs asked for earlier to `L`, the pair is used for the next answer, and the
rest of the attack is answered with uniform pairs. -/
def BoundsAll (G : Bytes → Nat → UInt8) (n : Nat) (rs : List (Nat × Nat)) (M : Nat) (A : Att Query Bytes) (ε : ℚ) : Prop :=
  ∀ l, l < M → ∀ (N : Nat → Nat → Bytes) (p : Nat) (c : Val n l × Val n l → Att Nat (Val n l × Val n l))
    (L : List (Nat × (Val n l × Val n l))), Rest (toPairs G n rs M N l A) (.ask p c) →
      adv (child G n) (fun y => fresh id ((p, y) :: L) (c y)) ≤ ε

end Verif.RCPrf.Adapt
