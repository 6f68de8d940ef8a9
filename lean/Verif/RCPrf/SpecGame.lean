import Verif.RCPrf.Hybrid
import Verif.RCPrf.Spec

/-!
# The game: constrained keys and values outside their ranges

The tree of the range-constrained PRF as a tree in the sense of `Hybrid`: a node with `l + 1` levels below it holds
32 bytes, a leaf holds `n` bytes, and the children of a node are two consecutive windows of the generator's stream.
-/

namespace Verif.RCPrf.Game

open Verif Spec Verif.Avg

/-- How many bytes a node with `l` levels below it holds: 32 for a key (rcprf.hpp 62), `n` for a leaf. -/
def width (n : Nat) : Nat → Nat
  | 0 => n
  | _ + 1 => 32

abbrev Val (n l : Nat) : Type := Block (width n l)

/-- The two children of a node: consecutive windows of the generator's stream. -/
def child (G : Bytes → Nat → UInt8) (n : Nat) (l : Nat) (k : Val n (l + 1)) : Val n l × Val n l :=
  (fun i => G (toBytes k) i, fun i => G (toBytes k) (width n l + i))

/-- What the node with `t` levels below it and first leaf `x` holds, in a tree with `l` levels whose root holds `v`. -/
def content (G : Bytes → Nat → UInt8) (n : Nat) : Nat → Bytes → Nat → Nat → Bytes
  | 0, v, _, _ => v
  | l + 1, v, t, x =>
    if t = l + 1 then v
    else if x < 2 ^ l then content G n l (window G v 0 (width n l)) t x
    else content G n l (window G v (width n l) (width n l)) t (x - 2 ^ l)

/-- The same, computed from what the opened nodes hold. -/
def look (G : Bytes → Nat → UInt8) (n : Nat) : {l : Nat} → {C : Cut l} → Out (Val n) C → Nat → Nat → Bytes
  | l, .stop, .leaf v, t, x => content G n l (toBytes v) t x
  | l + 1, .split _ _, .node u w, t, x => if x < 2 ^ l then look G n u t x else look G n w t (x - 2 ^ l)

/-- The cut that opens the nodes with property `P` (and all leaves) on the way down. -/
def cutAt (P : Nat → Nat → Bool) : (l : Nat) → Nat → Cut l
  | 0, _ => .stop
  | l + 1, x => if P (l + 1) x then .stop else .split (cutAt P l x) (cutAt P l (x + 2 ^ l))

/-- The node with `t` levels below it and first leaf `x` lies inside one of the ranges. -/
def inside (rs : List (Nat × Nat)) (t x : Nat) : Bool :=
  rs.any fun r => decide (r.1 ≤ x) && decide (x + 2 ^ t ≤ r.2 + 1)

/-- None of the leaves below the node is asked for or lies in one of the ranges. -/
def apart (rs : List (Nat × Nat)) (qs : List Nat) (t x : Nat) : Bool :=
  (qs.all fun q => decide (q < x) || decide (x + 2 ^ t ≤ q)) &&
    (rs.all fun r => decide (r.2 < x) || decide (x + 2 ^ t ≤ r.1))

/-- The cut of the game: opened are the largest nodes inside the ranges, the largest nodes that are of no interest,
and leaves. -/
def gameCut (l : Nat) (rs : List (Nat × Nat)) (qs : List Nat) : Cut l :=
  cutAt (fun t x => inside rs t x || apart rs qs t x) l 0

/-- An element of a constrained key with other contents. -/
def fill (e : Elem) (c : Bytes) : Elem := { e with node := if e.subHeight = 1 then .leaf c else .inner c }

/-- The constrained key for a range, computed from what the opened nodes hold.  Which nodes a constrained key is made
of does not depend on the key, so it is taken from the constrained key of the empty string. -/
def keyFrom (G : Bytes → Nat → UInt8) (n h : Nat) {l : Nat} {C : Cut l} (o : Out (Val n) C) (r : Nat × Nat) :
    Res CRCPrf :=
  (fun c => ⟨h, c.elems.map fun e => fill e (look G n o (e.subHeight - 1) e.min)⟩) <$>
    RCPrf.constrain G n ⟨h, []⟩ r.1 r.2

/-- A value, computed from what the opened nodes hold. -/
def valueFrom (G : Bytes → Nat → UInt8) (n : Nat) {l : Nat} {C : Cut l} (o : Out (Val n) C) (q : Nat) : Res Bytes :=
  .ok (look G n o 0 q)

section derived
variable {W : Nat → Type} (ch : ∀ l, W (l + 1) → W l × W l)

/-- The tests of parts of a tree that `F` is turned into when one side of a node is fixed. -/
inductive Part {L : Nat} {D : Cut L} (F : Out W D → ℚ) : {l : Nat} → (C : Cut l) → (Out W C → ℚ) → Prop
  | whole : Part F D F
  | left {l : Nat} (a b : Cut l) (f : Out W (.split a b) → ℚ) (y : W l) :
    Part F (.split a b) f → Part F a (fun u => f (.node u (real ch b y)))
  | right {l : Nat} (a b : Cut l) (f : Out W (.split a b) → ℚ) (u : Out W a) :
    Part F (.split a b) f → Part F b (fun w => f (.node u w))

/-- The tests of one pair of children that `F` is turned into: everything but the descendants of one hidden node is
fixed, and these descendants are computed from the pair. -/
inductive PairTest {L : Nat} {D : Cut L} (F : Out W D → ℚ) : (l : Nat) → (W l × W l → ℚ) → Prop
  | root {l : Nat} (a b : Cut l) (f : Out W (.split a b) → ℚ) :
    Part ch F (.split a b) f → PairTest F l (fun xy => f (.node (real ch a xy.1) (real ch b xy.2)))

theorem closed_part {L : Nat} {D : Cut L} (F : Out W D → ℚ) : Closed ch (Part ch F) (PairTest ch F) where
  left a b f hf y := .left a b f y hf
  right a b f hf u := .right a b f u hf
  root a b f hf := .root a b f hf

end derived

/-- `r` is a range that `constrain` accepts: not empty, within the leaves, and not all of them. -/
def Accepted (h : Nat) (r : Nat × Nat) : Prop :=
  r.1 ≤ r.2 ∧ r.2 < 2 ^ (h - 1) ∧ ¬ (r.1 = 0 ∧ r.2 = 2 ^ (h - 1) - 1)

/-- `q` is a leaf outside every range. -/
def Outside (h : Nat) (rs : List (Nat × Nat)) (q : Nat) : Prop :=
  q < 2 ^ (h - 1) ∧ ∀ r ∈ rs, ¬ (r.1 ≤ q ∧ q ≤ r.2)

end Verif.RCPrf.Game
