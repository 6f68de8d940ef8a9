import Verif.SetHash.Model
import Mathlib.Algebra.BigOperators.Finsupp.Basic
import Mathlib.Algebra.Group.Finsupp

/-!
# Set hash: specification

What a set hash stands for: a multiset with integer multiplicities.  Its elements are the strings that were added or removed
(`.inl`), and the byte arrays that were imported (`.inr`).  Nothing here refers to the curve.
-/

namespace Verif.SetHash.Spec

open Verif

/-- A multiset with signed multiplicities. -/
abbrev MSet := (Bytes ⊕ Bytes) →₀ ℤ

/-- One occurrence of a string. -/
noncomputable def elt (x : Bytes) : MSet := Finsupp.single (.inl x) 1

/-- The multiset of a list of strings. -/
noncomputable def ofList (xs : List Bytes) : MSet := (xs.map elt).sum

/-- What an imported array stands for: nothing for the encoding of the empty set. -/
noncomputable def imported (b : Bytes) : MSet := if b = 0x01 :: List.replicate 31 0 then 0 else Finsupp.single (.inr b) 1

/-- The effect of a call on the collection of multisets. -/
noncomputable def step (l : List MSet) : Call → List MSet
  | .new => l ++ [0]
  | .newBytes b => l ++ [imported b]
  | .newVector xs => l ++ [ofList xs]
  | .copy i => l ++ [l.getD i 0]
  | .assign i j => l.set i (l.getD j 0)
  | .add i x => l.set i (l.getD i 0 + elt x)
  | .remove i x => l.set i (l.getD i 0 - elt x)
  | .addSet i j => l.set i (l.getD i 0 + l.getD j 0)
  | .removeSet i j => l.set i (l.getD i 0 - l.getD j 0)

/-- The effect of a program. -/
noncomputable def run (l : List MSet) (cs : List Call) : List MSet := cs.foldl step l

end Verif.SetHash.Spec
