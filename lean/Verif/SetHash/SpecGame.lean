import Verif.SetHash.Props
import Verif.Average
import Mathlib.Algebra.Field.ZMod

/-!
# Set hash: what it means to find a collision, and to compute discrete logarithms

A finder may ask for the hashes of strings and ends with a claim: two programs that use set hashes, and one object of each.  The claim is right if the two
objects compare equal although they stand for different multisets.

The discrete logarithm problem is that of the group in which the set hashes are computed.
-/

namespace Verif.SetHash.Game

open Verif Verif.Avg

/-! ## Collisions -/

/-- Two programs and an object of each. -/
structure Claim where
  cs : List Call
  i : Nat
  ds : List Call
  j : Nat

/-- An algorithm that may ask for hashes. -/
inductive Finder where
  | out (c : Claim)
  | ask (s : Bytes) (k : Bytes → Finder)

/-- Its claim if the hash function is `H`. -/
def result (H : Bytes → Bytes) : Finder → Claim
  | .out c => c
  | .ask s k => result H (k (H s))

/-- The strings that a call hashes. -/
def callStrings : Call → List Bytes
  | .newVector xs => xs
  | .add _ x => [x]
  | .remove _ x => [x]
  | _ => []

/-- The strings that the programs of a claim hash. -/
def strings (c : Claim) : List Bytes := c.cs.flatMap callStrings ++ c.ds.flatMap callStrings

/-- It asks for at most `q` hashes, counting those that its claim needs. -/
def Few : Nat → Finder → Prop
  | q, .out c => (strings c).length ≤ q
  | 0, .ask _ _ => False
  | q + 1, .ask _ k => ∀ y, Few q (k y)

/-- All strings that it may ask for or use are in `D`. -/
def Inside (D : Finset Bytes) : Finder → Prop
  | .out c => ∀ x ∈ strings c, x ∈ D
  | .ask s k => s ∈ D ∧ ∀ y, Inside D (k y)

/-- The difference of the two multisets. -/
noncomputable def diff (c : Claim) : Spec.MSet := (Spec.run [] c.cs).getD c.i 0 - (Spec.run [] c.ds).getD c.j 0

/-- Some string does not occur equally often, modulo the order of the group, and imported arrays occur equally often. -/
def Differ (ℓ : Nat) (c : Claim) : Prop := (∃ x, ¬ (ℓ : ℤ) ∣ diff c (.inl x)) ∧ ∀ b, diff c (.inr b) = 0

section
variable {A : Type} [AddCommGroup A] (C : Curve A)

/-- The programs run and the two objects compare equal. -/
def Equal (H : Bytes → Bytes) (c : Claim) : Prop :=
  ∃ l k s t, run C H [] c.cs = some (.ok l) ∧ run C H [] c.ds = some (.ok k) ∧ l[c.i]? = some s ∧ k[c.j]? = some t ∧ equal s t = true

/-- The claim is a collision. -/
def Wins (ℓ : Nat) (H : Bytes → Bytes) (c : Claim) : Prop := Equal C H c ∧ Differ ℓ c

/-- A hash of 64 bytes. -/
def two (y : Block 32 × Block 32) : Bytes := toBytes y.1 ++ toBytes y.2

/-- The hash function given by a table. -/
def table (D : Finset Bytes) (R : D → Block 32 × Block 32) (x : Bytes) : Bytes := if h : x ∈ D then two (R ⟨x, h⟩) else []

/-- One or zero. -/
noncomputable def ind (p : Prop) : ℚ := by classical exact if p then 1 else 0

/-- The probability to find a collision if the hash function is random. -/
noncomputable def coll (ℓ : Nat) (D : Finset Bytes) (F : Finder) : ℚ := E fun R => ind (Wins C ℓ (table D R) (result (table D R) F))

/-! ## Discrete logarithms -/

/-- A multiple of a point. -/
def mul {ℓ : Nat} (g : A) (r : ZMod ℓ) : A := r.val • g

/-- `g` generates the subgroup, of `ℓ` elements. -/
structure Gen (ℓ : Nat) (g : A) : Prop where
  zero : ℓ • g = 0
  ne : g ≠ 0
  mem : g ∈ C.sub
  all : ∀ a ∈ C.sub, ∃ r : ZMod ℓ, a = mul g r

/-- A randomised algorithm, which draws elements of `β`. -/
inductive Coin (β ρ : Type) where
  | out (r : ρ)
  | toss (c : β → Coin β ρ)

/-- The probability that the output has a property. -/
noncomputable def Coin.chance {β ρ : Type} [Fintype β] (p : ρ → Prop) : Coin β ρ → ℚ
  | .out r => ind (p r)
  | .toss c => E fun x => chance p (c x)

/-- The probability to find the logarithm of a random multiple of `g`. -/
noncomputable def advDl {β : Type} [Fintype β] {ℓ : Nat} [NeZero ℓ] (g : A) (B : A → Coin β (ZMod ℓ)) : ℚ :=
  E fun a : ZMod ℓ => (B (mul g a)).chance (· = a)

/-! ## The algorithm for logarithms -/

/-- `inv` lists the strings that `fromUniform` maps to a point, of which there are at most `K`. -/
structure Inverse (inv : A → List (Block 32)) (K : Nat) : Prop where
  iff : ∀ h a, h ∈ inv a ↔ C.fromUniform (toBytes h) = a
  nodup : ∀ a, (inv a).Nodup
  length : ∀ a, (inv a).length ≤ K

variable {ℓ K : Nat}

/-- What is drawn in one attempt to find a hash with a known representation. -/
abbrev Try (ℓ K : Nat) : Type := ZMod ℓ × ZMod ℓ × Fin K

/-- One attempt: a random preimage of a random combination of `g` and `Q`. -/
def once (g Q : A) (inv : A → List (Block 32)) (x : Try ℓ K) : Option (Block 32 × ZMod ℓ × ZMod ℓ) :=
  ((inv (mul g x.1 + mul Q x.2.1))[x.2.2.val]?).map fun h => (h, x.1, x.2.1)

/-- The first attempt that works. -/
def first (g Q : A) (inv : A → List (Block 32)) : List (Try ℓ K) → Option (Block 32 × ZMod ℓ × ZMod ℓ)
  | [] => none
  | x :: r =>
    match once g Q inv x with
    | some y => some y
    | none => first g Q inv r

/-- The sum of the multiplicities times the coefficients. -/
noncomputable def combine (d : Spec.MSet) (L : List (Bytes × Bytes)) (v : List (ZMod ℓ)) : ZMod ℓ :=
  (List.zipWith (fun x t => (d (.inl x.1) : ZMod ℓ) * t) L v).sum

/-- The logarithm, from a collision and the representations of the hashes. -/
noncomputable def solve (d : Spec.MSet) (L : List (Bytes × Bytes)) (V : List (ZMod ℓ × ZMod ℓ)) : ZMod ℓ :=
  -combine d L (V.map Prod.fst) * (combine d L (V.map Prod.snd))⁻¹

/-- Runs the finder with hashes of known representation: `L` are the answers so far and `V` the representations. -/
noncomputable def reduceFrom (g Q : A) (inv : A → List (Block 32)) (n : Nat) : List (Bytes × Bytes) → List (ZMod ℓ × ZMod ℓ) → Finder →
    Coin ((Fin n → Try ℓ K) × Block 32) (ZMod ℓ)
  | L, V, .out c => .out (solve (diff c) L V)
  | L, V, .ask s k =>
    match L.lookup s with
    | some y => reduceFrom g Q inv n L V (k y)
    | none => .toss fun x =>
      match first g Q inv (List.ofFn x.1) with
      | none => .out 0
      | some y => reduceFrom g Q inv n ((s, two (y.1, x.2)) :: L) (y.2 :: V) (k (two (y.1, x.2)))

/-- Asks for strings before the claim. -/
def askAll (c : Claim) : List Bytes → Finder
  | [] => .out c
  | s :: r => .ask s fun _ => askAll c r

/-- Asks also for the strings of the claim. -/
def finish : Finder → Finder
  | .out c => askAll c (strings c)
  | .ask s k => .ask s fun y => finish (k y)

/-- The algorithm for logarithms: `n` attempts for every hash. -/
noncomputable def reduce (g : A) (inv : A → List (Block 32)) (K n : Nat) (F : Finder) (Q : A) : Coin ((Fin n → Try ℓ K) × Block 32) (ZMod ℓ) :=
  reduceFrom g Q inv n [] [] (finish F)

end

end Verif.SetHash.Game
