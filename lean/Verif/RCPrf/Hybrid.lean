import Verif.Average

/-!
# Trees of values cut at some nodes

Nothing in this file speaks of the code.  `Val l` is the type of what a node with `l` levels below it holds, and
`child` computes the two children of a node.  A `Cut` of a tree says at which nodes the tree is opened; everything
above the opened nodes is hidden.  `real C k` is what the opened nodes hold when the root holds `k`; the ideal
counterpart is an independent uniform value in every opened node.
-/

namespace Verif.RCPrf.Game

open Verif.Avg

/-- Where a tree with `l` levels below its root is opened. -/
inductive Cut : Nat → Type
  | stop {l : Nat} : Cut l
  | split {l : Nat} : Cut l → Cut l → Cut (l + 1)

/-- The number of nodes above the opened ones. -/
def Cut.hidden : {l : Nat} → Cut l → Nat
  | _, .stop => 0
  | _, .split a b => 1 + a.hidden + b.hidden

section tree
variable (Val : Nat → Type)

/-- What the opened nodes hold. -/
inductive Out : {l : Nat} → Cut l → Type
  | leaf {l : Nat} : Val l → Out (.stop : Cut l)
  | node {l : Nat} {a b : Cut l} : Out a → Out b → Out (.split a b)

variable {Val}

def Out.val {l : Nat} : Out Val (.stop : Cut l) → Val l
  | .leaf v => v

def Out.fst {l : Nat} {a b : Cut l} : Out Val (.split a b) → Out Val a
  | .node u _ => u

def Out.snd {l : Nat} {a b : Cut l} : Out Val (.split a b) → Out Val b
  | .node _ w => w

def stopEquiv (l : Nat) : Val l ≃ Out Val (.stop : Cut l) where
  toFun := .leaf
  invFun := Out.val
  left_inv _ := rfl
  right_inv | .leaf _ => rfl

def splitEquiv {l : Nat} (a b : Cut l) : Out Val a × Out Val b ≃ Out Val (.split a b) where
  toFun p := .node p.1 p.2
  invFun o := (o.fst, o.snd)
  left_inv _ := rfl
  right_inv | .node _ _ => rfl

variable [∀ l, Fintype (Val l)] [∀ l, Nonempty (Val l)]

instance instFintypeOut : {l : Nat} → (C : Cut l) → Fintype (Out Val C)
  | l, .stop => Fintype.ofEquiv _ (stopEquiv l)
  | _, .split a b =>
    haveI := instFintypeOut a
    haveI := instFintypeOut b
    Fintype.ofEquiv _ (splitEquiv a b)

omit [∀ l, Fintype (Val l)] in
theorem nonempty_out {l : Nat} (C : Cut l) : Nonempty (Out Val C) := by
  induction C with
  | @stop l => exact ⟨.leaf (Classical.arbitrary (Val l))⟩
  | split a b iha ihb =>
    obtain ⟨x⟩ := iha
    obtain ⟨y⟩ := ihb
    exact ⟨.node x y⟩

instance instNonemptyOut {l : Nat} (C : Cut l) : Nonempty (Out Val C) := nonempty_out C

omit [∀ l, Nonempty (Val l)] in
theorem E_stop {l : Nat} (f : Out Val (.stop : Cut l) → ℚ) : E f = E (fun v : Val l => f (.leaf v)) :=
  (E_equiv (stopEquiv l) f).symm

omit [∀ l, Nonempty (Val l)] in
theorem E_split {l : Nat} (a b : Cut l) (f : Out Val (.split a b) → ℚ) :
    E f = E (fun u : Out Val a => E (fun w : Out Val b => f (.node u w))) := by
  rw [← E_equiv (splitEquiv a b) f, E_prod]
  rfl

variable (child : ∀ l, Val (l + 1) → Val l × Val l)

/-- What the opened nodes hold when the root holds `k`. -/
def real : {l : Nat} → (C : Cut l) → Val l → Out Val C
  | _, .stop, k => .leaf k
  | l + 1, .split a b, k => .node (real a (child l k).1) (real b (child l k).2)

/-- A class `S` of tests of what the opened nodes hold and a class `P` of tests of one pair of children that are
closed under fixing one side of the tree and under computing the deeper opened nodes oneself: the operations with
which a test of a whole tree is turned into a test of a single pair of children. -/
structure Closed (S : ∀ {l : Nat} (C : Cut l), (Out Val C → ℚ) → Prop)
    (P : ∀ l, (Val l × Val l → ℚ) → Prop) : Prop where
  left : ∀ {l} (a b : Cut l) (f : Out Val (.split a b) → ℚ), S (.split a b) f →
    ∀ y : Val l, S a (fun u => f (.node u (real child b y)))
  right : ∀ {l} (a b : Cut l) (f : Out Val (.split a b) → ℚ), S (.split a b) f →
    ∀ u : Out Val a, S b (fun w => f (.node u w))
  root : ∀ {l} (a b : Cut l) (f : Out Val (.split a b) → ℚ), S (.split a b) f →
    P l (fun xy => f (.node (real child a xy.1) (real child b xy.2)))

/-- How much better than chance `f` tells the pair of children of a uniform node from a uniform pair. -/
def adv {l : Nat} (f : Val l × Val l → ℚ) : ℚ :=
  |E (fun k : Val (l + 1) => f (child l k)) - E f|

/-- No test of the class tells a pair of children from a uniform pair by more than `ε`. -/
def Secure (P : ∀ l, (Val l × Val l → ℚ) → Prop) (ε : ℚ) : Prop :=
  ∀ l (f : Val l × Val l → ℚ), P l f → adv child f ≤ ε

/-- Replacing one hidden node after another by fresh uniform children: the opened nodes of a tree with a uniform
root are told from independent uniform values with at most the advantage against one pair of children for every
hidden node. -/
theorem hybrid {S : ∀ {l : Nat} (C : Cut l), (Out Val C → ℚ) → Prop} {P : ∀ l, (Val l × Val l → ℚ) → Prop}
    (hS : Closed child S P) {ε : ℚ}
    (hε : Secure child P ε) {l : Nat} (C : Cut l) : ∀ (f : Out Val C → ℚ), S C f →
      |E (fun k : Val l => f (real child C k)) - E f| ≤ C.hidden * ε := by
  induction C with
  | @stop l =>
    intro f _
    rw [E_stop f]
    simp only [real, sub_self, abs_zero, Cut.hidden]
    simp
  | @split l a b iha ihb =>
    intro f hf
    have h0 : |E (fun k : Val (l + 1) => f (real child (.split a b) k)) -
        E (fun x : Val l => E (fun y : Val l => f (.node (real child a x) (real child b y))))| ≤ ε := by
      have h := hε _ _ (hS.root a b f hf)
      unfold adv at h
      rw [E_prod (α := Val l) (β := Val l)] at h
      exact h
    have h1 : |E (fun x : Val l => E (fun y : Val l => f (.node (real child a x) (real child b y)))) -
        E (fun u : Out Val a => E (fun y : Val l => f (.node u (real child b y))))| ≤ a.hidden * ε := by
      rw [E_comm, E_comm (fun (u : Out Val a) (y : Val l) => f (.node u (real child b y)))]
      exact abs_E_sub_le _ _ fun y => iha (fun u => f (.node u (real child b y))) (hS.left a b f hf y)
    have h2 : |E (fun u : Out Val a => E (fun y : Val l => f (.node u (real child b y)))) - E f| ≤
        b.hidden * ε := by
      rw [E_split a b f]
      exact abs_E_sub_le _ _ fun u => ihb (fun w => f (.node u w)) (hS.right a b f hf u)
    have e : ((Cut.split a b).hidden : ℚ) * ε = ε + a.hidden * ε + b.hidden * ε := by
      simp only [Cut.hidden]
      push_cast
      ring
    rw [e]
    generalize E (fun k : Val (l + 1) => f (real child (.split a b) k)) = q0 at *
    generalize E (fun x : Val l => E (fun y : Val l => f (.node (real child a x) (real child b y)))) = q1 at *
    generalize E (fun u : Out Val a => E (fun y : Val l => f (.node u (real child b y)))) = q2 at *
    generalize E f = q3 at *
    have t1 := abs_sub_le q0 q1 q3
    have t2 := abs_sub_le q1 q2 q3
    linarith

end tree

end Verif.RCPrf.Game
