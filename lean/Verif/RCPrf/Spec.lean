import Verif.RCPrf.Model

/-!
# Specification of the range-constrained PRF

Independent of the code: the tree of keys is described by halving the leaf interval, nodes by (depth, index).
-/

namespace Verif.RCPrf.Spec

open Verif

/-- Value of leaf `x` of the perfect binary tree with `2^l` leaves below a node with key `k`
(`l ≥ 1`): descend to the half that contains `x`; at the last level the leaf is a window of the PRG stream. -/
def treeLeaf (G : Bytes → Nat → UInt8) (n : Nat) : Nat → Bytes → Nat → Bytes
  | 0, _, _ => []
  | 1, k, x => window G k (x * n) n
  | l + 2, k, x =>
    if x < 2 ^ (l + 1) then treeLeaf G n (l + 1) (window G k 0 32) x
    else treeLeaf G n (l + 1) (window G k 32 32) (x - 2 ^ (l + 1))

/-- Key of the node number `j` (from the left) at depth `d` below a root with key `k`. -/
def nodeAt (G : Bytes → Nat → UInt8) (k : Bytes) : Nat → Nat → Bytes
  | 0, _ => k
  | d + 1, j => window G (nodeAt G k d (j / 2)) ((j % 2) * 32) 32

/-- The value of the PRF of height `h` and key `k` on leaf `x`. -/
def value (G : Bytes → Nat → UInt8) (n h : Nat) (k : Bytes) (x : Nat) : Bytes :=
  treeLeaf G n (h - 1) k x

/-- `es` is a gap-free, disjoint, increasing list of leaf intervals covering exactly `[a,b)`. -/
def Tiles : List Elem → Nat → Nat → Prop
  | [], a, b => a = b
  | e :: es, a, b => e.min = a ∧ e.min ≤ e.max ∧ Tiles es (e.max + 1) b

/-- `e` is node `j` at depth `h - e.subHeight` of the tree of height `h` rooted at `k`:
its interval is exactly the set of leaves below that node, and what it stores is that node's key (or leaf value). -/
def IsNode (G : Bytes → Nat → UInt8) (n h : Nat) (k : Bytes) (e : Elem) : Prop :=
  e.treeHeight = h ∧ 1 ≤ e.subHeight ∧ e.subHeight < h ∧
  ∃ j, j < 2 ^ (h - e.subHeight) ∧
    e.min = j * 2 ^ (e.subHeight - 1) ∧ e.max + 1 = (j + 1) * 2 ^ (e.subHeight - 1) ∧
    e.node = if e.subHeight = 1 then Node.leaf (value G n h k e.min)
             else Node.inner (nodeAt G k (h - e.subHeight) j)

/-- `c` is a constrained key for the leaves `a, …, b` of the tree of height `h` rooted at `k`. -/
structure IsConstrained (G : Bytes → Nat → UInt8) (n h : Nat) (k : Bytes) (a b : Nat) (c : CRCPrf) :
    Prop where
  height : c.treeHeight = h
  le : a ≤ b
  nodes : ∀ e ∈ c.elems, IsNode G n h k e
  tiles : Tiles c.elems a (b + 1)

end Verif.RCPrf.Spec
