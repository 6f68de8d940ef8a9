import Verif.Basic

/-!
# Range-constrained PRF: model of `src/include/sse/crypto/rcprf.hpp`

The PRG (`Prg`, modelled in `Verif.Prg`) is abstracted to its key stream: `G k i` is byte `i` of the stream
of key `k`.  `derive(off,len)` is a window of that stream (proved for the real `Prg` code in `Verif/Prg`).

Leaf indices are natural numbers; every `uint64_t` operation that may wrap is written with `% W64`.
Callbacks are modelled by the list of calls made (`Run`).  Copies, moves and memory locking of keys are not
modelled here (see `Verif/Key`).
-/

namespace Verif.RCPrf

open Verif

/-- A window of the key stream: `Prg::derive(offset, len)` (prg.hpp/prg.cpp 44-104). -/
def window (G : Bytes → Nat → UInt8) (k : Bytes) (off len : Nat) : Bytes :=
  (List.range len).map fun i => G k (off + i)

/-- `Prg::derive_key<kKeySize>(child)` with `kKeySize = 32` (rcprf.hpp 62). -/
def childKey (G : Bytes → Nat → UInt8) (k : Bytes) (c : Bool) : Bytes :=
  window G k (c.toNat * 32) 32

/-- `Prg::derive(child * NBYTES, NBYTES, …)`: the value of a leaf from its parent's key. -/
def leafValue (G : Bytes → Nat → UInt8) (n : Nat) (k : Bytes) (c : Bool) : Bytes :=
  window G k (c.toNat * n) n

/-- `RCPrfParams::max_leaf_index`, rcprf.hpp 88-97 (and `max_leaf_index_generic`, 77-80). -/
def maxLeafIndex (h : Nat) : Nat :=
  if h = 0 then 0
  else if h ≥ 65 then W64 - 1
  else 2 ^ (h - 1) - 1

/-- `RCPrfParams::ranges_intersect`, rcprf.hpp 100-106. -/
def rangesIntersect (min1 max1 min2 max2 : Nat) : Bool :=
  decide (min1 ≤ max2) && decide (min2 ≤ max1)

/-- `RCPrfBase::get_child`, rcprf.hpp 202-211: mask `1UL << (tree_height - node_depth - 2)`.
A negative shift amount or one of at least 64 is undefined behaviour. -/
def getChild (h leaf depth : Nat) : Res Bool :=
  if h < depth + 2 then .ub
  else if h - depth - 2 ≥ 64 then .ub
  else .ok ((leaf &&& (1 <<< (h - depth - 2))) != 0)

/-- `RCPrfBase::derive_leaf`, rcprf.hpp 350-397.  The failing asserts of lines 355, 357 are `ub`.
The loop of lines 377-381 runs over `i = base_depth+1, …, tree_height-3`. -/
def deriveLeaf (G : Bytes → Nat → UInt8) (n h : Nat) (k : Bytes) (d leaf : Nat) : Res Bytes :=
  if ¬ (h ≥ 2) then .ub
  else if ¬ (h - 1 > d) then .ub
  else if h = d + 2 then do
    let c ← getChild h leaf d
    pure (leafValue G n k c)
  else do
    let c ← getChild h leaf d
    let key ← (List.range' (d + 1) (h - 2 - (d + 1))).foldlM
      (fun key i => do
        let c ← getChild h leaf i
        pure (childKey G key c)) (childKey G k c)
    let c ← getChild h leaf (h - 2)
    pure (leafValue G n key c)

/-- A run of a function taking a callback: the calls made, and how the function ended. -/
structure Run where
  calls : List (Nat × Bytes)
  out : Res Unit
  deriving DecidableEq, Repr

/-- Sequential composition of two runs. -/
def Run.seq (a : Run) (b : Run) : Run :=
  match a.out with
  | .ok _ => ⟨a.calls ++ b.calls, b.out⟩
  | r => ⟨a.calls, r⟩

/-- A run that made the calls `l` and returned. -/
def Run.done (l : List (Nat × Bytes)) : Run := ⟨l, .ok ()⟩

/-- The bottom level of `derive_leaf_range`, rcprf.hpp 410-441. -/
def deriveBottom (G : Bytes → Nat → UInt8) (n h : Nat) (k : Bytes) (d offset min max : Nat) : Run :=
  if max < min then ⟨[], .ub⟩
  else if max - min > 1 then ⟨[], .ub⟩
  else match getChild h min d with
    | .ok c =>
      let first := [((offset + min) % W64, leafValue G n k c)]
      if min ≠ max then
        Run.done (first ++ [((offset + max) % W64, leafValue G n k true)])
      else Run.done first
    | .exc e => ⟨[], .exc e⟩
    | .ub => ⟨[], .ub⟩

/-- The recursion of `derive_leaf_range`, rcprf.hpp 399-479, on `s = tree_height - base_depth - 2`. -/
def deriveRangeAux (G : Bytes → Nat → UInt8) (n h : Nat) :
    Nat → Bytes → Nat → Nat → Nat → Run
  | 0, k, offset, min, max => deriveBottom G n h k (h - 2) offset min max
  | s + 1, k, offset, min, max =>
    if max < min then ⟨[], .ub⟩
    else
      let threshold := maxLeafIndex (s + 2)
      let left : Run :=
        if min ≤ threshold then
          deriveRangeAux G n h s (childKey G k false) offset min (Nat.min max threshold)
        else Run.done []
      let right : Run :=
        if max > threshold then
          let subMin := if min ≤ threshold then 0 else min - threshold - 1
          let subMax := max - threshold - 1
          deriveRangeAux G n h s (childKey G k true) ((offset + threshold + 1) % W64) subMin subMax
        else Run.done []
      left.seq right

/-- `RCPrfBase::derive_leaf_range`, rcprf.hpp 399-479: the assertion of line 408 and the recursion.
The recursive calls satisfy that assertion again because they stop at `tree_height = base_depth + 2`. -/
def deriveLeafRange (G : Bytes → Nat → UInt8) (n h : Nat) (k : Bytes) (d offset min max : Nat) : Run :=
  if max < min then ⟨[], .ub⟩
  else if ¬ (h > d + 1) then ⟨[], .ub⟩
  else deriveRangeAux G n h (h - d - 2) k offset min max

/-- What an element stores: the PRG key of a subtree root, or the value of one leaf. -/
inductive Node where
  | inner (key : Bytes)
  | leaf (value : Bytes)
  deriving DecidableEq, Repr

/-- `ConstrainedRCPrfElement`, rcprf.hpp 480-660, with its two subclasses (`node`). -/
structure Elem where
  treeHeight : Nat
  subHeight : Nat
  min : Nat
  max : Nat
  node : Node
  deriving DecidableEq, Repr

/-- `ConstrainedRCPrfElement::ConstrainedRCPrfElement`, rcprf.hpp 522-555. -/
def mkElem (th sh min max : Nat) (node : Node) : Res Elem :=
  if sh = 0 then .exc .invalidArgument
  else if sh ≥ th then .exc .invalidArgument
  else if max < min then .exc .invalidArgument
  else if max - min ≠ maxLeafIndex sh then .exc .invalidArgument
  else .ok ⟨th, sh, min, max, node⟩

/-- `ConstrainedRCPrfInnerElement` constructors, rcprf.hpp 703-750. -/
def mkInner (key : Bytes) (th sh min max : Nat) : Res Elem := do
  let e ← mkElem th sh min max (.inner key)
  if sh ≤ 1 then .exc .invalidArgument else pure e

/-- `ConstrainedRCPrfLeafElement` constructor, rcprf.hpp 951-958. -/
def mkLeaf (value : Bytes) (th leaf : Nat) : Res Elem :=
  mkElem th 1 leaf leaf (.leaf value)

/-- `ConstrainedRCPrfInnerElement::eval` (823-846) and `ConstrainedRCPrfLeafElement::eval` (1026-1038). -/
def Elem.eval (G : Bytes → Nat → UInt8) (n : Nat) (e : Elem) (x : Nat) : Res Bytes :=
  match e.node with
  | .inner key =>
    if x < e.min then .exc .outOfRange
    else if x > e.max then .exc .outOfRange
    else deriveLeaf G n e.treeHeight key (e.treeHeight - e.subHeight) x
  | .leaf v => if x ≠ e.min then .exc .outOfRange else .ok v

/-- `ConstrainedRCPrfInnerElement::eval_range` (848-877), `ConstrainedRCPrfLeafElement::eval_range`
(1041-1063). -/
def Elem.evalRange (G : Bytes → Nat → UInt8) (n : Nat) (e : Elem) (min max : Nat) : Run :=
  match e.node with
  | .inner key =>
    if max < min then ⟨[], .exc .invalidArgument⟩
    else if min < e.min ∨ max > e.max then ⟨[], .exc .outOfRange⟩
    else deriveLeafRange G n e.treeHeight key (e.treeHeight - e.subHeight) e.min
      (min - e.min) (max - e.min)
  | .leaf v =>
    if max ≠ min then ⟨[], .exc .invalidArgument⟩
    else if min ≠ e.min then ⟨[], .exc .outOfRange⟩
    else Run.done [(min, v)]

/-- `RCPrfBase::generate_leaf_from_parent`, rcprf.hpp 1630-1650. -/
def genLeaf (G : Bytes → Nat → UInt8) (n th : Nat) (k : Bytes) (smin leaf : Nat) :
    Res (List Elem) := do
  let c := if leaf = smin then false else true
  let e ← mkLeaf (leafValue G n k c) th leaf
  pure [e]

/-- `RCPrfBase::generate_constrained_subkeys_from_node`, rcprf.hpp 1652-1741.  Returns the elements pushed to the
result vector, in order. The failing `assert(min == max)` of line 1668 is `ub`. -/
def genFromNode (G : Bytes → Nat → UInt8) (n th : Nat) :
    Nat → Bytes → Nat → Nat → Nat → Nat → Res (List Elem)
  | sh + 3, k, smin, smax, min, max =>
    let mid := ((smax + smin) % W64) / 2
    let left : Res (List Elem) :=
      if min ≤ mid then
        if min = smin ∧ max ≥ mid then
          (fun e => [e]) <$> mkInner (childKey G k false) th (sh + 2) smin mid
        else
          genFromNode G n th (sh + 2) (childKey G k false) smin mid min (Nat.min max mid)
      else pure []
    let right : Res (List Elem) :=
      if max > mid then
        if min ≤ (mid + 1) % W64 ∧ max = smax then
          (fun e => [e]) <$> mkInner (childKey G k true) th (sh + 2) ((mid + 1) % W64) smax
        else
          genFromNode G n th (sh + 2) (childKey G k true) ((mid + 1) % W64) smax
            (Nat.max min ((mid + 1) % W64)) max
      else pure []
    left >>= fun l => right >>= fun r => pure (l ++ r)
  | _, k, smin, _, min, max =>
    if min ≠ max then .ub else genLeaf G n th k smin min

/-- `generate_constrained_subkeys` of inner (879-918) and leaf (1066-1085) elements. -/
def Elem.gen (G : Bytes → Nat → UInt8) (n : Nat) (e : Elem) (min max : Nat) : Res (List Elem) :=
  match e.node with
  | .inner key =>
    if min < e.min ∨ max > e.max then .exc .outOfRange
    else if min = e.min ∧ max = e.max then do
      let e' ← mkInner key e.treeHeight e.subHeight e.min e.max
      pure [e']
    else genFromNode G n e.treeHeight e.subHeight key e.min e.max min max
  | .leaf v =>
    if min ≠ e.min ∨ max ≠ e.min then .exc .outOfRange
    else do
      let e' ← mkLeaf v e.treeHeight e.min
      pure [e']

/-- `ConstrainedRCPrf`, rcprf.hpp 1100-1380. -/
structure CRCPrf where
  treeHeight : Nat
  elems : List Elem
  deriving DecidableEq, Repr

/-- `ConstrainedRCPrf::get_element_height`, rcprf.hpp 1108-1126. -/
def getElementHeight : List Elem → Res Nat
  | [] => .ok 0
  | e :: es => if es.all (fun e' => e'.treeHeight == e.treeHeight) then .ok e.treeHeight
               else .exc .invalidArgument

/-- The loop of rcprf.hpp 1168-1172: each element starts right after the previous one (with `uint64_t` wrap). -/
def consecutive : List Elem → Bool
  | a :: b :: es => ((a.max + 1) % W64 == b.min) && consecutive (b :: es)
  | _ => true

/-- Insertion into a list sorted by `min_leaf`. -/
def insertElem (e : Elem) : List Elem → List Elem
  | [] => [e]
  | a :: as => if e.min ≤ a.min then e :: a :: as else a :: insertElem e as

/-- `std::sort` by `min_leaf`, rcprf.hpp 1153-1163.  `std::sort` may order elements with equal keys arbitrarily;
the theorems about the constructor quantify over every sorted permutation. -/
def sortElems : List Elem → List Elem
  | [] => []
  | e :: es => insertElem e (sortElems es)

/-- `ConstrainedRCPrf::ConstrainedRCPrf`, rcprf.hpp 1148-1175. -/
def mkCRCPrf (es : List Elem) : Res CRCPrf := do
  let h ← getElementHeight es
  let es' := sortElems es
  if consecutive es' then pure ⟨h, es'⟩ else .exc .invalidArgument

/-- `ConstrainedRCPrf::min_leaf`, rcprf.hpp 1229-1235. -/
def CRCPrf.minLeaf (c : CRCPrf) : Nat :=
  match c.elems with
  | [] => W64 - 1
  | e :: _ => e.min

/-- `ConstrainedRCPrf::max_leaf`, rcprf.hpp 1241-1247. -/
def CRCPrf.maxLeaf (c : CRCPrf) : Nat :=
  match c.elems.getLast? with
  | none => 0
  | some e => e.max

/-- The element search of `ConstrainedRCPrf::eval`, rcprf.hpp 1387-1391. -/
def evalFind (G : Bytes → Nat → UInt8) (n : Nat) (x : Nat) : List Elem → Res Bytes
  | [] => .exc .runtimeError
  | e :: es => if e.min ≤ x ∧ x ≤ e.max then e.eval G n x else evalFind G n x es

/-- `ConstrainedRCPrf::eval`, rcprf.hpp 1378-1395. -/
def CRCPrf.eval (G : Bytes → Nat → UInt8) (n : Nat) (c : CRCPrf) (x : Nat) : Res Bytes :=
  if x < c.minLeaf ∨ x > c.maxLeaf then .exc .outOfRange
  else evalFind G n x c.elems

/-- The loop of `ConstrainedRCPrf::eval_range`, rcprf.hpp 1415-1430. -/
def evalRangeLoop (G : Bytes → Nat → UInt8) (n min max : Nat) : List Elem → Run
  | [] => Run.done []
  | e :: es =>
    if max < e.min then Run.done []
    else if rangesIntersect min max e.min e.max then
      (e.evalRange G n (Nat.max min e.min) (Nat.min max e.max)).seq (evalRangeLoop G n min max es)
    else evalRangeLoop G n min max es

/-- `ConstrainedRCPrf::eval_range`, rcprf.hpp 1397-1431. -/
def CRCPrf.evalRange (G : Bytes → Nat → UInt8) (n : Nat) (c : CRCPrf) (min max : Nat) : Run :=
  if max < min then ⟨[], .exc .invalidArgument⟩
  else if min < c.minLeaf ∨ max > c.maxLeaf then ⟨[], .exc .outOfRange⟩
  else evalRangeLoop G n min max c.elems

/-- The loop of `ConstrainedRCPrf::generate_constrained_subkeys`, rcprf.hpp 1448-1460. -/
def genLoop (G : Bytes → Nat → UInt8) (n min max : Nat) : List Elem → Res (List Elem)
  | [] => .ok []
  | e :: es =>
    if rangesIntersect e.min e.max min max then do
      let l ← e.gen G n (Nat.max min e.min) (Nat.min max e.max)
      let r ← genLoop G n min max es
      pure (l ++ r)
    else genLoop G n min max es

/-- `ConstrainedRCPrf::generate_constrained_subkeys`, rcprf.hpp 1433-1461. -/
def CRCPrf.gen (G : Bytes → Nat → UInt8) (n : Nat) (c : CRCPrf) (min max : Nat) : Res (List Elem) :=
  if min < c.minLeaf ∨ max > c.maxLeaf then .exc .outOfRange
  else genLoop G n min max c.elems

/-- `ConstrainedRCPrf::constrain`, rcprf.hpp 1463-1472. -/
def CRCPrf.constrain (G : Bytes → Nat → UInt8) (n : Nat) (c : CRCPrf) (min max : Nat) : Res CRCPrf := do
  let es ← c.gen G n min max
  mkCRCPrf es

/-- `RCPrf`, rcprf.hpp 1756-1936: tree height and root key. -/
structure RCPrf where
  treeHeight : Nat
  key : Bytes
  deriving DecidableEq, Repr

/-- `RCPrf::RCPrf`, rcprf.hpp 1778-1789 (and the deserialization constructor, 1898-1916). -/
def mkRCPrf (key : Bytes) (h : Nat) : Res RCPrf :=
  if h = 0 then .exc .invalidArgument
  else if h > 64 then .exc .invalidArgument
  else .ok ⟨h, key⟩

/-- `RCPrf::eval`, rcprf.hpp 1938-1947.  `leaf >> 64` is undefined. -/
def RCPrf.eval (G : Bytes → Nat → UInt8) (n : Nat) (p : RCPrf) (x : Nat) : Res Bytes :=
  if p.treeHeight ≥ 64 then .ub
  else if x >>> p.treeHeight ≠ 0 then .exc .outOfRange
  else deriveLeaf G n p.treeHeight p.key 0 x

/-- `RCPrf::eval_range`, rcprf.hpp 1949-1965. -/
def RCPrf.evalRange (G : Bytes → Nat → UInt8) (n : Nat) (p : RCPrf) (min max : Nat) : Run :=
  if p.treeHeight ≥ 64 then ⟨[], .ub⟩
  else if max >>> p.treeHeight ≠ 0 then ⟨[], .exc .outOfRange⟩
  else if max < min then ⟨[], .exc .invalidArgument⟩
  else deriveLeafRange G n p.treeHeight p.key 0 0 min max

/-- `RCPrf::generate_constrained_subkeys`, rcprf.hpp 1979-2017. -/
def RCPrf.gen (G : Bytes → Nat → UInt8) (n : Nat) (p : RCPrf) (min max : Nat) : Res (List Elem) :=
  if min > max then .exc .invalidArgument
  else if max > maxLeafIndex p.treeHeight then .exc .outOfRange
  else if max = maxLeafIndex p.treeHeight ∧ min = 0 then .exc .outOfRange
  else genFromNode G n p.treeHeight p.treeHeight p.key 0 (maxLeafIndex p.treeHeight) min max

/-- `RCPrf::constrain`, rcprf.hpp 1968-1977. -/
def RCPrf.constrain (G : Bytes → Nat → UInt8) (n : Nat) (p : RCPrf) (min max : Nat) : Res CRCPrf := do
  let es ← p.gen G n min max
  mkCRCPrf es

end Verif.RCPrf
