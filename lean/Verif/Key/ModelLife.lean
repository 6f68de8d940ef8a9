import Verif.Key.Model

/-!
# The life of keys in constructors and derivations

Functions that take keys, make keys and use temporary keys, as programs over the operations of `Verif/Key/Model.lean`: prg.cpp, prg.hpp, prf.hpp, hmac.hpp,
cipher.cpp, prp.cpp, wrapper.cpp, rcprf.hpp, tdp_impl_mbedtls.cpp.  Destructors of locals and temporaries run when their scope is left, also by an exception.

Simplifications: what is computed from keys is a parameter; a buffer that a callback fills is allocated after the callback (nothing but the callback knows it);
elements of vectors are made in place; PRP hardware support is there; `std::bad_alloc` does not occur.
-/

namespace Verif.Key.Life

open Verif

/-- A program over key objects.  After an operation it goes on with the number that a new object has got, and with the outcome. -/
inductive P (α : Type) where
  | ret (r : Res α)
  /-- `is_empty()`, key.hpp 329-332. -/
  | empty (i : Nat) (k : Bool → P α)
  | op (N : Nat) (o : Op) (k : Nat → Res Bytes → P α)

/-- The second program gets the outcome of the first. -/
def P.thenRes {α β : Type} : P α → (Res α → P β) → P β
  | .ret r, f => f r
  | .empty i k, f => .empty i fun b => (k b).thenRes f
  | .op N o k, f => .op N o fun n r => (k n r).thenRes f

/-- Exceptions end a program. -/
def onOk {α β : Type} (f : α → P β) : Res α → P β
  | .ok a => f a
  | .exc e => .ret (.exc e)
  | .ub => .ret .ub

instance : Monad P where
  pure a := .ret (.ok a)
  bind p f := p.thenRes (onOk f)

/-- Execution. -/
def P.run {α : Type} (ml : Bool) : P α → St → St × Res α
  | .ret r, st => (st, r)
  | .empty i k, st =>
    match st.obj i with
    | some o => (k o.content.isNone).run ml st
    | none => (st, .ub)
  | .op N o k, st =>
    match step N ml st o with
    | some (st', r) => (k st.objs.length r).run ml st'
    | none => (st, .ub)

def throw {α : Type} (e : Exc) : P α := .ret (.exc e)

/-- An operation that makes an object: its number. -/
def mk (N : Nat) (o : Op) : P Nat := .op N o fun n r => onOk (fun _ => .ret (.ok n)) r

/-- An operation that reads, or changes an object. -/
def act (N : Nat) (o : Op) : P Bytes := .op N o fun _ r => .ret r

/-- What a destructor leaves of an outcome. -/
def after {α : Type} (r : Res α) : Res Bytes → P α
  | .ok _ => .ret r
  | .exc e => .ret (.exc e)
  | .ub => .ret .ub

/-- The destructor of object `j` runs, and the outcome stays. -/
def leave {α : Type} (j : Nat) : Res α → P α
  | .ub => .ret .ub
  | r => (act 0 (.destroy j)).thenRes (after r)

/-- An object that lives until the end of the scope. -/
def within {α : Type} (new : P Nat) (body : Nat → P α) : P α := do
  let j ← new
  (body j).thenRes (leave j)

/-- What follows the callback of `Key(callback)`. -/
def filled (N : Nat) (junk : Bytes) : Res Bytes → P Nat
  | .ok d => mk N (.newCallback (some d) junk)
  | .exc e => (act N (.newCallback none junk)).thenRes fun _ => .ret (.exc e)
  | .ub => .ret .ub

/-- `Key(callback)`, key.hpp 255-275, with a callback that uses keys itself. -/
def newFilled (N : Nat) (junk : Bytes) (cb : P Bytes) : P Nat := cb.thenRes (filled N junk)

/-! ## Constructors that take a key -/

/-- `Prg(Key&&)`, prg.hpp 85-87; `Cipher(Key&&)`, cipher.cpp 51-53. -/
def plainCtor (i : Nat) : P Nat := mk 32 (.moveCtor i)

/-- `HMac(Key&&)`, hmac.hpp 105-110, and `Prf(Key&&)`, prf.hpp 100-102: the check comes after the key has been moved. -/
def hmacCtor (i : Nat) : P Nat := do
  let j ← mk 32 (.moveCtor i)
  .empty j fun e =>
    if e then do
      let _ ← act 32 (.destroy j)
      throw .invalidArgument
    else pure j

/-- `RCPrf(Key&&, height)`, rcprf.hpp 1778-1789: the checks come after the key has been moved. -/
def rcprfCtor (i height : Nat) : P Nat := do
  let j ← mk 32 (.moveCtor i)
  if height = 0 then do
    let _ ← act 32 (.destroy j)
    throw .invalidArgument
  else if height > 64 then do
    let _ ← act 32 (.destroy j)
    throw .invalidArgument
  else pure j

/-- `ConstrainedRCPrfInnerElement(Key&&, …)`, rcprf.hpp 703-715; `refused`: the constructor of the base class throws, before the key is moved. -/
def elemCtor (refused : Bool) (i stHeight : Nat) : P Nat :=
  if refused then throw .invalidArgument
  else do
    let j ← mk 32 (.moveCtor i)
    if stHeight ≤ 1 then do
      let _ ← act 32 (.destroy j)
      throw .invalidArgument
    else pure j

/-- `Prp(Key&&)`, prp.cpp 84-105; the context has 112 bytes (prp.hpp 246). -/
def prpCtor (setup : Bytes → Bytes) (junk : Bytes) (i : Nat) : P Nat := do
  let j ← newFilled 112 junk do
    let v ← act 48 (.readUnlock i)
    pure (setup v)
  let _ ← act 48 (.erase i)
  pure j

/-- `Prp()`, prp.cpp 61-82. -/
def prpNew (setup : Bytes → Bytes) (junk r : Bytes) : P Nat :=
  newFilled 112 junk <| within (mk 48 (.newRandom r junk)) fun t => do
    let v ← act 48 (.readUnlock t)
    pure (setup v)

/-! ## Derivations -/

/-- One HMAC, hmac.hpp 205-248. -/
def hmac (f : Bytes → Bytes) (i : Nat) : P Bytes := do
  let _ ← act 32 (.unlock i)
  let v ← act 32 (.readData i)
  let _ ← act 32 (.readData i)
  let _ ← act 32 (.lock i)
  pure (f v)

/-- `Prf::derive_key`, prf.hpp 325-342 (up to 64 bytes): the constructor of the key wipes the array. -/
def prfKey (N : Nat) (f : Bytes → Bytes) (i : Nat) : P Nat := do
  let b ← hmac f i
  mk N (.newFrom (some b))

/-- `Wrapper(Key&&)`, wrapper.cpp 28-52: the members are first made with random keys `r1` and `r2`; temporaries die at the end of their statements. -/
def wrapperBody (f1 f2 : Bytes → Bytes) (i j1 j2 : Nat) : P Unit :=
  within (hmacCtor i) fun kdf => do
    let _ ← within (prfKey 32 f1 kdf) fun t => within (hmacCtor t) fun p => act 32 (.moveAssign j1 p)
    let _ ← within (prfKey 32 f2 kdf) fun t => act 32 (.moveAssign j2 t)
    pure ()

/-- The members die when the body of the constructor throws. -/
def wrapperEnd (j1 j2 : Nat) : Res Unit → P (Nat × Nat)
  | .ok _ => .ret (.ok (j1, j2))
  | .exc e => do
    let _ ← act 32 (.destroy j2)
    let _ ← act 32 (.destroy j1)
    .ret (.exc e)
  | .ub => .ret .ub

def wrapperCtor (f1 f2 : Bytes → Bytes) (r1 r2 junk : Bytes) (i : Nat) : P (Nat × Nat) := do
  let j1 ← mk 32 (.newRandom r1 junk)
  let j2 ← mk 32 (.newRandom r2 junk)
  (wrapperBody f1 f2 i j1 j2).thenRes (wrapperEnd j1 j2)

/-- `Prg::derive(offset, len, out)`, prg.cpp 129-139 (`len > 0`, `out` not null). -/
def derive (g : Bytes → Bytes) (i : Nat) : P Bytes := do
  let v ← act 32 (.readUnlock i)
  let _ ← act 32 (.lock i)
  pure (g v)

/-- prg.cpp 164-166; `prg_derivation` throws when `out` is null (44-51). -/
def deriveLocal (outNull : Bool) (g : Bytes → Bytes) (j : Nat) : P Bytes := do
  let v ← act 32 (.readUnlock j)
  if outNull then throw .invalidArgument
  else do
    let _ ← act 32 (.lock j)
    pure (g v)

/-- `Prg::derive(Key&&, offset, len, out)`, prg.cpp 152-167. -/
def deriveStatic (outNull : Bool) (g : Bytes → Bytes) (i : Nat) : P Bytes :=
  .empty i fun e => if e then throw .invalidArgument else within (mk 32 (.moveCtor i)) (deriveLocal outNull g)

/-- `Prg::derive_key<K>(offset)`, prg.hpp 400-418. -/
def deriveKey (K : Nat) (junk : Bytes) (g : Bytes → Bytes) (i : Nat) : P Nat := newFilled K junk (derive g i)

/-- `Prg::derive_key<K>(Key&&, offset)`, prg.hpp 420-438. -/
def deriveKeyStatic (K : Nat) (junk : Bytes) (g : Bytes → Bytes) (i : Nat) : P Nat := newFilled K junk (deriveStatic false g i)

/-- The loop of `Prg::derive_keys`, prg.hpp 470-472: keys from parts of the buffer, beginning with number `t`. -/
def cutKeys (K : Nat) (buf : Bytes) : Nat → Nat → P (List Nat)
  | 0, _ => pure []
  | n + 1, t => do
    if (buf.drop (t * K)).length < K then .ret .ub
    else do
      let j ← mk K (.newFrom (some (buf.drop (t * K))))
      let js ← cutKeys K buf n (t + 1)
      pure (j :: js)

/-- What follows the derivation in `Prg::derive_keys`: the buffer of `sodium_allocarray` is an object without a name, released at the end, but not when the
    derivation throws. -/
def cutAll (K : Nat) (junk : Bytes) (n : Nat) : Res Bytes → P (List Nat)
  | .ok buf => within (mk (n * K) (.newCallback (some buf) junk)) fun _ => cutKeys K buf n 0
  | .exc e => (act (n * K) (.newCallback none junk)).thenRes fun _ => .ret (.exc e)
  | .ub => .ret .ub

/-- `Prg::derive_keys<K>(n, offset)`, prg.hpp 440-478. -/
def deriveKeys (K : Nat) (junk : Bytes) (g : Bytes → Bytes) (n i : Nat) : P (List Nat) :=
  if n = 0 then pure [] else (derive g i).thenRes (cutAll K junk n)

/-- `Prg::derive_keys<K>(Key&&, n, offset)`, prg.hpp 480-522. -/
def deriveKeysStatic (K : Nat) (junk : Bytes) (g : Bytes → Bytes) (n i : Nat) : P (List Nat) :=
  .empty i fun e =>
    if e then throw .invalidArgument
    else if n = 0 then pure []
    else (deriveStatic false g i).thenRes (cutAll K junk n)

/-- `Prg::duplicate`, prg.cpp 201-209: the constructor of the temporary key wipes the array. -/
def duplicate (i : Nat) : P Nat := do
  let v ← act 32 (.readUnlock i)
  let _ ← act 32 (.lock i)
  if v.length < 32 then .ret .ub
  else within (mk 32 (.newFrom (some (v.take 32)))) fun t => plainCtor t

/-- `deserialize` of `Prg`, `Cipher` and `Prp` (prg.cpp 218-228, cipher.cpp 200-212, prp.cpp 307-324) once the size has been checked. -/
def readPlain (N : Nat) (buf : Bytes) : P Nat := within (mk N (.newFrom (some buf))) fun t => mk N (.moveCtor t)

/-- `Prf::deserialize`, prf.hpp 234-247. -/
def readPrf (buf : Bytes) : P Nat := within (mk 32 (.newFrom (some buf))) fun t => hmacCtor t

/-- `n` HMACs with one key (`Prf::prf`, prf.hpp 274-297). -/
def hmacs (i : Nat) : List (Bytes → Bytes) → P (List Bytes)
  | [] => pure []
  | f :: fs => do
    let b ← hmac f i
    let bs ← hmacs i fs
    pure (b :: bs)

/-- `generate(Key&&, seed)` of the trapdoor permutation, tdp_impl_mbedtls.cpp 339-346. -/
def tdpGenerate (fs : List (Bytes → Bytes)) (i : Nat) : P (List Bytes) := within (hmacCtor i) fun j => hmacs j fs

/-! ## Walks in the tree -/

/-- The loop of `derive_leaf`, rcprf.hpp 375-379: the temporary is assigned to the local key. -/
def chain (junk : Bytes) (s : Nat) : List (Bytes → Bytes) → P Unit
  | [] => pure ()
  | g :: gs => do
    let _ ← within (deriveKeyStatic 32 junk g s) fun t => act 32 (.moveAssign s t)
    chain junk s gs

/-- `RCPrfBase::derive_leaf`, rcprf.hpp 350-393: `gs` are the steps from the node to the parent of the leaf, `last` is the last one. -/
def leaf (junk : Bytes) (last : Bytes → Bytes) (i : Nat) : List (Bytes → Bytes) → P Bytes
  | [] => derive last i
  | g :: gs => within (deriveKey 32 junk g i) fun s => do
    chain junk s gs
    deriveStatic false last s

/-- What the tree computes from the key of a node: the keys of its children, and the leaves below. -/
structure Tree where
  node : Bool → Bytes → Bytes
  leaf : Bool → Bytes → Bytes

/-- `RCPrfBase::derive_leaf_range`, rcprf.hpp 395-480, `h + 2` levels above the leaves' level; `call` is the callback, which may throw.  The leaves of the
    subtree are numbered from 0. -/
def range (T : Tree) (junk : Bytes) (call : Nat → Bytes → Option Exc) : (h : Nat) → (i off min max : Nat) → P Unit
  | 0, i, off, min, max => do
    let b ← derive (T.leaf (min % 2 == 1)) i
    match call (off + min) b with
    | some e => throw e
    | none =>
      if min ≠ max then do
        let b ← derive (T.leaf true) i
        match call (off + max) b with
        | some e => throw e
        | none => pure ()
      else pure ()
  | h + 1, i, off, min, max =>
    let thr := 2 ^ (h + 1) - 1
    (if min ≤ thr then
      within (deriveKey 32 junk (T.node false) i) fun s => within (plainCtor s) fun p => range T junk call h p off min (Nat.min max thr)
    else pure ()) >>= fun _ =>
    if max > thr then
      within (deriveKey 32 junk (T.node true) i) fun s => within (plainCtor s) fun p =>
        range T junk call h p (off + thr + 1) (if min ≤ thr then 0 else min - thr - 1) (max - thr - 1)
    else pure ()

/-- One side of `generate_constrained_subkeys_from_node`: the whole child becomes an element, or the walk goes on below it. -/
def genSide (junk : Bytes) (g : Bytes → Bytes) (whole : Bool) (height i : Nat) (below : Nat → P (List Nat)) : P (List Nat) :=
  within (deriveKey 32 junk g i) fun s =>
    if whole then do
      let j ← elemCtor false s height
      pure [j]
    else within (plainCtor s) below

/-- `RCPrfBase::generate_constrained_subkeys_from_node`, rcprf.hpp 1650-1740, `h + 2` levels above the leaves' level: the numbers of the keys of the inner
    elements (leaf elements have no key). -/
def gen (T : Tree) (junk : Bytes) : (h : Nat) → (i smin smax min max : Nat) → P (List Nat)
  | 0, i, smin, _, min, _ => do
    let _ ← derive (T.leaf (min != smin)) i
    pure []
  | h + 1, i, smin, smax, min, max =>
    let mid := (smax + smin) / 2
    (if min ≤ mid then
      genSide junk (T.node false) (min == smin && decide (mid ≤ max)) (h + 2) i fun p => gen T junk h p smin mid min (Nat.min max mid)
    else pure []) >>= fun l =>
    (if max > mid then
      genSide junk (T.node true) (decide (min ≤ mid + 1) && max == smax) (h + 2) i fun p => gen T junk h p (mid + 1) smax (Nat.max min (mid + 1)) max
    else pure []) >>= fun r => pure (l ++ r)

end Verif.Key.Life
