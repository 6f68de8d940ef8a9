import Verif.Key.Model

/-!
# Key objects when memory cannot be had or cannot be protected: model of `src/include/sse/crypto/key.hpp`

The operations of `Verif/Key/Model.lean`, where `sodium_malloc` may return a null pointer and `sodium_mprotect_*` may fail.  `pp`: the system can protect pages;
if not, `sodium_mprotect_*` does nothing and fails with `ENOSYS`, which the code accepts.  A call that fails changes nothing.

Simplifications: as in `Verif/Key/Model.lean`; `sodium_free` does not fail; `std::bad_alloc` for the text of an exception does not occur.
-/

namespace Verif.Key.Fail

open Verif Verif.Key

/-- What happens during an operation: whether `sodium_malloc` returns a buffer, and whether the system protects pages when asked to. -/
structure Luck where
  alloc : Bool
  prot : Bool
  deriving DecidableEq, Repr

/-- The outcome of an operation. -/
inductive Outcome where
  | ret (r : Res Bytes)
  /-- `std::bad_alloc` -/
  | badAlloc
  deriving DecidableEq, Repr

/-- `sodium_mprotect_*` and the test of its result: key.hpp 118-124, 157-163, 267-273, 288-294, 311-317. -/
def protect (pp ok : Bool) (st : St) (c : Nat) (p : Prot) : Res St :=
  if pp then if ok then st.protect c p else .exc .runtimeError
  else .ok st

/-- The end of a constructor: the buffer is filled with `d`; key.hpp 115-125, 156-164, 266-274.  The destructor of an object whose constructor throws does not run. -/
def ctor (ml pp ok : Bool) (st : St) (d : Bytes) : St × Res Bytes :=
  if ml then
    match protect pp ok (st.alloc d .rw) st.heap.length .noaccess with
    | .ok s => (s.pushObj ⟨some st.heap.length, true⟩, .ok [])
    | .exc e => (st.alloc d .rw, .exc e)
    | .ub => (st.alloc d .rw, .ub)
  else ((st.alloc d .rw).pushObj ⟨some st.heap.length, false⟩, .ok [])

/-- `lock()`, key.hpp 284-298. -/
def lockObj (ml pp ok : Bool) (st : St) (i : Nat) (o : Obj) : Res St :=
  if ml then
    match o.content with
    | some c =>
      if o.locked then .ok st
      else (fun s => s.setObj i (some { o with locked := true })) <$> protect pp ok st c .noaccess
    | none => .ok st
  else .ok st

/-- `unlock()`, key.hpp 307-321. -/
def unlockObj (ml pp ok : Bool) (st : St) (i : Nat) (o : Obj) : Res St :=
  if ml then
    match o.content with
    | some c =>
      if o.locked then (fun s => s.setObj i (some { o with locked := false })) <$> protect pp ok st c .ro
      else .ok st
    | none => .ok st
  else .ok st

/-- State, outcome, and the buffer of the caller of `Key(uint8_t*)` afterwards. -/
abbrev Out : Type := St × Outcome × Bytes

/-- An operation that touches no buffer of the caller. -/
def plain (x : St × Res Bytes) : Out := (x.1, .ret x.2, [])

/-- One operation. `none`: it names an object that does not exist. -/
def step (N : Nat) (ml pp : Bool) (l : Luck) (st : St) : Op → Option Out
  /- `Key()`, key.hpp 107-126. -/
  | .newRandom r junk =>
    if l.alloc then some (plain (ctor ml pp l.prot st (if ml then r else junk))) else some (st, .badAlloc, [])
  /- `Key(uint8_t*)`, key.hpp 141-165. -/
  | .newFrom none => some (st, .ret (.exc .invalidArgument), [])
  | .newFrom (some b) =>
    if l.alloc then
      if b.length < N then some (st, .ret .ub, b)
      else
        let x := ctor ml pp l.prot st (b.take N)
        some (x.1, .ret x.2, List.replicate N 0 ++ b.drop N)
    else some (st, .badAlloc, b)
  /- `Key(std::function)`, key.hpp 255-275. -/
  | .newCallback fill junk =>
    if l.alloc then
      match fill with
      | none => some (st.alloc junk .rw, .ret (.exc .runtimeError), [])
      | some d => some (plain (ctor ml pp l.prot st d))
    else some (st, .badAlloc, [])
  | .lock i => (st.obj i).map fun o => plain (fin st (lockObj ml pp l.prot st i o))
  | .unlock i => (st.obj i).map fun o => plain (fin st (unlockObj ml pp l.prot st i o))
  /- `unlock_get()`, key.hpp 374-382, followed by a read. -/
  | .readUnlock i =>
    (st.obj i).map fun o => plain
      (match o.content with
      | none => (st, .exc .runtimeError)
      | some c =>
        match unlockObj ml pp l.prot st i o with
        | .ok s => (s, s.deref (some c))
        | e => fin st e)
  /- The others allocate nothing and protect nothing. -/
  | .moveCtor s => (Key.step N ml st (.moveCtor s)).map plain
  | .moveAssign d s => (Key.step N ml st (.moveAssign d s)).map plain
  | .erase i => (Key.step N ml st (.erase i)).map plain
  | .destroy i => (Key.step N ml st (.destroy i)).map plain
  | .readData i => (Key.step N ml st (.readData i)).map plain
  | .serialize i => (Key.step N ml st (.serialize i)).map plain

/-- A history. -/
def run (N : Nat) (ml pp : Bool) : St → List (Luck × Op) → Option (St × List (Outcome × Bytes))
  | st, [] => some (st, [])
  | st, x :: xs =>
    match step N ml pp x.1 st x.2 with
    | none => none
    | some (st', r) =>
      match run N ml pp st' xs with
      | none => none
      | some (st'', rs) => some (st'', r :: rs)

end Verif.Key.Fail
