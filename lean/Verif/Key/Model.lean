import Verif.Basic

/-!
# Key objects: model of `src/include/sse/crypto/key.hpp`

A heap of buffers obtained from `sodium_malloc`, and a list of `Key<N>` objects (`none`: destroyed).
Operations name objects by their position; new objects go to the end of the list.
`ml` is `ENABLE_MEMORY_LOCK` (on by default).

Simplifications: addresses are never reused; allocation and `mprotect` succeed (their failures are thrown on as
`std::bad_alloc` / `std::runtime_error` in the code); the guard pages and the canary of `sodium_malloc` are not
modelled.  `sodium_free` wipes the buffer before releasing it (documented behaviour of libsodium).
-/

namespace Verif.Key

open Verif

/-- Page protection of a buffer: `sodium_malloc` gives read-write, `sodium_mprotect_readonly`,
`sodium_mprotect_noaccess`. -/
inductive Prot where
  | rw | ro | noaccess
  deriving DecidableEq, Repr

/-- A buffer returned by `sodium_malloc`. `frees` counts calls of `sodium_free`. -/
structure Cell where
  data : Bytes
  prot : Prot
  frees : Nat
  deriving DecidableEq, Repr

/-- A `Key<N>` object: `content_` and `is_locked_`, key.hpp 406-409. -/
structure Obj where
  content : Option Nat
  locked : Bool
  deriving DecidableEq, Repr

structure St where
  heap : List Cell
  objs : List (Option Obj)
  deriving DecidableEq, Repr

def St.init : St := ⟨[], []⟩

/-- What a program can do with keys. -/
inductive Op where
  /-- `Key()`: `r` is what the RNG delivers, `junk` what the fresh buffer contains. -/
  | newRandom (r junk : Bytes)
  /-- `Key(uint8_t*)`; `none` is the null pointer, `some b` a caller buffer (of at least `N` bytes). -/
  | newFrom (buf : Option Bytes)
  /-- `Key(callback)` (used inside the library): the callback fills the buffer or throws. -/
  | newCallback (fill : Option Bytes) (junk : Bytes)
  | moveCtor (src : Nat)
  | moveAssign (dst src : Nat)
  | erase (i : Nat)
  | destroy (i : Nat)
  | lock (i : Nat)
  | unlock (i : Nat)
  /-- `data()` and reading the `N` bytes behind the pointer. -/
  | readData (i : Nat)
  /-- `unlock_get()` and reading the `N` bytes behind the pointer. -/
  | readUnlock (i : Nat)
  | serialize (i : Nat)
  deriving DecidableEq, Repr

/-- The object at position `i`, if it has not been destroyed. -/
def St.obj (st : St) (i : Nat) : Option Obj :=
  match st.objs[i]? with
  | some (some o) => some o
  | _ => none

def St.setObj (st : St) (i : Nat) (o : Option Obj) : St := { st with objs := st.objs.set i o }
def St.pushObj (st : St) (o : Obj) : St := { st with objs := st.objs ++ [some o] }
def St.alloc (st : St) (data : Bytes) (p : Prot) : St := { st with heap := st.heap ++ [⟨data, p, 0⟩] }

/-- `sodium_free`: wipes and releases; freeing twice is undefined. -/
def St.free (st : St) (c : Nat) : Res St :=
  match st.heap[c]? with
  | some cell =>
    if cell.frees = 0 then
      .ok { st with heap := st.heap.set c ⟨List.replicate cell.data.length 0, .noaccess, 1⟩ }
    else .ub
  | none => .ub

/-- `sodium_mprotect_*`; on a released buffer it is undefined. -/
def St.protect (st : St) (c : Nat) (p : Prot) : Res St :=
  match st.heap[c]? with
  | some cell => if cell.frees = 0 then .ok { st with heap := st.heap.set c { cell with prot := p } } else .ub
  | none => .ub

/-- Reading the bytes behind `content_`: null, released or protected memory is undefined. -/
def St.deref (st : St) (c : Option Nat) : Res Bytes :=
  match c with
  | none => .ub
  | some c =>
    match st.heap[c]? with
    | some cell => if cell.frees = 0 ∧ cell.prot ≠ .noaccess then .ok cell.data else .ub
    | none => .ub

/-- Protection and flag of a freshly filled key: key.hpp 114-125, 155-164, 265-274. -/
def freshProt (ml : Bool) : Prot := if ml then .noaccess else .rw

/-- `is_locked()`, key.hpp 340-347. -/
def isLocked (ml : Bool) (o : Obj) : Bool := if ml then o.locked else false

/-- `lock()`, key.hpp 284-298. -/
def lockObj (ml : Bool) (st : St) (i : Nat) (o : Obj) : Res St :=
  if ml then
    match o.content with
    | some c =>
      if o.locked then .ok st
      else (fun s => s.setObj i (some { o with locked := true })) <$> st.protect c .noaccess
    | none => .ok st
  else .ok st

/-- `unlock()`, key.hpp 307-321. -/
def unlockObj (ml : Bool) (st : St) (i : Nat) (o : Obj) : Res St :=
  if ml then
    match o.content with
    | some c =>
      if o.locked then (fun s => s.setObj i (some { o with locked := false })) <$> st.protect c .ro
      else .ok st
    | none => .ok st
  else .ok st

/-- Turns the outcome of an operation without result into (state, outcome). -/
def fin (st : St) : Res St → St × Res Bytes
  | .ok s => (s, .ok [])
  | .exc e => (st, .exc e)
  | .ub => (st, .ub)

/-- One operation. `none`: the operation names an object that does not exist (not a C++ program).
The byte result is: the bytes read, or for `newFrom` the caller's buffer after the call. -/
def step (N : Nat) (ml : Bool) (st : St) : Op → Option (St × Res Bytes)
  /- `Key()`, key.hpp 107-126; without memory locking the buffer is not filled. -/
  | .newRandom r junk =>
    some ((st.alloc (if ml then r else junk) (freshProt ml)).pushObj ⟨some st.heap.length, ml⟩, .ok [])
  /- `Key(uint8_t*)`, key.hpp 141-165. -/
  | .newFrom none => some (st, .exc .invalidArgument)
  | .newFrom (some b) =>
    if b.length < N then some (st, .ub)
    else some ((st.alloc (b.take N) (freshProt ml)).pushObj ⟨some st.heap.length, ml⟩,
      .ok (List.replicate N 0 ++ b.drop N))
  /- `Key(std::function)`, key.hpp 255-275; if the callback throws, the destructor does not run. -/
  | .newCallback none junk => some (st.alloc junk .rw, .exc .runtimeError)
  | .newCallback (some d) _ => some ((st.alloc d (freshProt ml)).pushObj ⟨some st.heap.length, ml⟩, .ok [])
  /- `Key(Key&&)`, key.hpp 176-180. -/
  | .moveCtor s =>
    match st.obj s with
    | some o => some ((st.setObj s (some ⟨none, true⟩)).pushObj o, .ok [])
    | none => none
  /- `operator=(Key&&)`, key.hpp 208-222. -/
  | .moveAssign d s =>
    match st.obj d, st.obj s with
    | some od, some os =>
      if d = s then some (st, .ok [])
      else
        some (fin st ((match od.content with
          | some c => st.free c
          | none => .ok st) >>= fun st1 => .ok ((st1.setObj d (some os)).setObj s (some ⟨none, true⟩))))
    | _, _ => none
  /- `erase()`, key.hpp 234-241. -/
  | .erase i =>
    match st.obj i with
    | some o =>
      match o.content with
      | some c => some (fin st ((fun s => s.setObj i (some ⟨none, true⟩)) <$> st.free c))
      | none => some (st, .ok [])
    | none => none
  /- `~Key()`, key.hpp 188-195. -/
  | .destroy i =>
    match st.obj i with
    | some o =>
      match o.content with
      | some c => some (fin st ((fun s => s.setObj i none) <$> st.free c))
      | none => some (st.setObj i none, .ok [])
    | none => none
  | .lock i => (st.obj i).map fun o => fin st (lockObj ml st i o)
  | .unlock i => (st.obj i).map fun o => fin st (unlockObj ml st i o)
  /- `data()`, key.hpp 357-363, followed by a read. -/
  | .readData i =>
    (st.obj i).map fun o =>
      (st, if isLocked ml o then .exc .runtimeError else st.deref o.content)
  /- `unlock_get()`, key.hpp 374-382, followed by a read. -/
  | .readUnlock i =>
    (st.obj i).map fun o =>
      match o.content with
      | none => (st, .exc .runtimeError)
      | some c =>
        match unlockObj ml st i o with
        | .ok s => (s, s.deref (some c))
        | e => fin st e
  /- `serialize(out)`, key.hpp 395-404. -/
  | .serialize i =>
    (st.obj i).map fun o =>
      (st, match o.content with
        | none => .exc .runtimeError
        | some c => if isLocked ml o then .exc .runtimeError else st.deref (some c))

/-- A history: the state and the outcomes after a list of operations. -/
def run (N : Nat) (ml : Bool) : St → List Op → Option (St × List (Res Bytes))
  | st, [] => some (st, [])
  | st, op :: ops =>
    match step N ml st op with
    | none => none
    | some (st', r) =>
      match run N ml st' ops with
      | none => none
      | some (st'', rs) => some (st'', r :: rs)

end Verif.Key
