import Verif.Key.Model

/-!
# Specification of key objects: a value semantics without a heap

A key object holds a byte string or is empty, and is locked or not.  Moving transfers the value and leaves the
source empty.  There is no aliasing, no lifetime and no memory protection here; the properties say that the
heap-level code implements exactly this.
Only the type `Op` of operations is shared with the model.
-/

namespace Verif.Key

open Verif

namespace Spec

/-- A key object as its user sees it. -/
structure Obj where
  value : Option Bytes
  locked : Bool
  deriving DecidableEq, Repr

/-- An empty key. -/
def Obj.empty : Obj := ⟨none, true⟩

/-- All key objects made so far (`none`: destroyed). -/
abbrev St := List (Option Obj)

def obj (st : St) (i : Nat) : Option Obj :=
  match st[i]? with
  | some (some o) => some o
  | _ => none

/-- Reading needs a value and an unlocked key. -/
def read (o : Obj) (ok : Bool) : Res Bytes :=
  match o.value with
  | some v => if ok then .ok v else .exc .runtimeError
  | none => .exc .runtimeError

/-- One operation, with memory locking enabled. -/
def step (N : Nat) (st : St) : Op → Option (St × Res Bytes)
  | .newRandom r _ => some (st ++ [some ⟨some r, true⟩], .ok [])
  | .newFrom none => some (st, .exc .invalidArgument)
  | .newFrom (some b) => some (st ++ [some ⟨some (b.take N), true⟩], .ok (List.replicate N 0 ++ b.drop N))
  | .newCallback none _ => some (st, .exc .runtimeError)
  | .newCallback (some d) _ => some (st ++ [some ⟨some d, true⟩], .ok [])
  | .moveCtor s => (obj st s).map fun o => (st.set s (some .empty) ++ [some o], .ok [])
  | .moveAssign d s =>
    match obj st d, obj st s with
    | some _, some os => some (if d = s then st else (st.set d (some os)).set s (some .empty), .ok [])
    | _, _ => none
  | .erase i => (obj st i).map fun o => (if o.value.isSome then st.set i (some .empty) else st, .ok [])
  | .destroy i => (obj st i).map fun _ => (st.set i none, .ok [])
  | .lock i => (obj st i).map fun o => (if o.value.isSome then st.set i (some { o with locked := true }) else st, .ok [])
  | .unlock i => (obj st i).map fun o => (if o.value.isSome then st.set i (some { o with locked := false }) else st, .ok [])
  | .readData i => (obj st i).map fun o => (st, read o (!o.locked))
  | .readUnlock i => (obj st i).map fun o =>
      (if o.value.isSome then st.set i (some { o with locked := false }) else st, read o true)
  | .serialize i => (obj st i).map fun o => (st, read o (!o.locked))

def run (N : Nat) : St → List Op → Option (St × List (Res Bytes))
  | st, [] => some (st, [])
  | st, op :: ops =>
    match step N st op with
    | none => none
    | some (st', r) =>
      match run N st' ops with
      | none => none
      | some (st'', rs) => some (st'', r :: rs)

end Spec

/-- The caller's obligation: a buffer passed to `Key(uint8_t*)` has at least `N` bytes. -/
def Op.pre (N : Nat) : Op → Prop
  | .newFrom (some b) => N ≤ b.length
  | _ => True

/-- The operation does not run a callback that throws. -/
def Op.noThrow : Op → Prop
  | .newCallback none _ => False
  | _ => True

end Verif.Key
