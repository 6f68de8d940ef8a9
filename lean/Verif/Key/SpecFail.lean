import Verif.Key.ModelFail
import Verif.Key.Spec

/-!
# Specification of key objects when memory cannot be had or cannot be protected

The value semantics of `Verif/Key/Spec.lean`: an operation either does what it does there, or throws and leaves every key as it was.  Only the types of operations
and outcomes are shared with the model.
-/

namespace Verif.Key.Fail.Spec

open Verif Verif.Key Verif.Key.Fail

/-- The operation allocates memory. -/
def allocates : Op → Bool
  | .newRandom _ _ => true
  | .newFrom b => b.isSome
  | .newCallback _ _ => true
  | _ => false

/-- The operation asks the system to protect or unprotect memory: new keys, keys that are locked and keys that are unlocked. -/
def protects (a : Key.Spec.St) : Op → Bool
  | .newRandom _ _ => true
  | .newFrom b => b.isSome
  | .newCallback fill _ => fill.isSome
  | .lock i =>
    match Key.Spec.obj a i with
    | some o => o.value.isSome && !o.locked
    | none => false
  | .unlock i | .readUnlock i =>
    match Key.Spec.obj a i with
    | some o => o.value.isSome && o.locked
    | none => false
  | _ => false

/-- The caller's buffer: wiped, unless there is no memory for the key. -/
def buffer (N : Nat) (alloc : Bool) : Op → Bytes
  | .newFrom (some b) => if alloc then List.replicate N 0 ++ b.drop N else b
  | _ => []

/-- The result; there, that of `Key(uint8_t*)` is the buffer. -/
def result (r : Res Bytes) : Op → Res Bytes
  | .newFrom (some _) => .ok []
  | _ => r

/-- One operation.  `alloc`: there is memory; `prot`: the system does not refuse. -/
def step (N : Nat) (alloc prot : Bool) (a : Key.Spec.St) (op : Op) : Option (Key.Spec.St × Outcome × Bytes) :=
  match Key.Spec.step N a op with
  | none => none
  | some (a', r) =>
    if allocates op && !alloc then some (a, .badAlloc, buffer N alloc op)
    else if protects a op && !prot then some (a, .ret (.exc .runtimeError), buffer N alloc op)
    else some (a', .ret (result r op), buffer N alloc op)

def run (N : Nat) (pp : Bool) : Key.Spec.St → List (Luck × Op) → Option (Key.Spec.St × List (Outcome × Bytes))
  | a, [] => some (a, [])
  | a, x :: xs =>
    match step N x.1.alloc (x.1.prot || !pp) a x.2 with
    | none => none
    | some (a', r) =>
      match run N pp a' xs with
      | none => none
      | some (a'', rs) => some (a'', r :: rs)

end Verif.Key.Fail.Spec

namespace Verif.Key.Fail

open Verif Verif.Key

/-- The constructor runs, and throws after the buffer was allocated. -/
def Lost (l : Luck) : Op → Prop
  | .newRandom _ _ => l.alloc = true ∧ l.prot = false
  | .newFrom b => b.isSome = true ∧ l.alloc = true ∧ l.prot = false
  | .newCallback fill _ => l.alloc = true ∧ (fill = none ∨ l.prot = false)
  | _ => False

end Verif.Key.Fail
