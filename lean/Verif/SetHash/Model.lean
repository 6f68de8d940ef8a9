import Verif.Mac.Model
import Mathlib.Algebra.Group.Subgroup.Defs

/-!
# Set hash: model of `src/set_hash.cpp` and `include/sse/crypto/set_hash.hpp`

libsodium's Ed25519 functions are parameters: a `Curve` is the commutative group of the curve points with the byte encoding
of points; `Curve.Ok` states what is assumed about it.  The byte-level behaviour of the four functions that `set_hash.cpp`
calls is modelled on top of it: the addition and subtraction functions refuse (return -1, output untouched) byte strings
that do not decode, and `set_hash.cpp` ignores the return value.
-/

namespace Verif.SetHash

open Verif Verif.Mac

/-- The curve: encoding, decoding (which may also accept non-canonical encodings), the subgroup of prime order, libsodium's
`is_valid_point` test and the map `from_uniform`. -/
structure Curve (A : Type) [AddCommGroup A] where
  enc : A → Bytes
  decode : Bytes → Option A
  sub : AddSubgroup A
  isValid : Bytes → Bool
  fromUniform : Bytes → A

/-- `kECInfinitePoint`, set_hash.hpp 58-62. -/
def infinite : Bytes := 0x01 :: List.replicate 31 0

/-- What is assumed of libsodium's Ed25519. -/
structure Curve.Ok {A : Type} [AddCommGroup A] (C : Curve A) : Prop where
  enc_length : ∀ a, (C.enc a).length = 32
  decode_enc : ∀ a, C.decode (C.enc a) = some a
  enc_zero : C.enc 0 = infinite
  uniform_mem : ∀ h, C.fromUniform h ∈ C.sub
  valid_iff : ∀ b, C.isValid b = true ↔ ∃ a ∈ C.sub, a ≠ 0 ∧ b = C.enc a

section
variable {A : Type} [AddCommGroup A] (C : Curve A)

/-- `crypto_core_ed25519_add(r, p, q)`: the new content of `r`. -/
def edAdd (r p q : Bytes) : Bytes :=
  match C.decode p, C.decode q with
  | some a, some b => C.enc (a + b)
  | _, _ => r

/-- `crypto_core_ed25519_sub(r, p, q)`: the new content of `r`. -/
def edSub (r p q : Bytes) : Bytes :=
  match C.decode p, C.decode q with
  | some a, some b => C.enc (a - b)
  | _, _ => r

/-- `SetHash::gen_curve_point`, set_hash.cpp 101-110. -/
def genCurvePoint (H : Bytes → Bytes) (s : Bytes) : Res Bytes :=
  (fun h => C.enc (C.fromUniform h)) <$> hashTrunc H (some s) 32 false

/-- `SetHash::SetHash(const std::array&)`, set_hash.cpp 44-54: the state of the new object. -/
def fromBytes (b : Bytes) : Res Bytes :=
  if C.isValid b ≠ true ∧ b ≠ infinite then .exc .invalidArgument else .ok b

/-- `SetHash::add_element`, set_hash.cpp 112-120: the state afterwards. -/
def addElement (H : Bytes → Bytes) (st x : Bytes) : Res Bytes :=
  (fun p => edAdd C st st p) <$> genCurvePoint C H x

/-- `SetHash::remove_element`, set_hash.cpp 129-137. -/
def removeElement (H : Bytes → Bytes) (st x : Bytes) : Res Bytes :=
  (fun p => edSub C st st p) <$> genCurvePoint C H x

/-- `SetHash::add_set`, set_hash.cpp 122-127. -/
def addSet (st o : Bytes) : Bytes := edAdd C st st o

/-- `SetHash::remove_set`, set_hash.cpp 139-144. -/
def removeSet (st o : Bytes) : Bytes := edSub C st st o

/-- The loop of `SetHash::SetHash(const std::vector<std::string>&)`, set_hash.cpp 57-68. -/
def foldElements (H : Bytes → Bytes) : Bytes → List Bytes → Res Bytes
  | st, [] => .ok st
  | st, x :: xs => do
    let p ← genCurvePoint C H x
    foldElements H (edAdd C st st p) xs

/-- `SetHash::SetHash(const std::vector<std::string>&)`: starts from `kECInfinitePoint` (set_hash.hpp 204). -/
def fromVector (H : Bytes → Bytes) (xs : List Bytes) : Res Bytes := foldElements C H infinite xs

/-- `SetHash::operator==`, set_hash.cpp 90-95. -/
def equal (a b : Bytes) : Bool := a == b

/-! ## Programs that use several set hashes -/

/-- Calls on a collection of objects, numbered in order of creation. -/
inductive Call where
  | new
  | newBytes (b : Bytes)
  | newVector (xs : List Bytes)
  | copy (i : Nat)
  | assign (i j : Nat)
  | add (i : Nat) (x : Bytes)
  | remove (i : Nat) (x : Bytes)
  | addSet (i j : Nat)
  | removeSet (i j : Nat)
  deriving DecidableEq, Repr

/-- Replaces object `i`. -/
def put (l : List Bytes) (i : Nat) (b : Bytes) : List Bytes := l.set i b

/-- One call. `none` when an object of that number does not exist (not a program). Copy construction and assignment are
`= default` (set_hash.hpp 87, 92, 174). -/
def step (H : Bytes → Bytes) (l : List Bytes) : Call → Option (Res (List Bytes))
  | .new => some (.ok (l ++ [infinite]))
  | .newBytes b => some ((fun s => l ++ [s]) <$> fromBytes C b)
  | .newVector xs => some ((fun s => l ++ [s]) <$> fromVector C H xs)
  | .copy i => (l[i]?).map fun s => .ok (l ++ [s])
  | .assign i j => do
    let _ ← l[i]?
    let s ← l[j]?
    some (.ok (put l i s))
  | .add i x => (l[i]?).map fun s => (fun s' => put l i s') <$> addElement C H s x
  | .remove i x => (l[i]?).map fun s => (fun s' => put l i s') <$> removeElement C H s x
  | .addSet i j => do
    let s ← l[i]?
    let o ← l[j]?
    some (.ok (put l i (addSet C s o)))
  | .removeSet i j => do
    let s ← l[i]?
    let o ← l[j]?
    some (.ok (put l i (removeSet C s o)))

/-- Runs a program; stops at the first exception (whose state is the one before the call: all throwing calls are
constructors, or throw before the state is written). -/
def run (H : Bytes → Bytes) : List Bytes → List Call → Option (Res (List Bytes))
  | l, [] => some (.ok l)
  | l, c :: cs => do
    match ← step C H l c with
    | .ok l' => run H l' cs
    | e => some e
end

end Verif.SetHash
