import Verif.Rsa.ModelTdp

/-!
# Threads that share an object: model of the accesses to the mutable members of `mbedtls_rsa_context`

`TdpImpl_mbedTLS::rsa_key_` is `mutable` (tdp_impl_mbedtls.hpp 81): the `const` methods `eval`, `invert` and `invert_mult` change the caches `RN`,
`RP`, `RQ` and the blinding values `Vi`, `Vf`.  The locks around these accesses are compiled only if `MBEDTLS_THREADING_C` is defined, which it is
not.  Here a method is a sequence of accesses to these members, between which other threads may run.

The three fields of a cache are separate locations, because `memcpy` of the structure (bignum.c 1605 and 1608) copies them one by one, in an order
that the language does not fix.  The block of limbs of a cache is written before the pointer to it is stored, and never again.  The members that no
method changes are constants.  `Vi` and `Vf` are one location each, and a call of a function of bignum.c on them is one access: real executions
have more interleavings than this model.  Memory is sequentially consistent.
-/

namespace Verif.Rsa.Threads

open Verif Verif.Bignum
open Verif.Tdp (msgSize)

/-- The caches. -/
inductive Slot
  | N
  | P
  | Q
  deriving DecidableEq

/-- The fields of `mbedtls_mpi`, bignum.h 178-184. -/
inductive Field
  | sign
  | size
  | ptr
  deriving DecidableEq

/-- The locations that methods write. -/
inductive Loc
  | cache (s : Slot) (f : Field)
  | vi
  | vf
  deriving DecidableEq

/-- What a location holds; a pointer is the block it points to, the null pointer the empty list. -/
def Val : Loc → Type
  | .cache _ .sign => Bool
  | .cache _ .size => Nat
  | .cache _ .ptr => List Nat
  | .vi => Mpi
  | .vf => Mpi

/-- The shared memory. -/
structure Mem where
  sign : Slot → Bool
  size : Slot → Nat
  ptr : Slot → List Nat
  vi : Mpi
  vf : Mpi

def Mem.get (m : Mem) : (l : Loc) → Val l
  | .cache s .sign => m.sign s
  | .cache s .size => m.size s
  | .cache s .ptr => m.ptr s
  | .vi => m.vi
  | .vf => m.vf

def Mem.set (m : Mem) : (l : Loc) → Val l → Mem
  | .cache s .sign, v => { m with sign := fun t => if t = s then v else m.sign t }
  | .cache s .size, v => { m with size := fun t => if t = s then v else m.size t }
  | .cache s .ptr, v => { m with ptr := fun t => if t = s then v else m.ptr t }
  | .vi, v => { m with vi := v }
  | .vf, v => { m with vf := v }

/-- A thread: a result, or an access and what follows. -/
inductive Prog (α : Type)
  | ret (a : α)
  | read (l : Loc) (k : Val l → Prog α)
  | write (l : Loc) (v : Val l) (k : Prog α)

def Prog.bind {α β : Type} : Prog α → (α → Prog β) → Prog β
  | .ret a, f => f a
  | .read l k, f => .read l fun v => (k v).bind f
  | .write l v k, f => .write l v (k.bind f)

instance : Monad Prog where
  pure := .ret
  bind := Prog.bind

/-- The memory and the threads. -/
structure Cfg (α : Type) where
  mem : Mem
  threads : List (Prog α)

/-- Thread `i` makes its next access; nothing happens when it is finished. -/
def Cfg.step {α : Type} (x : Cfg α) (i : Nat) : Cfg α :=
  match x.threads[i]? with
  | some (.read l k) => { x with threads := x.threads.set i (k (x.mem.get l)) }
  | some (.write l v k) => ⟨x.mem.set l v, x.threads.set i k⟩
  | _ => x

/-- An interleaving: the numbers of the threads in the order of their accesses. -/
def Cfg.exec {α : Type} (x : Cfg α) (sched : List Nat) : Cfg α := sched.foldl Cfg.step x

/-- A thread that runs alone. -/
def Prog.alone {α : Type} : Prog α → Mem → α × Mem
  | .ret a, m => (a, m)
  | .read l k, m => (k (m.get l)).alone m
  | .write l v k, m => k.alone (m.set l v)

/-! ## Exponentiation with a cache -/

/-- The locals of `mbedtls_mpi_exp_mod` before the cache is used. -/
structure Pre where
  mm : Nat
  wsize : Nat
  X : Mpi
  W1 : Mpi
  tl : Nat
  neg : Bool
  P : Mpi

/-- `mbedtls_mpi_exp_mod` before the cache is used, bignum.c 1557-1593. -/
def expPre (X : Mpi) (A : Arg) (E N : Mpi) : Out Pre :=
  if cmpInt N 0 < 0 then .err .badInput
  else do
    let n0 ← limbAt N.p 0
    if n0 &&& 1 = 0 then .err .badInput
    else if cmpInt E 0 < 0 then .err .badInput
    else do
      let j := N.p.length + 1
      let X ← grow X j
      let W1 ← grow Mpi.null j
      let T ← grow Mpi.null (j * 2)
      let P ← posA (A.get X)
      pure ⟨montgInit n0, winSize (bitlenL E), X, W1, T.p.length, (A.get X).neg, P⟩

/-- The constant, bignum.c 1600-1602. -/
def freshRR (N : Mpi) : Out Mpi := do
  let RR ← lset Mpi.null 1
  let RR ← shiftL RR (N.p.length * 2 * 64)
  modMpi RR .self N

/-- `mbedtls_mpi_exp_mod` once `RR` is there, bignum.c 1613-1737. -/
def expPost (E N : Mpi) (s : Pre) (RR : Mpi) : Out Mpi := do
  let W1 ← reduceA s.W1 s.P N
  let W1 ← montmul W1 RR N s.mm s.tl
  let X ← copy s.X RR
  let X ← montred X N s.mm s.tl
  let W ← table N s.mm s.tl s.wsize ((List.replicate 128 Mpi.null).set 1 W1)
  let t ← expBits N s.mm s.tl s.wsize W (bitsOf E.p) ⟨X, 0, 0, 0⟩
  let X ← expRest N s.mm s.tl s.wsize W t.nbits t.X t.wbits
  let X ← montred X N s.mm s.tl
  fixSign X N E s.neg

/-- One field of `memcpy( _RR, &RR, sizeof( mbedtls_mpi ) )`, bignum.c 1605. -/
def storeField (s : Slot) (R : Mpi) : Field → Prog Unit
  | .sign => .write (.cache s .sign) R.neg (.ret ())
  | .size => .write (.cache s .size) R.p.length (.ret ())
  | .ptr => .write (.cache s .ptr) R.p (.ret ())

/-- `memcpy( _RR, &RR, sizeof( mbedtls_mpi ) )` with the fields in the given order. -/
def store (s : Slot) (R : Mpi) : List Field → Prog Unit
  | [] => .ret ()
  | f :: fs => do
    storeField s R f
    store s R fs

/-- The local structure `RR` after `memcpy( &RR, _RR, sizeof( mbedtls_mpi ) )`. -/
structure Fields where
  neg : Bool
  n : Nat
  p : List Nat

/-- `memcpy( &RR, _RR, sizeof( mbedtls_mpi ) )`, bignum.c 1608, with the fields in the given order. -/
def load (s : Slot) : List Field → Fields → Prog Fields
  | [], r => .ret r
  | .sign :: fs, r => .read (.cache s .sign) fun v => load s fs { r with neg := v }
  | .size :: fs, r => .read (.cache s .size) fun v => load s fs { r with n := v }
  | .ptr :: fs, r => .read (.cache s .ptr) fun v => load s fs { r with p := v }

/-- The integer in a structure.  A structure whose size is not the size of the block is torn between two values: what the functions do with it is not
    described.  (With `n = 0` and `p` not null, `mbedtls_mpi_copy( X, &RR )` in line 1623 reads `p[SIZE_MAX]`,
    bignum.c 196-197.) -/
def Fields.view (r : Fields) : Out Mpi := if r.n = r.p.length then .ok ⟨r.neg, r.p⟩ else .ub

/-- The orders of the fields in the two copies. -/
structure Order where
  st : List Field
  ld : List Field

/-- `RR`, bignum.c 1598-1608. -/
def cacheProg (o : Order) (s : Slot) (N : Mpi) : Prog (Out Mpi) :=
  .read (.cache s .ptr) fun (p : List Nat) =>
    if p = [] then
      match freshRR N with
      | .ok R => do
        store s R o.st
        pure (.ok R)
      | .err e => pure (.err e)
      | .ub => pure .ub
    else do
      let r ← load s o.ld ⟨false, 0, []⟩
      pure r.view

/-- `mbedtls_mpi_exp_mod` with a shared cache, bignum.c 1547-1750; the last access is the test in line 1746. -/
def expProg (o : Order) (s : Slot) (X : Mpi) (A : Arg) (E N : Mpi) : Prog (Out Mpi) :=
  match expPre X A E N with
  | .ok t => do
    let R ← cacheProg o s N
    .read (.cache s .ptr) fun _ => pure (R >>= expPost E N t)
  | .err e => pure (.err e)
  | .ub => pure .ub

/-! ## The methods -/

/-- `TdpImpl_mbedTLS::eval(array)`, tdp_impl_mbedtls.cpp 170-229. -/
def evalProg (o : Order) (c : Ctx) (inp : Bytes) : Prog (Res Bytes) :=
  if msgSize ≠ c.len then pure (.exc .runtimeError)
  else
    match (do let x ← readBinary .null inp; modMpi x .self c.N : Out Mpi) with
    | .ok x => do
      let r ← expProg o .N x .self c.E c.N
      pure (match r with
        | .ok x => writeIgn x
        | .err _ => .exc .runtimeError
        | .ub => .ub)
    | .err _ => pure (.exc .runtimeError)
    | .ub => pure .ub

/-- The end of the Chinese remainder computation, rsa.c 497-505 and tdp_impl_mbedtls.cpp 615-628. -/
def crtEnd (c : Ctx) (dst T1 T2 : Mpi) : Out Mpi := do
  let T ← subMpi dst (.ext T1) (.ext T2)
  let X ← mulMpi T1 (.ext T) (.ext c.QP)
  let T ← modMpi T (.ext X) c.P
  let X ← mulMpi X (.ext T) (.ext c.Q)
  addMpi T (.ext T2) (.ext X)

/-- The Chinese remainder computation, rsa.c 491-505 and tdp_impl_mbedtls.cpp 609-628. -/
def crtProg (o : Order) (c : Ctx) (dst T DP DQ : Mpi) : Prog (Out Mpi) := do
  let a ← expProg o .P .null (.ext T) DP c.P
  match a with
  | .ok T1 => do
    let b ← expProg o .Q .null (.ext T) DQ c.Q
    pure (b >>= fun T2 => crtEnd c dst T1 T2)
  | .err e => pure (.err e)
  | .ub => pure .ub

/-- `TdpInverseImpl_mbedTLS::invert_mult(array)`, tdp_impl_mbedtls.cpp 551-697. -/
def multProg (o : Order) (v : Inv) (inp : Bytes) (order : Nat) : Prog (Res Bytes) :=
  if order = 0 then pure (.ok inp)
  else if msgSize ≠ v.ctx.len then pure (.exc .invalidArgument)
  else
    match (do let x ← readBinary .null inp; let d ← multExps v order; pure (x, d) : Out (Mpi × Mpi × Mpi)) with
    | .ok (x, d) => do
      let y ← crtProg o v.ctx .null x d.1 d.2
      pure (toRes .runtimeError (y >>= fun y => writeBinary y msgSize))
    | .err _ => pure (.exc .runtimeError)
    | .ub => pure .ub

/-- One of the four calls in lines 330-333 of rsa.c: the new value of `Vi` or `Vf` computed from the old one. -/
def updateProg (l : Loc) (get : Val l → Mpi) (put : Mpi → Val l) (f : Mpi → Out Mpi) (k : Prog (Out Bytes)) : Prog (Out Bytes) :=
  .read l fun v =>
    match f (get v) with
    | .ok x => .write l (put x) k
    | .err e => .ret (.err e)
    | .ub => .ret .ub

/-- The blinded base and the blinded exponents, rsa.c 437-476. -/
def blindPre (g : Rng) (c : Ctx) (i : Nat) (T vi : Mpi) : Out (Mpi × Mpi × Mpi) := do
  let T ← mulMpi T .self (.ext vi)
  let T ← modMpi T .self c.N
  let P1 ← subInt .null (.ext c.P) 1
  let Q1 ← subInt .null (.ext c.Q) 1
  let R ← (fillRandom g .null 28 i).1
  let X ← mulMpi .null (.ext P1) (.ext R)
  let X ← addMpi X .self (.ext c.DP)
  let S ← (fillRandom g R 28 (fillRandom g .null 28 i).2).1
  let Y ← mulMpi .null (.ext Q1) (.ext S)
  let Y ← addMpi Y .self (.ext c.DQ)
  pure (T, X, Y)

/-- Unblinding and the result, rsa.c 512-519. -/
def blindEnd (c : Ctx) (T vf : Mpi) : Out Bytes := do
  let T ← mulMpi T .self (.ext vf)
  let T ← modMpi T .self c.N
  writeBinary T c.len

/-- `mbedtls_rsa_private` from line 437 on, as `blindedPrivate`; `Vi` and `Vf` are read where the code reads them. -/
def blindedProg (o : Order) (g : Rng) (c : Ctx) (i : Nat) (T : Mpi) : Prog (Out Bytes) :=
  .read .vi fun vi =>
    match blindPre g c i T vi with
    | .err e => .ret (.err e)
    | .ub => .ret .ub
    | .ok t => do
      let T ← crtProg o c t.1 t.1 t.2.1 t.2.2
      .read .vf fun vf => .ret (T >>= fun T => blindEnd c T vf)

/-- `mbedtls_rsa_private`, rsa.c 380-557, on an object whose blinding values are there; `i` is the state of the thread's random numbers. -/
def privProg (o : Order) (g : Rng) (c : Ctx) (i : Nat) (input : Bytes) : Prog (Out Bytes) :=
  if c.P.p = [] ∨ c.Q.p = [] ∨ c.D.p = [] then .ret (.err .badInput)
  else
    match readBinary .null input with
    | .err e => .ret (.err e)
    | .ub => .ret .ub
    | .ok T =>
      if cmpMpi T c.N ≥ 0 then .ret (.err .badInput)
      else
        updateProg .vi id id (fun x => mulMpi x .self .self) <|
        updateProg .vi id id (fun x => modMpi x .self c.N) <|
        updateProg .vf id id (fun x => mulMpi x .self .self) <|
        updateProg .vf id id (fun x => modMpi x .self c.N) <|
        blindedProg o g c i T

/-- `TdpInverseImpl_mbedTLS::invert(array)`, tdp_impl_mbedtls.cpp 498-513, on an object whose blinding values are there. -/
def invertProg (o : Order) (g : Rng) (c : Ctx) (i : Nat) (inp : Bytes) : Prog (Res Bytes) :=
  if c.P.p = [] ∨ c.Q.p = [] ∨ c.D.p = [] then .ret (.exc .invalidArgument)
  else if c.len > inp.length then .ret .ub
  else do
    let r ← privProg o g c i (inp.take c.len)
    .ret (match r with
      | .err _ => .exc .invalidArgument
      | .ub => .ub
      | .ok b => if b.length = msgSize then .ok b else .ub)

/-! ## The memory of an object -/

def slot (c : Ctx) : Slot → Mpi
  | .N => c.RN
  | .P => c.RP
  | .Q => c.RQ

/-- The mutable members of a context. -/
def Mem.of (c : Ctx) : Mem := ⟨fun s => (slot c s).neg, fun s => (slot c s).p.length, fun s => (slot c s).p, c.Vi, c.Vf⟩

end Verif.Rsa.Threads
