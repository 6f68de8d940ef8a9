import Verif.Basic

/-!
# Starting and stopping the library

`init_crypto_lib`, `cleanup_crypto_lib` and the lock callbacks given to OpenSSL (`src/utils.cpp` 32-234), `relicxx::relicResourceHandle`
and `error_if_relic_not_init` (`relic_api.cpp` 16-26, 653-686), `Prp::compute_is_available` (`prp.cpp` 42-58).

Objects on the heap are entries of a list and pointers are positions in it; a released object stays as `none`, so that an access through an
old pointer is undefined behaviour and not an access to another object. RELIC is a table of contexts (`core_ctx`), one for each thread if
it was built with `MULTI` (as README.md line 51 asks) and one for all otherwise: `Env.slot`. Of OpenSSL 1.0: a callback is called when it
is set, and nothing is locked when it is not. The five callbacks are set and reset together, `State.cb` stands for all of them.
-/

namespace Verif.Lib

abbrev Thread := Nat

/-- What does not change while a program runs. -/
structure Env where
  /-- `WITH_OPENSSL` -/
  ssl : Bool
  /-- `CRYPTO_num_locks()` -/
  locks : Nat
  /-- The RELIC context of a thread. -/
  slot : Thread → Nat
  /-- `sodium_runtime_has_aesni() == 1 || sodium_runtime_has_neon() == 1` -/
  aes : Bool

/-- A RELIC context: absent (`core_get()` is null), made by `core_init`, with curve parameters. -/
inductive Core where
  | off
  | bare
  | ready
  deriving DecidableEq, Repr

/-- Which of the calls in `init_crypto_lib` that can fail succeed. -/
structure Luck where
  malloc : Bool
  new : Bool
  coreInit : Bool
  params : Bool
  sodium : Bool
  deriving DecidableEq, Repr

/-- Who holds each mutex of an array. -/
abbrev Mutexes := Nat → Option Thread

structure State where
  core : Nat → Core
  /-- The `relicResourceHandle` objects with their `isInit`. -/
  handles : List (Option Bool)
  /-- `g_relic_handle_` -/
  handle : Option Nat
  /-- The arrays of mutexes. -/
  bufs : List (Option Mutexes)
  /-- `mutex_buf` -/
  buf : Option Nat
  cb : Bool
  /-- The dynamic locks (`CRYPTO_dynlock_value`) with their holders. -/
  dyn : List (Option (Option Thread))
  /-- `sodium_init` has succeeded. -/
  sodium : Bool
  misuse : Bool
  /-- `Prp::is_available__` -/
  avail : Bool

/-- At the start of a program. -/
def start : State := ⟨fun _ => .off, [], none, [], none, false, [], false, false, false⟩

/-- Outcome of a call: the state after it returned or threw, no progress (a mutex that is held), undefined behaviour. -/
inductive Out where
  | ret (s : State)
  | thrown (s : State)
  | blocked (s : State)
  | ub

def put (f : Nat → Core) (i : Nat) (c : Core) : Nat → Core := fun j => if j = i then c else f j

/-- `init_locks`, utils.cpp 150-175. (The result is ignored by the caller.) -/
def initLocks (e : Env) (l : Luck) (s : State) : State :=
  if !e.ssl then s
  else if !l.malloc then { s with buf := none }
  else { s with bufs := s.bufs ++ [some fun _ => none], buf := some s.bufs.length, cb := true }

/-- `relicResourceHandle::relicResourceHandle`, relic_api.cpp 653-676: the contexts afterwards and `isInit`, or none if it throws. -/
def mkHandle (e : Env) (l : Luck) (t : Thread) (allow : Bool) (core : Nat → Core) : (Nat → Core) × Option Bool :=
  if core (e.slot t) ≠ .off then
    if allow then (core, some false) else (core, none)
  else if !l.coreInit then (core, none)
  else if !l.params then (put core (e.slot t) .bare, none)
  else (put core (e.slot t) .ready, some true)

/-- The part of `init_crypto_lib` after RELIC, utils.cpp 218-225. -/
def initSodium (e : Env) (l : Luck) (s : State) : Out :=
  if !l.sodium then .thrown s
  else .ret { s with sodium := true, misuse := true, avail := e.aes }

/-- `init_crypto_lib`, utils.cpp 212-226. -/
def init (e : Env) (l : Luck) (t : Thread) (s0 : State) : Out :=
  let s := initLocks e l s0
  if !l.new then .thrown s
  else match mkHandle e l t true s.core with
    | (c, none) => .thrown { s with core := c }
    | (c, some own) => initSodium e l { s with core := c, handles := s.handles ++ [some own], handle := some s.handles.length }

/-- `relicResourceHandle::~relicResourceHandle` and the release, utils.cpp 230-231. -/
def dropHandle (e : Env) (t : Thread) (s : State) : Option State :=
  match s.handle with
  | none => some s
  | some p =>
    match s.handles[p]? with
    | some (some own) =>
      some { s with core := if own then put s.core (e.slot t) .off else s.core, handles := s.handles.set p none, handle := none }
    | _ => none

/-- `pthread_mutex_destroy` on every mutex of an array: undefined for one that is held. -/
def destroyable : Nat → Mutexes → Bool
  | 0, _ => true
  | n + 1, m => destroyable n m && (m n).isNone

/-- `kill_locks`, utils.cpp 177-203. -/
def killLocks (e : Env) (s : State) : Option State :=
  if !e.ssl then some s
  else match s.buf with
    | none => some s
    | some p =>
      match s.bufs[p]? with
      | some (some m) =>
        if destroyable e.locks m then some { s with cb := false, bufs := s.bufs.set p none, buf := none } else none
      | _ => none

/-- `cleanup_crypto_lib`, utils.cpp 228-234. -/
def cleanup (e : Env) (t : Thread) (s : State) : Out :=
  match dropHandle e t s with
  | none => .ub
  | some s1 => match killLocks e s1 with
    | none => .ub
    | some s2 => .ret s2

/-- `locking_function` with `CRYPTO_LOCK`, utils.cpp 50-60, called by OpenSSL for lock `n`. -/
def lock (e : Env) (t : Thread) (n : Nat) (s : State) : Out :=
  if !s.cb then .ret s
  else match s.buf with
    | none => .ub
    | some p =>
      match s.bufs[p]? with
      | some (some m) =>
        if ¬ n < e.locks then .ub
        else if (m n).isSome then .blocked s
        else .ret { s with bufs := s.bufs.set p (some fun k => if k = n then some t else m k) }
      | _ => .ub

/-- `locking_function` without `CRYPTO_LOCK`. Unlocking a mutex that the thread does not hold is undefined. -/
def unlock (e : Env) (t : Thread) (n : Nat) (s : State) : Out :=
  if !s.cb then .ret s
  else match s.buf with
    | none => .ub
    | some p =>
      match s.bufs[p]? with
      | some (some m) =>
        if ¬ n < e.locks then .ub
        else if m n ≠ some t then .ub
        else .ret { s with bufs := s.bufs.set p (some fun k => if k = n then none else m k) }
      | _ => .ub

/-- `dyn_create_function`, utils.cpp 85-102: the new lock is the last of the list. -/
def dynCreate (malloc : Bool) (s : State) : Out :=
  if !s.cb || !malloc then .ret s else .ret { s with dyn := s.dyn ++ [some none] }

/-- `dyn_lock_function` with `CRYPTO_LOCK`, utils.cpp 112-122. -/
def dynLock (t : Thread) (p : Nat) (s : State) : Out :=
  if !s.cb then .ret s
  else match s.dyn[p]? with
    | some (some none) => .ret { s with dyn := s.dyn.set p (some (some t)) }
    | some (some (some _)) => .blocked s
    | _ => .ub

/-- `dyn_lock_function` without `CRYPTO_LOCK`. -/
def dynUnlock (t : Thread) (p : Nat) (s : State) : Out :=
  if !s.cb then .ret s
  else match s.dyn[p]? with
    | some (some (some u)) => if u = t then .ret { s with dyn := s.dyn.set p (some none) } else .ub
    | _ => .ub

/-- `dyn_destroy_function`, utils.cpp 132-138. -/
def dynDestroy (p : Nat) (s : State) : Out :=
  if !s.cb then .ret s
  else match s.dyn[p]? with
    | some (some none) => .ret { s with dyn := s.dyn.set p none }
    | _ => .ub

/-- What a thread sees when it constructs a `ZR`, `G1`, `G2`, `GT` or `PairingGroup` (`error_if_relic_not_init`, relic_api.cpp 16-26). -/
inductive Pairing where
  | error
  | unset
  | ready
  deriving DecidableEq, Repr

def pairing (e : Env) (t : Thread) (s : State) : Pairing :=
  match s.core (e.slot t) with
  | .off => .error
  | .bare => .unset
  | .ready => .ready

/-- What threads do. -/
inductive Ev where
  | init (t : Thread) (l : Luck)
  | cleanup (t : Thread)
  | lock (t : Thread) (n : Nat)
  | unlock (t : Thread) (n : Nat)
  | dynCreate (malloc : Bool)
  | dynLock (t : Thread) (p : Nat)
  | dynUnlock (t : Thread) (p : Nat)
  | dynDestroy (p : Nat)

def step (e : Env) : Ev → State → Out
  | .init t l, s => init e l t s
  | .cleanup t, s => cleanup e t s
  | .lock t n, s => lock e t n s
  | .unlock t n, s => unlock e t n s
  | .dynCreate m, s => dynCreate m s
  | .dynLock t p, s => dynLock t p s
  | .dynUnlock t p, s => dynUnlock t p s
  | .dynDestroy p, s => dynDestroy p s

/-- The state after a history: exceptions are caught by the caller, a call that finds a mutex held leaves the state as it is (it will be
tried again), undefined behaviour ends everything. -/
def run (e : Env) : List Ev → State → Option State
  | [], s => some s
  | a :: h, s =>
    match step e a s with
    | .ret s' | .thrown s' | .blocked s' => run e h s'
    | .ub => none

end Verif.Lib
