/-
The life of the storage of big integers: a small language.

Every function of `src/mbedtls/bignum.c`, `src/mbedtls/rsa.c`, `src/mbedtls/rsa_io.c` and
`src/tdp_impl/tdp_impl_mbedtls.cpp` that owns big integers is written (in `Heap/Bignum.lean`,
`Heap/Rsa.lean`, `Heap/Tdp.lean`) as a program of this language.  A program keeps

* which integers are declared, initialised, grown, swapped, copied as structures, freed,
* every `goto cleanup`, every early `return`, every ignored return code, every exception,
* that every allocation can fail,

and forgets the values: the outcome of every test that is not a test of a pointer, the number of
iterations of every loop, the sizes asked for and the words written are arbitrary.  So a program has
all the executions of the function, and more.

The heap is a list of blocks; an address is never used twice.  Words are kept, so that one can say
what is left in a block when it is released.
-/
namespace Verif.Heap

/-- `mbedtls_mpi` (`src/mbedtls/bignum.h` 175-181) without the sign: number of limbs, address of the
limbs. -/
structure Mpi where
  n : Nat
  p : Option Nat
deriving DecidableEq, Repr

/-- The state after `mbedtls_mpi_init`: `n = 0`, `p = NULL`. -/
def Mpi.null : Mpi := ⟨0, none⟩

/-- A block of the heap. -/
structure Blk where
  size : Nat
  live : Bool
  data : Nat → Nat

/-- Variables (integers in scope are the variables below `nv`; `none` is an uninitialised structure)
and the heap (blocks that have been allocated so far are those below `nh`). -/
structure St where
  vars : Nat → Option Mpi
  nv : Nat
  heap : Nat → Blk
  nh : Nat

/-- `MBEDTLS_MPI_MAX_LIMBS`, `src/mbedtls/bignum.h` 49. -/
def maxLimbs : Nat := 10000

/-- How a command ends.  `err`: with an error code (or an exception), on the way to the clean-up;
`ret b`: by a `return` (or `throw`) that skips the clean-up, with an error iff `b`; `ub`: undefined
behaviour (use of an uninitialised structure, of a released block, double release, access beyond a block). -/
inductive Out where
  | ok
  | err
  | ret (b : Bool)
  | ub
deriving DecidableEq, Repr

def St.setVar (σ : St) (x : Nat) (m : Option Mpi) : St :=
  { σ with vars := fun y => if y = x then m else σ.vars y }

def St.setBlk (σ : St) (a : Nat) (b : Blk) : St :=
  { σ with heap := fun c => if c = a then b else σ.heap c }

/-- The structure `x`, if it is in scope and initialised. -/
def St.look (σ : St) (x : Nat) : Option Mpi := if x < σ.nv then σ.vars x else none

/-- The first `n` words at `a` may be accessed. -/
def St.acc (σ : St) (a n : Nat) : Bool :=
  decide (a < σ.nh) && (σ.heap a).live && decide (n ≤ (σ.heap a).size)

/-- `calloc( n, ciL )`, when it succeeds. -/
def St.alloc (σ : St) (n : Nat) : St :=
  { σ with heap := fun c => if c = σ.nh then ⟨n, true, fun _ => 0⟩ else σ.heap c, nh := σ.nh + 1 }

/-- `mbedtls_mpi_zeroize`, `src/mbedtls/bignum.c` 63-65. -/
def St.wipe (σ : St) (a n : Nat) : St :=
  σ.setBlk a { σ.heap a with data := fun j => if j < n then 0 else (σ.heap a).data j }

/-- `free`. -/
def St.release (σ : St) (a : Nat) : St := σ.setBlk a { σ.heap a with live := false }

/-- Arbitrary choices made by a primitive operation: requested size, position of the top limb, whether
an allocation succeeds, words that are written. -/
structure Ch where
  nb : Nat := 1
  i : Nat := 1
  alloc : Bool := true
  w : Nat → Nat := fun _ => 1

/-- Operations on the structures and their blocks. -/
inductive Prim where
  | init (x : Nat)
  | undef (x : Nat)
  | free (x : Nat)
  | rawFree (x : Nat)
  | grow (x : Nat)
  | shrink (x : Nat)
  | set (x : Nat)
  | get (x : Nat)
  | swap (x y : Nat)
  | alias (x y : Nat)
deriving DecidableEq, Repr

/-- `mbedtls_mpi_init`, `src/mbedtls/bignum.c` 83-91. -/
def initP (σ : St) (x : Nat) : Out × St :=
  if x < σ.nv then (.ok, σ.setVar x (some .null)) else (.ub, σ)

/-- Fresh storage for a structure (`new mbedtls_rsa_context[..]` does not initialise). -/
def undefP (σ : St) (x : Nat) : Out × St :=
  if x < σ.nv then (.ok, σ.setVar x none) else (.ub, σ)

/-- `mbedtls_mpi_free`, `src/mbedtls/bignum.c` 96-110. -/
def freeP (σ : St) (x : Nat) : Out × St :=
  match σ.look x with
  | none => (.ub, σ)
  | some m =>
    match m.p with
    | none => (.ok, σ.setVar x (some .null))
    | some a =>
      if σ.acc a m.n then (.ok, ((σ.wipe a m.n).release a).setVar x (some .null)) else (.ub, σ)

/-- `free` of a buffer that is not an integer (`mbedtls_pem_free`, `src/mbedtls/pem.c` 124-130): the
contents are not erased. -/
def rawFreeP (σ : St) (x : Nat) : Out × St :=
  match σ.look x with
  | none => (.ub, σ)
  | some m =>
    match m.p with
    | none => (.ok, σ.setVar x (some .null))
    | some a => if σ.acc a 0 then (.ok, (σ.release a).setVar x (some .null)) else (.ub, σ)

/-- A new block of `k` words that starts with the first `c` words of the block of `x`, in place of the block
of `x`, which is erased and released; `src/mbedtls/bignum.c` 124-135, 163-174. -/
def replace (σ : St) (x : Nat) (m : Mpi) (k c : Nat) : Out × St :=
  match m.p with
  | none => (.ok, (σ.alloc k).setVar x (some ⟨k, some σ.nh⟩))
  | some a =>
    if σ.acc a m.n && σ.acc a c then
      let σ1 := (σ.alloc k).setBlk σ.nh ⟨k, true, fun j => if j < c then (σ.heap a).data j else 0⟩
      (.ok, ((σ1.wipe a m.n).release a).setVar x (some ⟨k, some σ.nh⟩))
    else (.ub, σ)

/-- `mbedtls_mpi_grow`, `src/mbedtls/bignum.c` 115-139. -/
def growP (σ : St) (x nb : Nat) (al : Bool) : Out × St :=
  match σ.look x with
  | none => (.ub, σ)
  | some m =>
    if maxLimbs < nb then (.err, σ)
    else if m.n < nb then
      if al then replace σ x m nb m.n else (.err, σ)
    else (.ok, σ)

/-- `mbedtls_mpi_shrink`, `src/mbedtls/bignum.c` 146-177; `i` is the number of limbs up to the highest
that is not 0 (`1 ≤ i ≤ n`). -/
def shrinkP (σ : St) (x nb i : Nat) (al : Bool) : Out × St :=
  match σ.look x with
  | none => (.ub, σ)
  | some m =>
    if m.n ≤ nb then growP σ x nb al
    else
      match m.p with
      | none => (.ub, σ)
      | some _ =>
        if al then replace σ x m (max (max 1 (min i m.n)) nb) (max (max 1 (min i m.n)) nb) else (.err, σ)

/-- Words are written to the limbs of `x`. -/
def setP (σ : St) (x : Nat) (w : Nat → Nat) : Out × St :=
  match σ.look x with
  | none => (.ub, σ)
  | some m =>
    match m.p with
    | none => if m.n = 0 then (.ok, σ) else (.ub, σ)
    | some a =>
      if σ.acc a m.n then
        (.ok, σ.setBlk a { σ.heap a with data := fun j => if j < m.n then w j else (σ.heap a).data j })
      else (.ub, σ)

/-- The limbs of `x` are read. -/
def getP (σ : St) (x : Nat) : Out × St :=
  match σ.look x with
  | none => (.ub, σ)
  | some m =>
    match m.p with
    | none => if m.n = 0 then (.ok, σ) else (.ub, σ)
    | some a => if σ.acc a m.n then (.ok, σ) else (.ub, σ)

/-- `mbedtls_mpi_swap`, `src/mbedtls/bignum.c` 216-223. -/
def swapP (σ : St) (x y : Nat) : Out × St :=
  match σ.look x, σ.look y with
  | some m, some m' => (.ok, (σ.setVar x (some m')).setVar y (some m))
  | _, _ => (.ub, σ)

/-- `memcpy( X, Y, sizeof( mbedtls_mpi ) )`, `src/mbedtls/bignum.c` 1605, 1608. -/
def aliasP (σ : St) (x y : Nat) : Out × St :=
  match σ.look y with
  | some m => if x < σ.nv then (.ok, σ.setVar x (some m)) else (.ub, σ)
  | none => (.ub, σ)

def step (σ : St) (ch : Ch) : Prim → Out × St
  | .init x => initP σ x
  | .undef x => undefP σ x
  | .free x => freeP σ x
  | .rawFree x => rawFreeP σ x
  | .grow x => growP σ x ch.nb ch.alloc
  | .shrink x => shrinkP σ x ch.nb ch.i ch.alloc
  | .set x => setP σ x ch.w
  | .get x => getP σ x
  | .swap x y => swapP σ x y
  | .alias x y => aliasP σ x y

/-- Programs. -/
inductive Cmd where
  /-- an operation on a structure -/
  | prim (p : Prim)
  | skip
  /-- `ret = ...; goto cleanup` -/
  | fail
  /-- `return` that skips the clean-up (`b`: with an error); `throw` -/
  | ret (b : Bool)
  | seq (c d : Cmd)
  /-- a test whose outcome depends on values -/
  | alt (c d : Cmd)
  /-- any number of iterations -/
  | loop (c : Cmd)
  /-- `if( X->p == NULL ) c else d` -/
  | ifNull (x : Nat) (c d : Cmd)
  /-- `c`, then `h` if it succeeded, and `g` if it failed (the failure stays) -/
  | onEnd (c h g : Cmd)
  /-- the return code of `c` is not looked at -/
  | ign (c : Cmd)
  /-- body of a function -/
  | fn (c : Cmd)
  /-- `k` local structures, not initialised; `f` is applied to the number of the first -/
  | locals (k : Nat) (f : Nat → Cmd)

/-- Entering a scope with `k` structures. -/
def St.push (σ : St) (k : Nat) : St :=
  { σ with vars := fun y => if σ.nv ≤ y ∧ y < σ.nv + k then none else σ.vars y, nv := σ.nv + k }

/-- Leaving it. -/
def St.pop (σ : St) (nv : Nat) : St := { σ with nv := nv }

/-- What the handler of a failure leaves: the failure. -/
def Out.afterFail : Out → Out
  | .ok => .err
  | o => o

def Out.ignore : Out → Out
  | .err => .ok
  | o => o

def Out.leave : Out → Out
  | .ret false => .ok
  | .ret true => .err
  | o => o

/-- The executions of a program. -/
inductive Run : Cmd → St → Out → St → Prop where
  | prim (ch : Ch) (h : step σ ch p = (o, σ')) : Run (.prim p) σ o σ'
  | skip : Run .skip σ .ok σ
  | fail : Run .fail σ .err σ
  | ret : Run (.ret b) σ (.ret b) σ
  | seqOk (h : Run c σ .ok σ1) (h' : Run d σ1 o σ') : Run (.seq c d) σ o σ'
  | seqStop (h : Run c σ o σ') (ho : o ≠ .ok) : Run (.seq c d) σ o σ'
  | altL (h : Run c σ o σ') : Run (.alt c d) σ o σ'
  | altR (h : Run d σ o σ') : Run (.alt c d) σ o σ'
  | loopEnd : Run (.loop c) σ .ok σ
  | loopGo (h : Run c σ .ok σ1) (h' : Run (.loop c) σ1 o σ') : Run (.loop c) σ o σ'
  | loopStop (h : Run c σ o σ') (ho : o ≠ .ok) : Run (.loop c) σ o σ'
  | ifNullT (hx : σ.look x = some m) (hp : m.p = none) (h : Run c σ o σ') : Run (.ifNull x c d) σ o σ'
  | ifNullF (hx : σ.look x = some m) (hp : m.p = some a) (h : Run d σ o σ') : Run (.ifNull x c d) σ o σ'
  | ifNullU (hx : σ.look x = none) : Run (.ifNull x c d) σ .ub σ
  | endOk (h : Run c σ .ok σ1) (h' : Run d σ1 o σ') : Run (.onEnd c d g) σ o σ'
  | endErr (h : Run c σ .err σ1) (h' : Run g σ1 o σ') : Run (.onEnd c d g) σ o.afterFail σ'
  | endStop (h : Run c σ o σ') (h1 : o ≠ .ok) (h2 : o ≠ .err) : Run (.onEnd c d g) σ o σ'
  | ign (h : Run c σ o σ') : Run (.ign c) σ o.ignore σ'
  | fn (h : Run c σ o σ') : Run (.fn c) σ o.leave σ'
  | locals (h : Run (f σ.nv) (σ.push k) o σ') : Run (.locals k f) σ o (σ'.pop σ.nv)

/-! Notation for programs -/

scoped infixr:60 " ;; " => Cmd.seq

def init (x : Nat) : Cmd := .prim (.init x)
def undef (x : Nat) : Cmd := .prim (.undef x)
def free (x : Nat) : Cmd := .prim (.free x)
def rawFree (x : Nat) : Cmd := .prim (.rawFree x)
def grow (x : Nat) : Cmd := .prim (.grow x)
def shrink (x : Nat) : Cmd := .prim (.shrink x)
def setW (x : Nat) : Cmd := .prim (.set x)
def get (x : Nat) : Cmd := .prim (.get x)
def swap (x y : Nat) : Cmd := .prim (.swap x y)
def alias (x y : Nat) : Cmd := .prim (.alias x y)

/-- A list of commands, one after the other. -/
def seqL : List Cmd → Cmd
  | [] => .skip
  | c :: cs => .seq c (seqL cs)

/-- One of a list of commands. -/
def altL : List Cmd → Cmd
  | [] => .skip
  | [c] => c
  | c :: cs => .alt c (altL cs)

/-- A command may or may not be run. -/
def opt (c : Cmd) : Cmd := .alt c .skip

/-- A failure may occur here. -/
def mayFail : Cmd := .alt .fail .skip

def initAll (xs : List Nat) : Cmd := seqL (xs.map init)
def freeAll (xs : List Nat) : Cmd := seqL (xs.map free)

/-- `c; cleanup: h` -/
def cleanup (c h : Cmd) : Cmd := .onEnd c h h

/-! An interpreter, for examples: the choices are taken from a list. -/

/-- How a number is read as the choice of a primitive operation: 1 is a failing allocation, `k + 2` asks for
`k + 1` limbs. -/
def chOf (v : Nat) : Ch := { nb := if v ≤ 1 then 1 else v - 1, alloc := decide (v ≠ 1) }

def hd (ch : List Nat) : Nat := ch.headD 0

def exec : Nat → Cmd → St → List Nat → Option (Out × St × List Nat)
  | 0, _, _, _ => none
  | fu + 1, c, σ, ch =>
    match c with
    | .prim p => let r := step σ (chOf (hd ch)) p; some (r.1, r.2, match p with
        | .grow _ => ch.tail
        | .shrink _ => ch.tail
        | _ => ch)
    | .skip => some (.ok, σ, ch)
    | .fail => some (.err, σ, ch)
    | .ret b => some (.ret b, σ, ch)
    | .seq c d =>
      match exec fu c σ ch with
      | none => none
      | some (o, σ1, ch1) => if o = .ok then exec fu d σ1 ch1 else some (o, σ1, ch1)
    | .alt c d => if hd ch = 0 then exec fu c σ ch.tail else exec fu d σ ch.tail
    | .loop c =>
      if hd ch = 0 then some (.ok, σ, ch.tail)
      else
        match exec fu c σ ch.tail with
        | none => none
        | some (o, σ1, ch1) => if o = .ok then exec fu (.loop c) σ1 ch1 else some (o, σ1, ch1)
    | .ifNull x c d =>
      match σ.look x with
      | none => some (.ub, σ, ch)
      | some m => match m.p with
        | none => exec fu c σ ch
        | some _ => exec fu d σ ch
    | .onEnd c d g =>
      match exec fu c σ ch with
      | none => none
      | some (o, σ1, ch1) =>
        if o = .ok then exec fu d σ1 ch1
        else if o = .err then
          match exec fu g σ1 ch1 with
          | none => none
          | some (o2, σ2, ch2) => some (o2.afterFail, σ2, ch2)
        else some (o, σ1, ch1)
    | .ign c => match exec fu c σ ch with
      | none => none
      | some (o, σ1, ch1) => some (o.ignore, σ1, ch1)
    | .fn c => match exec fu c σ ch with
      | none => none
      | some (o, σ1, ch1) => some (o.leave, σ1, ch1)
    | .locals k f => match exec fu (f σ.nv) (σ.push k) ch with
      | none => none
      | some (o, σ1, ch1) => some (o, σ1.pop σ.nv, ch1)

theorem exec_sound : ∀ (fu : Nat) (c : Cmd) (σ : St) (ch : List Nat) (o : Out) (σ' : St) (ch' : List Nat),
    exec fu c σ ch = some (o, σ', ch') → Run c σ o σ' := by
  intro fu
  induction fu with
  | zero => intro c σ ch o σ' ch' h; simp [exec] at h
  | succ fu ih =>
    intro c σ ch o σ' ch' h
    cases c with
    | prim p =>
      simp only [exec, Option.some.injEq, Prod.mk.injEq] at h
      exact Run.prim (chOf (hd ch)) (Prod.ext h.1 h.2.1)
    | skip => simp only [exec, Option.some.injEq, Prod.mk.injEq] at h; obtain ⟨rfl, rfl, _⟩ := h; exact .skip
    | fail => simp only [exec, Option.some.injEq, Prod.mk.injEq] at h; obtain ⟨rfl, rfl, _⟩ := h; exact .fail
    | ret b => simp only [exec, Option.some.injEq, Prod.mk.injEq] at h; obtain ⟨rfl, rfl, _⟩ := h; exact .ret
    | seq c d =>
      simp only [exec] at h
      cases h1 : exec fu c σ ch with
      | none => simp [h1] at h
      | some r =>
        obtain ⟨o1, σ1, ch1⟩ := r
        simp only [h1] at h
        by_cases ho : o1 = .ok
        · subst ho
          simp only [if_pos] at h
          exact .seqOk (ih _ _ _ _ _ _ h1) (ih _ _ _ _ _ _ h)
        · simp only [if_neg ho, Option.some.injEq, Prod.mk.injEq] at h
          obtain ⟨rfl, rfl, _⟩ := h
          exact .seqStop (ih _ _ _ _ _ _ h1) ho
    | alt c d =>
      simp only [exec] at h
      split at h
      · exact .altL (ih _ _ _ _ _ _ h)
      · exact .altR (ih _ _ _ _ _ _ h)
    | loop c =>
      simp only [exec] at h
      split at h
      · simp only [Option.some.injEq, Prod.mk.injEq] at h; obtain ⟨rfl, rfl, _⟩ := h; exact .loopEnd
      · cases h1 : exec fu c σ ch.tail with
        | none => simp [h1] at h
        | some r =>
          obtain ⟨o1, σ1, ch1⟩ := r
          simp only [h1] at h
          by_cases ho : o1 = .ok
          · subst ho
            simp only [if_pos] at h
            exact .loopGo (ih _ _ _ _ _ _ h1) (ih _ _ _ _ _ _ h)
          · simp only [if_neg ho, Option.some.injEq, Prod.mk.injEq] at h
            obtain ⟨rfl, rfl, _⟩ := h
            exact .loopStop (ih _ _ _ _ _ _ h1) ho
    | ifNull x c d =>
      simp only [exec] at h
      cases hx : σ.look x with
      | none =>
        simp only [hx, Option.some.injEq, Prod.mk.injEq] at h
        obtain ⟨rfl, rfl, _⟩ := h
        exact .ifNullU hx
      | some m =>
        simp only [hx] at h
        cases hp : m.p with
        | none => simp only [hp] at h; exact .ifNullT hx hp (ih _ _ _ _ _ _ h)
        | some a => simp only [hp] at h; exact .ifNullF hx hp (ih _ _ _ _ _ _ h)
    | onEnd c d g =>
      simp only [exec] at h
      cases h1 : exec fu c σ ch with
      | none => simp [h1] at h
      | some r =>
        obtain ⟨o1, σ1, ch1⟩ := r
        simp only [h1] at h
        by_cases ho : o1 = .ok
        · subst ho
          simp only [if_pos] at h
          exact .endOk (ih _ _ _ _ _ _ h1) (ih _ _ _ _ _ _ h)
        · simp only [if_neg ho] at h
          by_cases he : o1 = .err
          · subst he
            simp only [if_pos] at h
            cases h2 : exec fu g σ1 ch1 with
            | none => simp [h2] at h
            | some r2 =>
              obtain ⟨o2, σ2, ch2⟩ := r2
              simp only [h2, Option.some.injEq, Prod.mk.injEq] at h
              obtain ⟨rfl, rfl, _⟩ := h
              exact .endErr (ih _ _ _ _ _ _ h1) (ih _ _ _ _ _ _ h2)
          · simp only [if_neg he, Option.some.injEq, Prod.mk.injEq] at h
            obtain ⟨rfl, rfl, _⟩ := h
            exact .endStop (ih _ _ _ _ _ _ h1) ho he
    | ign c =>
      simp only [exec] at h
      cases h1 : exec fu c σ ch with
      | none => simp [h1] at h
      | some r =>
        obtain ⟨o1, σ1, ch1⟩ := r
        simp only [h1, Option.some.injEq, Prod.mk.injEq] at h
        obtain ⟨rfl, rfl, _⟩ := h
        exact .ign (ih _ _ _ _ _ _ h1)
    | fn c =>
      simp only [exec] at h
      cases h1 : exec fu c σ ch with
      | none => simp [h1] at h
      | some r =>
        obtain ⟨o1, σ1, ch1⟩ := r
        simp only [h1, Option.some.injEq, Prod.mk.injEq] at h
        obtain ⟨rfl, rfl, _⟩ := h
        exact .fn (ih _ _ _ _ _ _ h1)
    | locals k f =>
      simp only [exec] at h
      cases h1 : exec fu (f σ.nv) (σ.push k) ch with
      | none => simp [h1] at h
      | some r =>
        obtain ⟨o1, σ1, ch1⟩ := r
        simp only [h1, Option.some.injEq, Prod.mk.injEq] at h
        obtain ⟨rfl, rfl, _⟩ := h
        exact .locals (ih _ _ _ _ _ _ h1)

end Verif.Heap
