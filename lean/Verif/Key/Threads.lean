import Verif.Key.Model

/-!
# C77: threads that share a key, access by access

`Key::lock` and `Key::unlock` are `const`, and change the mutable member `is_locked_` and the protection of the content (key.hpp 284-321).  Here a method that
uses a key is the sequence of its accesses to the flag, the protection and the content, between which other threads may run.  `Verif/Key/AtRest.lean` takes
`lock()` and `unlock()` as one step each.  Memory is sequentially consistent; a read of content that is not accessible ends the process.
-/

namespace Verif.Key.Threads

open Verif

/-! ## Model -/

/-- The protection of the content and `is_locked_`. -/
structure Mem where
  prot : Prot
  flag : Bool
  deriving DecidableEq

/-- A thread: a result, or an access and what follows. -/
inductive Prog
  | ret (a : Res Bytes)
  | readFlag (k : Bool → Prog)
  | writeFlag (b : Bool) (k : Prog)
  | protect (p : Prot) (k : Prog)
  | use (k : Bytes → Prog)

/-- A process: the content of the key does not change. -/
structure Cfg where
  mem : Mem
  fault : Bool
  threads : List Prog

/-- Thread `i` makes its next access. -/
def Cfg.step (d : Bytes) (x : Cfg) (i : Nat) : Cfg :=
  if x.fault then x
  else match x.threads[i]? with
    | some (.readFlag k) => { x with threads := x.threads.set i (k x.mem.flag) }
    | some (.writeFlag b k) => { x with mem := { x.mem with flag := b }, threads := x.threads.set i k }
    | some (.protect p k) => { x with mem := { x.mem with prot := p }, threads := x.threads.set i k }
    | some (.use k) => if x.mem.prot = .noaccess then { x with fault := true } else { x with threads := x.threads.set i (k d) }
    | _ => x

/-- An interleaving. -/
def Cfg.exec (d : Bytes) (x : Cfg) (sched : List Nat) : Cfg := sched.foldl (Cfg.step d) x

/-- `Key::unlock`, key.hpp 307-321 (the content is there); `ml`: `ENABLE_MEMORY_LOCK` is defined. -/
def unlockP (ml : Bool) (k : Prog) : Prog :=
  if ml then .readFlag fun l => if l then .protect .ro (.writeFlag false k) else k else k

/-- `Key::lock`, key.hpp 284-298. -/
def lockP (ml : Bool) (k : Prog) : Prog :=
  if ml then .readFlag fun l => if l then k else .protect .noaccess (.writeFlag true k) else k

/-- What a method does between `unlock` and `lock`: it calls `data()` or `serialize()`, which test the flag (key.hpp 357-363 and 395-404), or reads the
    content. -/
inductive Act
  | check
  | use

/-- A method, with what it computes from the contents it has read: `Prg::derive`, prg.cpp 137-138 (`use` only); `Cipher::encrypt`, cipher.cpp 72-85
    (`check`, then `use`); `HMac::hmac`, hmac.hpp 205-248 (`check`, `use`, twice); `Prf::serialize`, prf.hpp 225-227 (`check`, `use`);
    `Wrapper::wrap`, wrapper.hpp 240-241 (`use` only).  `Prp::encrypt`, which never locks its key again (prp.cpp 192), is left out. -/
structure Method where
  acts : List Act
  f : List Bytes → Bytes

def body (ml : Bool) (f : List Bytes → Bytes) : List Act → List Bytes → Prog
  | [], acc => lockP ml (.ret (.ok (f acc)))
  | .use :: s, acc => .use fun d => body ml f s (acc ++ [d])
  | .check :: s, acc =>
    if ml then .readFlag fun l => if l then .ret (.exc .runtimeError) else body ml f s acc
    else body ml f s acc

def Method.prog (ml : Bool) (m : Method) : Prog := unlockP ml (body ml m.f m.acts [])

/-- Calls of methods by as many threads. -/
def start (ml : Bool) (x : Mem) (ms : List Method) : Cfg := ⟨x, false, ms.map (Method.prog ml)⟩

/-! ## Specification -/

/-- The number of times that a method reads the content. -/
def uses : List Act → Nat
  | [] => 0
  | .use :: s => uses s + 1
  | .check :: s => uses s

/-- The result on a key that no other thread uses. -/
def Method.value (d : Bytes) (m : Method) : Bytes := m.f (List.replicate (uses m.acts) d)

/-- A key that no method is using, with memory locking: not accessible, and marked so. -/
def atRest : Mem := ⟨.noaccess, true⟩

/-- Two threads are about to access the same location, and one of them is about to write. -/
def Racy (x : Cfg) : Prop :=
  ∃ (i j : Nat) (p q : Prog), i ≠ j ∧ x.threads[i]? = some p ∧ x.threads[j]? = some q ∧
    ((∃ b k, p = .writeFlag b k) ∧ ((∃ b k, q = .writeFlag b k) ∨ ∃ k, q = .readFlag k) ∨
     (∃ b k, p = .protect b k) ∧ ((∃ b k, q = .protect b k) ∨ ∃ k, q = .use k))

/-! ## Without memory locking -/

/-- What remains of a method without memory locking: `n` reads. -/
inductive Reads (d : Bytes) (v : Bytes) : Nat → Prog → Prop
  | ret : Reads d v 0 (.ret (.ok v))
  | use {n : Nat} {k : Bytes → Prog} (h : Reads d v n (k d)) : Reads d v (n + 1) (.use k)

theorem body_reads (d : Bytes) (f : List Bytes → Bytes) (s : List Act) : ∀ acc, Reads d (f (acc ++ List.replicate (uses s) d)) (uses s) (body false f s acc) := by
  induction s with
  | nil => intro acc; rw [uses, List.replicate_zero, List.append_nil]; exact .ret
  | cons a s ih =>
    intro acc
    cases a with
    | check => exact ih acc
    | use =>
      have := ih (acc ++ [d])
      rw [List.append_assoc, List.singleton_append, ← List.replicate_succ] at this
      exact .use this

theorem off_step {d : Bytes} {x : Cfg} (hf : x.fault = false) (hp : x.mem.prot ≠ .noaccess) {vs : List Bytes}
    (h : ∀ (i : Nat) (p : Prog), x.threads[i]? = some p → ∃ v n, vs[i]? = some v ∧ Reads d v n p) (i : Nat) :
    (x.step d i).mem = x.mem ∧ (x.step d i).fault = false ∧ ∀ (i' : Nat) (p : Prog), (x.step d i).threads[i']? = some p → ∃ v n, vs[i']? = some v ∧ Reads d v n p := by
  unfold Cfg.step
  rw [hf]
  simp only [Bool.false_eq_true, if_false]
  cases hi : x.threads[i]? with
  | none => exact ⟨rfl, hf, h⟩
  | some p =>
    obtain ⟨v, n, hv, hr⟩ := h i p hi
    cases hr with
    | ret => exact ⟨rfl, hf, h⟩
    | @use n k hr =>
      simp only
      rw [if_neg hp]
      refine ⟨rfl, rfl, fun i' p' hp' => ?_⟩
      by_cases e : i' = i
      · subst e
        have hil : i' < x.threads.length := (List.getElem?_eq_some_iff.1 hi).1
        simp only [List.getElem?_set_self hil, Option.some.injEq] at hp'
        subst hp'
        exact ⟨v, n, hv, hr⟩
      · simp only [List.getElem?_set_ne (Ne.symm e)] at hp'
        exact h i' p' hp'

theorem off_exec {d : Bytes} {vs : List Bytes} (sched : List Nat) : ∀ {x : Cfg}, x.fault = false → x.mem.prot ≠ .noaccess →
    (∀ (i : Nat) (p : Prog), x.threads[i]? = some p → ∃ v n, vs[i]? = some v ∧ Reads d v n p) →
    (x.exec d sched).mem = x.mem ∧ (x.exec d sched).fault = false ∧
      ∀ (i : Nat) (p : Prog), (x.exec d sched).threads[i]? = some p → ∃ v n, vs[i]? = some v ∧ Reads d v n p := by
  induction sched with
  | nil => intro x h1 h2 h3; exact ⟨rfl, h1, h3⟩
  | cons i s ih =>
    intro x h1 h2 h3
    obtain ⟨a1, a2, a3⟩ := off_step h1 h2 h3 i
    obtain ⟨b1, b2, b3⟩ := ih (x := x.step d i) a2 (by rw [a1]; exact h2) a3
    exact ⟨b1.trans a1, b2, b3⟩

/-- **C77**: without memory locking any number of threads may use one key: whatever the interleaving, nothing changes, nothing fails, there is no race, and
    every call that returns has its value. -/
theorem c77_off (d : Bytes) {x : Mem} (hx : x.prot ≠ .noaccess) (ms : List Method) (sched : List Nat) :
    ((start false x ms).exec d sched).mem = x ∧ ((start false x ms).exec d sched).fault = false ∧ ¬ Racy ((start false x ms).exec d sched) ∧
    ∀ (i : Nat) (r : Res Bytes), ((start false x ms).exec d sched).threads[i]? = some (.ret r) → ∃ m, ms[i]? = some m ∧ r = .ok (m.value d) := by
  obtain ⟨h1, h2, h3⟩ := off_exec (d := d) (vs := ms.map (Method.value d)) sched (x := start false x ms) rfl hx (by
    intro i p hp
    simp only [start, List.getElem?_map, Option.map_eq_some_iff] at hp
    obtain ⟨m, hm, rfl⟩ := hp
    refine ⟨m.value d, uses m.acts, by simp [hm], ?_⟩
    have := body_reads d m.f m.acts []
    rwa [List.nil_append] at this)
  refine ⟨h1, h2, ?_, fun i r hr => ?_⟩
  · rintro ⟨i, j, p, q, -, hp, -, h⟩
    obtain ⟨v, n, -, hr⟩ := h3 i p hp
    rcases h with ⟨⟨b, k, rfl⟩, -⟩ | ⟨⟨b, k, rfl⟩, -⟩ <;> cases hr
  · obtain ⟨v, n, hv, hr⟩ := h3 i _ hr
    cases hr
    simp only [List.getElem?_map, Option.map_eq_some_iff] at hv
    obtain ⟨m, hm, rfl⟩ := hv
    exact ⟨m, hm, rfl⟩

/-! ## With memory locking: calls one after the other -/

/-- A thread that runs alone; `none` if it ends the process. -/
def Prog.alone (d : Bytes) : Prog → Mem → Option (Res Bytes × Mem)
  | .ret a, m => some (a, m)
  | .readFlag k, m => (k m.flag).alone d m
  | .writeFlag b k, m => k.alone d { m with flag := b }
  | .protect p k, m => k.alone d { m with prot := p }
  | .use k, m => if m.prot = .noaccess then none else (k d).alone d m

/-- Calls one after the other. -/
def serial (d : Bytes) (ml : Bool) : Mem → List Method → Option (List (Res Bytes) × Mem)
  | x, [] => some ([], x)
  | x, m :: ms => do
    let r ← (m.prog ml).alone d x
    let rs ← serial d ml r.2 ms
    some (r.1 :: rs.1, rs.2)

theorem body_alone (d : Bytes) (f : List Bytes → Bytes) (s : List Act) : ∀ acc,
    (body true f s acc).alone d ⟨.ro, false⟩ = some (.ok (f (acc ++ List.replicate (uses s) d)), atRest) := by
  induction s with
  | nil => intro acc; rw [uses, List.replicate_zero, List.append_nil]; rfl
  | cons a s ih =>
    intro acc
    cases a with
    | check => exact ih acc
    | use =>
      have := ih (acc ++ [d])
      rw [List.append_assoc, List.singleton_append, ← List.replicate_succ] at this
      exact this

theorem prog_alone (d : Bytes) (m : Method) : (m.prog true).alone d atRest = some (.ok (m.value d), atRest) := by
  have := body_alone d m.f m.acts []
  rw [List.nil_append] at this
  exact this

/-- **C77**: with memory locking, calls that do not overlap have their values, and leave the key inaccessible. -/
theorem c77_serial (d : Bytes) (ms : List Method) : serial d true atRest ms = some (ms.map fun m => .ok (m.value d), atRest) := by
  induction ms with
  | nil => rfl
  | cons m ms ih => rw [serial, prog_alone]; simp only [Option.bind_eq_bind, Option.bind_some, ih]; rfl

/-! ## With memory locking: overlapping calls -/

/-- What a thread may still return: its value, or the exception of `data()`. -/
inductive Gives (d : Bytes) (v : Bytes) : Prog → Prop
  | ret : Gives d v (.ret (.ok v))
  | exc : Gives d v (.ret (.exc .runtimeError))
  | readFlag {k : Bool → Prog} (h : ∀ b, Gives d v (k b)) : Gives d v (.readFlag k)
  | writeFlag {b : Bool} {k : Prog} (h : Gives d v k) : Gives d v (.writeFlag b k)
  | protect {p : Prot} {k : Prog} (h : Gives d v k) : Gives d v (.protect p k)
  | use {k : Bytes → Prog} (h : Gives d v (k d)) : Gives d v (.use k)

theorem gives_body (d : Bytes) (ml : Bool) (f : List Bytes → Bytes) (s : List Act) : ∀ acc, Gives d (f (acc ++ List.replicate (uses s) d)) (body ml f s acc) := by
  induction s with
  | nil =>
    intro acc
    rw [uses, List.replicate_zero, List.append_nil]
    unfold body lockP
    split
    · refine .readFlag fun b => ?_
      split
      · exact .ret
      · exact .protect (.writeFlag .ret)
    · exact .ret
  | cons a s ih =>
    intro acc
    cases a with
    | check =>
      unfold body
      split
      · refine .readFlag fun b => ?_
        split
        · exact .exc
        · exact ih acc
      · exact ih acc
    | use =>
      have := ih (acc ++ [d])
      rw [List.append_assoc, List.singleton_append, ← List.replicate_succ] at this
      exact .use this

theorem gives_prog (d : Bytes) (ml : Bool) (m : Method) : Gives d (m.value d) (m.prog ml) := by
  have := gives_body d ml m.f m.acts []
  rw [List.nil_append] at this
  unfold Method.prog unlockP
  split
  · refine .readFlag fun b => ?_
    split
    · exact .protect (.writeFlag this)
    · exact this
  · exact this

theorem gives_exec {d : Bytes} {vs : List Bytes} (sched : List Nat) : ∀ {x : Cfg}, (∀ (i : Nat) (p : Prog), x.threads[i]? = some p → ∃ v, vs[i]? = some v ∧ Gives d v p) →
    ∀ (i : Nat) (p : Prog), (x.exec d sched).threads[i]? = some p → ∃ v, vs[i]? = some v ∧ Gives d v p := by
  induction sched with
  | nil => intro x h; exact h
  | cons i s ih =>
    intro x h
    refine ih (x := x.step d i) ?_
    have put : ∀ {p q : Prog} {v : Bytes}, x.threads[i]? = some p → vs[i]? = some v → Gives d v q → ∀ (i' : Nat) (p' : Prog), (x.threads.set i q)[i']? = some p' →
        ∃ v, vs[i']? = some v ∧ Gives d v p' := by
      intro p q v hi hv hq i' p' hp'
      by_cases e : i' = i
      · subst e
        rw [List.getElem?_set_self (List.getElem?_eq_some_iff.1 hi).1, Option.some.injEq] at hp'
        subst hp'
        exact ⟨v, hv, hq⟩
      · rw [List.getElem?_set_ne (Ne.symm e)] at hp'
        exact h i' p' hp'
    unfold Cfg.step
    split
    · exact h
    · cases hi : x.threads[i]? with
      | none => exact h
      | some p =>
        obtain ⟨v, hv, hg⟩ := h i p hi
        cases hg with
        | ret => exact h
        | exc => exact h
        | readFlag hg => exact put hi hv (hg _)
        | writeFlag hg => exact put hi hv hg
        | protect hg => exact put hi hv hg
        | use hg =>
          simp only
          split
          · exact h
          · exact put hi hv hg

/-- **C77**: in every interleaving, a call that returns has its value, or fails with the exception of `data()`: there are no wrong values. -/
theorem c77_values (d : Bytes) (ml : Bool) (x : Mem) (ms : List Method) (sched : List Nat) (i : Nat) (r : Res Bytes)
    (h : ((start ml x ms).exec d sched).threads[i]? = some (.ret r)) : ∃ m, ms[i]? = some m ∧ (r = .ok (m.value d) ∨ r = .exc .runtimeError) := by
  obtain ⟨v, hv, hg⟩ := gives_exec (d := d) (vs := ms.map (Method.value d)) sched (x := start ml x ms) (by
    intro i p hp
    simp only [start, List.getElem?_map, Option.map_eq_some_iff] at hp
    obtain ⟨m, hm, rfl⟩ := hp
    exact ⟨m.value d, by simp [hm], gives_prog d ml m⟩) i _ h
  simp only [List.getElem?_map, Option.map_eq_some_iff] at hv
  obtain ⟨m, hm, rfl⟩ := hv
  cases hg with
  | ret => exact ⟨m, hm, .inl rfl⟩
  | exc => exact ⟨m, hm, .inr rfl⟩

/-- The second configuration comes from the first by some interleaving. -/
def Reach (d : Bytes) (x y : Cfg) : Prop := ∃ sched, x.exec d sched = y

theorem Reach.trans {d : Bytes} {x y z : Cfg} (h1 : Reach d x y) (h2 : Reach d y z) : Reach d x z := by
  obtain ⟨a, rfl⟩ := h1
  obtain ⟨b, rfl⟩ := h2
  exact ⟨a ++ b, by unfold Cfg.exec; rw [List.foldl_append]⟩

/-- The actions `s` of thread 0 or 1 while the key is accessible and marked so. -/
theorem reach_acts0 (d : Bytes) (f : List Bytes → Bytes) (t : Prog) (s s' : List Act) : ∀ acc,
    Reach d ⟨⟨.ro, false⟩, false, [body true f (s ++ s') acc, t]⟩ ⟨⟨.ro, false⟩, false, [body true f s' (acc ++ List.replicate (uses s) d), t]⟩ := by
  induction s with
  | nil => intro acc; rw [uses, List.replicate_zero, List.append_nil]; exact ⟨[], rfl⟩
  | cons a s ih =>
    intro acc
    cases a with
    | check => exact Reach.trans ⟨[0], rfl⟩ (ih acc)
    | use =>
      have := ih (acc ++ [d])
      rw [List.append_assoc, List.singleton_append, ← List.replicate_succ] at this
      exact Reach.trans ⟨[0], rfl⟩ this

theorem reach_acts1 (d : Bytes) (f : List Bytes → Bytes) (t : Prog) (s s' : List Act) : ∀ acc,
    Reach d ⟨⟨.ro, false⟩, false, [t, body true f (s ++ s') acc]⟩ ⟨⟨.ro, false⟩, false, [t, body true f s' (acc ++ List.replicate (uses s) d)]⟩ := by
  induction s with
  | nil => intro acc; rw [uses, List.replicate_zero, List.append_nil]; exact ⟨[], rfl⟩
  | cons a s ih =>
    intro acc
    cases a with
    | check => exact Reach.trans ⟨[1], rfl⟩ (ih acc)
    | use =>
      have := ih (acc ++ [d])
      rw [List.append_assoc, List.singleton_append, ← List.replicate_succ] at this
      exact Reach.trans ⟨[1], rfl⟩ this

/-- The first thread has finished while the second is in the middle of its actions. -/
theorem reach_middle (d : Bytes) (a b : Method) (s s' : List Act) (hb : b.acts = s ++ s') :
    Reach d (start true atRest [a, b]) ⟨atRest, false, [.ret (.ok (a.value d)), body true b.f s' (List.replicate (uses s) d)]⟩ := by
  have h1 : Reach d (start true atRest [a, b]) ⟨⟨.ro, false⟩, false, [body true a.f a.acts [], body true b.f b.acts []]⟩ := ⟨[0, 0, 0, 1], rfl⟩
  have h2 := reach_acts1 d b.f (body true a.f a.acts []) s s' []
  rw [← hb, List.nil_append] at h2
  have h3 := reach_acts0 d a.f (body true b.f s' (List.replicate (uses s) d)) a.acts [] []
  rw [List.append_nil, List.nil_append] at h3
  exact h1.trans (h2.trans (h3.trans ⟨[0, 0, 0], rfl⟩))

/-- **C77**: with memory locking two calls on one key can end the process, if one of them reads the content at all. -/
theorem c77_fault_false (d : Bytes) (a b : Method) (h : .use ∈ b.acts) : ∃ sched, ((start true atRest [a, b]).exec d sched).fault = true := by
  obtain ⟨s, s', hs⟩ := List.append_of_mem h
  obtain ⟨sched, hr⟩ := (reach_middle d a b s (.use :: s') hs).trans ⟨[1], rfl⟩
  exact ⟨sched, by rw [hr]; rfl⟩

/-- **C77**: and one can fail with the exception "Memory is locked", if it calls `data()` or `serialize()`. -/
theorem c77_locked_false (d : Bytes) (a b : Method) (h : .check ∈ b.acts) :
    ∃ sched, ((start true atRest [a, b]).exec d sched).threads[1]? = some (.ret (.exc .runtimeError)) := by
  obtain ⟨s, s', hs⟩ := List.append_of_mem h
  obtain ⟨sched, hr⟩ := (reach_middle d a b s (.check :: s') hs).trans ⟨[1], rfl⟩
  exact ⟨sched, by rw [hr]; rfl⟩

/-- **C77**: and both can succeed and leave the key readable, but marked as locked, when no call is using it. -/
theorem c77_exposed_false (d : Bytes) (a b : Method) :
    ∃ sched, (start true atRest [a, b]).exec d sched = ⟨⟨.ro, true⟩, false, [.ret (.ok (a.value d)), .ret (.ok (b.value d))]⟩ := by
  have h1 : Reach d (start true atRest [a, b])
      ⟨⟨.ro, false⟩, false, [body true a.f a.acts [], .protect .ro (.writeFlag false (body true b.f b.acts []))]⟩ := ⟨[1, 0, 0, 0], rfl⟩
  have h2 := reach_acts0 d a.f (.protect .ro (.writeFlag false (body true b.f b.acts []))) a.acts [] []
  rw [List.append_nil, List.nil_append] at h2
  have h3 : Reach d ⟨⟨.ro, false⟩, false, [body true a.f [] (List.replicate (uses a.acts) d), .protect .ro (.writeFlag false (body true b.f b.acts []))]⟩
      ⟨⟨.ro, false⟩, false, [.writeFlag true (.ret (.ok (a.value d))), body true b.f b.acts []]⟩ := ⟨[0, 0, 1, 1], rfl⟩
  have h4 := reach_acts1 d b.f (.writeFlag true (.ret (.ok (a.value d)))) b.acts [] []
  rw [List.append_nil, List.nil_append] at h4
  exact h1.trans (h2.trans (h3.trans (h4.trans ⟨[0, 1], rfl⟩)))

/-- **C77**: two calls on one key race. -/
theorem c77_race_false (d : Bytes) (a b : Method) : Racy ((start true atRest [a, b]).exec d [0, 1]) :=
  ⟨0, 1, _, _, by decide, rfl, rfl, .inr ⟨⟨_, _, rfl⟩, .inl ⟨_, _, rfl⟩⟩⟩

/-! ## Examples -/

/-- HMAC and encryption, with the concatenation of what they read as value. -/
def exHmac : Method := ⟨[.check, .use, .check, .use], List.flatten⟩
def exCipher : Method := ⟨[.check, .use], List.flatten⟩

example : ((start false ⟨.rw, false⟩ [exHmac, exCipher]).exec [7] [0, 1, 0]).threads[0]? = some (.ret (.ok [7, 7])) := rfl

example : ∃ m, [exHmac, exCipher][0]? = some m ∧ (Res.ok [7, 7] : Res Bytes) = .ok (m.value [7]) :=
  (c77_off [7] (x := ⟨.rw, false⟩) (by decide) [exHmac, exCipher] [0, 1, 0]).2.2.2 0 _ rfl

example : ∃ m, [exHmac, exCipher][1]? = some m ∧ ((Res.exc .runtimeError : Res Bytes) = .ok (m.value [7]) ∨ (Res.exc .runtimeError : Res Bytes) = .exc .runtimeError) :=
  c77_values [7] true atRest [exHmac, exCipher] [0, 0, 0, 1, 0, 0, 0, 0, 0, 0, 0, 1] 1 _ rfl

example : serial [7] true atRest [exHmac, exCipher, exHmac] = some ([.ok [7, 7], .ok [7], .ok [7, 7]], atRest) := c77_serial _ _

example : ∃ sched, ((start true atRest [exCipher, exHmac]).exec [7] sched).fault = true := c77_fault_false _ _ _ (by simp [exHmac])

example : ∃ sched, ((start true atRest [exCipher, exHmac]).exec [7] sched).threads[1]? = some (.ret (.exc .runtimeError)) := c77_locked_false _ _ _ (by simp [exHmac])

example : ∃ sched, (start true atRest [exCipher, exHmac]).exec [7] sched = ⟨⟨.ro, true⟩, false, [.ret (.ok [7]), .ret (.ok [7, 7])]⟩ := c77_exposed_false _ _ _

end Verif.Key.Threads
