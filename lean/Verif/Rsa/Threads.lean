import Verif.Rsa.ModelThreads
import Verif.Rsa.Props

/-!
# Reasoning about threads: what holds whatever the others do
-/

namespace Verif.Rsa.Threads

open Verif Verif.Bignum
open Verif.Tdp (msgSize)

/-! ## Programs -/

@[simp] theorem ret_bind {α β : Type} (a : α) (f : α → Prog β) : ((Prog.ret a : Prog α) >>= f) = f a := rfl
@[simp] theorem pure_bind' {α β : Type} (a : α) (f : α → Prog β) : ((pure a : Prog α) >>= f) = f a := rfl
@[simp] theorem read_bind {α β : Type} (l : Loc) (k : Val l → Prog α) (f : α → Prog β) : (Prog.read l k >>= f) = .read l fun v => k v >>= f := rfl
@[simp] theorem write_bind {α β : Type} (l : Loc) (v : Val l) (k : Prog α) (f : α → Prog β) : (Prog.write l v k >>= f) = .write l v (k >>= f) := rfl

theorem alone_bind {α β : Type} (p : Prog α) (f : α → Prog β) (m : Mem) : (p >>= f).alone m = (f (p.alone m).1).alone (p.alone m).2 := by
  induction p generalizing m with
  | ret a => rfl
  | read l k ih => exact ih (m.get l) m
  | write l v k ih => exact ih (m.set l v)

/-- `p` returns `v` when it starts in the memory `m` or later, whatever the others do as long as they keep `I` and move the memory along `le`, and
    itself does so. -/
inductive Ok {α : Type} (I : Mem → Prop) (le : Mem → Mem → Prop) : Prog α → α → Mem → Prop
  | ret (v : α) (m : Mem) : Ok I le (.ret v) v m
  | read {l : Loc} {k : Val l → Prog α} {v : α} {m : Mem} (h : ∀ m', I m' → le m m' → Ok I le (k (m'.get l)) v m') : Ok I le (.read l k) v m
  | write {l : Loc} {x : Val l} {k : Prog α} {v : α} {m : Mem}
      (h : ∀ m', I m' → le m m' → I (m'.set l x) ∧ le m' (m'.set l x)) (h' : ∀ m', I m' → le m m' → Ok I le k v (m'.set l x)) :
      Ok I le (.write l x k) v m

structure Rely (le : Mem → Mem → Prop) : Prop where
  refl : ∀ m, le m m
  trans : ∀ {a b c}, le a b → le b c → le a c

theorem Ok.mono {α : Type} {I : Mem → Prop} {le : Mem → Mem → Prop} (hle : Rely le) {p : Prog α} {v : α} {m m' : Mem} (h : Ok I le p v m)
    (hm : le m m') : Ok I le p v m' := by
  cases h with
  | ret => exact .ret v m'
  | read h => exact .read fun m2 i2 l2 => h m2 i2 (hle.trans hm l2)
  | write h h' => exact .write (fun m2 i2 l2 => h m2 i2 (hle.trans hm l2)) fun m2 i2 l2 => h' m2 i2 (hle.trans hm l2)

theorem Ok.bind {α β : Type} {I : Mem → Prop} {le : Mem → Mem → Prop} (hle : Rely le) {p : Prog α} {f : α → Prog β} {a : α} {v : β} {m : Mem}
    (h : Ok I le p a m) (hf : ∀ m', le m m' → Ok I le (f a) v m') : Ok I le (p >>= f) v m := by
  induction h with
  | ret v m => exact hf m (hle.refl m)
  | read h ih => exact .read fun m' i l => ih m' i l fun m2 l2 => hf m2 (hle.trans l l2)
  | write h h' ih =>
    exact .write h fun m' i l => ih m' i l fun m2 l2 => hf m2 (hle.trans (hle.trans l (h m' i l).2) l2)

/-- A configuration in which every thread is as it should be. -/
def AllOk {α : Type} (I : Mem → Prop) (le : Mem → Mem → Prop) (vs : List α) (x : Cfg α) : Prop :=
  I x.mem ∧ x.threads.length = vs.length ∧ ∀ (i : Nat) (p : Prog α) (v : α), x.threads[i]? = some p → vs[i]? = some v → Ok I le p v x.mem

theorem step_ok {α : Type} {I : Mem → Prop} {le : Mem → Mem → Prop} (hle : Rely le) {vs : List α} {x : Cfg α} (h : AllOk I le vs x) (i : Nat) :
    AllOk I le vs (x.step i) ∧ le x.mem (x.step i).mem := by
  obtain ⟨hI, hlen, hok⟩ := h
  unfold Cfg.step
  cases hi : x.threads[i]? with
  | none => exact ⟨⟨hI, hlen, hok⟩, hle.refl _⟩
  | some p =>
    have hil : i < x.threads.length := (List.getElem?_eq_some_iff.1 hi).1
    obtain ⟨v, hv⟩ : ∃ v, vs[i]? = some v := ⟨vs[i], List.getElem?_eq_getElem (by omega)⟩
    have hp := hok i p v hi hv
    cases p with
    | ret a => exact ⟨⟨hI, hlen, hok⟩, hle.refl _⟩
    | read l k =>
      cases hp with
      | read hp =>
        refine ⟨⟨hI, by simpa using hlen, fun j q w hj hw => ?_⟩, hle.refl _⟩
        rw [List.getElem?_set] at hj
        split at hj
        · rename_i e
          subst e
          rw [hv] at hw
          cases hw
          cases hj
          exact hp x.mem hI (hle.refl _)
        · exact hok j q w hj hw
    | write l y k =>
      cases hp with
      | write hp hp' =>
        obtain ⟨h1, h2⟩ := hp x.mem hI (hle.refl _)
        have h3 := hp' x.mem hI (hle.refl _)
        refine ⟨⟨h1, by simpa using hlen, fun j q w hj hw => ?_⟩, h2⟩
        rw [List.getElem?_set] at hj
        split at hj
        · rename_i e
          subst e
          rw [hv] at hw
          cases hw
          cases hj
          exact h3
        · exact (hok j q w hj hw).mono hle h2

theorem exec_ok {α : Type} {I : Mem → Prop} {le : Mem → Mem → Prop} (hle : Rely le) {vs : List α} (sched : List Nat) :
    ∀ {x : Cfg α}, AllOk I le vs x → AllOk I le vs (x.exec sched) ∧ le x.mem (x.exec sched).mem := by
  induction sched with
  | nil => intro x h; exact ⟨h, hle.refl _⟩
  | cons i s ih =>
    intro x h
    obtain ⟨h1, h2⟩ := step_ok hle h i
    obtain ⟨h3, h4⟩ := ih h1
    exact ⟨h3, hle.trans h2 h4⟩

/-- A thread that has finished has the right result. -/
theorem finished {α : Type} {I : Mem → Prop} {le : Mem → Mem → Prop} {vs : List α} {x : Cfg α} (h : AllOk I le vs x) {i : Nat} {a : α}
    (hi : x.threads[i]? = some (.ret a)) : vs[i]? = some a := by
  obtain ⟨-, hlen, hok⟩ := h
  have hil : i < x.threads.length := (List.getElem?_eq_some_iff.1 hi).1
  have hv : vs[i]? = some vs[i] := List.getElem?_eq_getElem (by omega)
  have := hok i _ _ hi hv
  rw [hv]
  cases this
  rfl

/-- `p` makes at most `n` accesses. -/
inductive Within {α : Type} : Nat → Prog α → Prop
  | ret (n : Nat) (a : α) : Within n (.ret a)
  | read {n : Nat} {l : Loc} {k : Val l → Prog α} (h : ∀ v, Within n (k v)) : Within (n + 1) (.read l k)
  | write {n : Nat} {l : Loc} {v : Val l} {k : Prog α} (h : Within n k) : Within (n + 1) (.write l v k)

theorem Within.mono {α : Type} {n k : Nat} {p : Prog α} (h : Within n p) (hk : n ≤ k) : Within k p := by
  induction h generalizing k with
  | ret n a => exact .ret k a
  | read h ih =>
    obtain ⟨j, rfl⟩ : ∃ j, k = j + 1 := ⟨k - 1, by omega⟩
    exact .read fun v => ih v (by omega)
  | write h ih =>
    obtain ⟨j, rfl⟩ : ∃ j, k = j + 1 := ⟨k - 1, by omega⟩
    exact .write (ih (by omega))

theorem Within.bind {α β : Type} {n k : Nat} {p : Prog α} {f : α → Prog β} (h : Within n p) (hf : ∀ a, Within k (f a)) : Within (n + k) (p >>= f) := by
  induction h with
  | ret n a => exact (hf a).mono (by omega)
  | @read n l q h ih => rw [show n + 1 + k = n + k + 1 by omega]; exact .read ih
  | @write n l v q h ih => rw [show n + 1 + k = n + k + 1 by omega]; exact .write ih

/-- A thread finishes when it has been scheduled often enough. -/
theorem exec_within {α : Type} (sched : List Nat) : ∀ {x : Cfg α} {i n : Nat} {p : Prog α}, x.threads[i]? = some p → Within n p → n ≤ sched.count i →
    ∃ a, (x.exec sched).threads[i]? = some (.ret a) := by
  have stay : ∀ (sched : List Nat) (x : Cfg α) (i : Nat) (a : α), x.threads[i]? = some (.ret a) → (x.exec sched).threads[i]? = some (.ret a) := by
    intro sched
    induction sched with
    | nil => intro x i a h; exact h
    | cons j s ih =>
      intro x i a h
      refine ih (x.step j) i a ?_
      unfold Cfg.step
      by_cases e : j = i
      · subst e; rw [h]; exact h
      · cases x.threads[j]? with
        | none => exact h
        | some q =>
          cases q with
          | ret b => exact h
          | read l k => simpa [List.getElem?_set_ne e] using h
          | write l v k => simpa [List.getElem?_set_ne e] using h
  induction sched with
  | nil =>
    intro x i n p hi hp hn
    simp only [List.count_nil, Nat.le_zero] at hn
    subst hn
    cases hp
    exact ⟨_, hi⟩
  | cons j s ih =>
    intro x i n p hi hp hn
    by_cases e : j = i
    · subst e
      rw [List.count_cons_self] at hn
      have hil : j < x.threads.length := (List.getElem?_eq_some_iff.1 hi).1
      cases hp with
      | ret n a => exact ⟨a, stay (j :: s) x j a hi⟩
      | @read n l k h =>
        refine ih (x := x.step j) (p := k (x.mem.get l)) ?_ (h _) (by omega)
        unfold Cfg.step
        rw [hi]
        simp [hil]
      | @write n l v k h =>
        refine ih (x := x.step j) (p := k) ?_ h (by omega)
        unfold Cfg.step
        rw [hi]
        simp [hil]
    · rw [List.count_cons_of_ne e] at hn
      refine ih (x := x.step j) (p := p) ?_ hp hn
      unfold Cfg.step
      cases x.threads[j]? with
      | none => exact hi
      | some q =>
        cases q with
        | ret b => exact hi
        | read l k => simpa [List.getElem?_set_ne e] using hi
        | write l v k => simpa [List.getElem?_set_ne e] using hi

/-! ## Exponentiation is the exponentiation of `ModelExp` -/

theorem out_assoc {α β γ : Type} (x : Out α) (f : α → Out β) (g : β → Out γ) : (x >>= f >>= g) = (x >>= fun a => f a >>= g) := by cases x <;> rfl

theorem out_pure_ok {α : Type} (a : α) : (pure a : Out α) = .ok a := rfl
theorem out_err_bind {α β : Type} (e : Err) (f : α → Out β) : ((.err e : Out α) >>= f) = .err e := rfl
theorem out_ub_bind {α β : Type} (f : α → Out β) : ((.ub : Out α) >>= f) = .ub := rfl

theorem out_ite_bind {α β : Type} (c : Prop) [Decidable c] (x y : Out α) (f : α → Out β) : ((if c then x else y) >>= f) = if c then x >>= f else y >>= f := by
  split <;> rfl

theorem expMod_split (X : Mpi) (A : Arg) (E N : Mpi) (rr : Option Mpi) : expMod X A E N rr = (do
    let t ← expPre X A E N
    let c ← getRR N rr
    let X ← expPost E N t c.1
    pure (X, c.2)) := by
  unfold expMod expPre expPost
  simp only [out_assoc, out_ite_bind, out_err_bind, out_pure_ok, Out.bind_ok]

theorem getRR_fresh {N m : Mpi} (h : m.p = []) : getRR N (some m) = (freshRR N >>= fun R => .ok (R, some R)) := by
  unfold getRR freshRR
  simp only [Option.getD_some, h, if_true, out_assoc]
  rfl

theorem getRR_cached {N m : Mpi} (h : m.p ≠ []) : getRR N (some m) = .ok (m, some m) := by
  unfold getRR
  simp [h]

/-! ## The caches -/

def modulus (c : Ctx) : Slot → Mpi
  | .N => c.N
  | .P => c.P
  | .Q => c.Q

/-- The constant that an exponentiation with a cache of the context `c` uses. -/
def constant (c : Ctx) (s : Slot) : Out Mpi := if (slot c s).p ≠ [] then .ok (slot c s) else freshRR (modulus c s)

/-- What a cache of `c` will be. -/
def final (c : Ctx) (s : Slot) : Mpi :=
  match constant c s with
  | .ok R => R
  | _ => .null

/-- A cache whose pointer is not null is complete, and none is lost. -/
def I (c : Ctx) (m : Mem) : Prop :=
  ∀ s, (m.ptr s ≠ [] →
      m.sign s = (final c s).neg ∧ m.size s = (final c s).p.length ∧ m.ptr s = (final c s).p) ∧
    ((slot c s).p ≠ [] → m.ptr s ≠ [])

/-- Fields that have their final value keep it. -/
def le (c : Ctx) (m m' : Mem) : Prop :=
  ∀ s, (m.sign s = (final c s).neg → m'.sign s = (final c s).neg) ∧
    (m.size s = (final c s).p.length → m'.size s = (final c s).p.length) ∧
    (m.ptr s ≠ [] → m'.ptr s ≠ [])

theorem rely (c : Ctx) : Rely (le c) where
  refl := fun _ _ => ⟨id, id, id⟩
  trans := fun h1 h2 s => ⟨fun h => (h2 s).1 ((h1 s).1 h), fun h => (h2 s).2.1 ((h1 s).2.1 h), fun h => (h2 s).2.2 ((h1 s).2.2 h)⟩

theorem I_of (c : Ctx) : I c (Mem.of c) := by
  intro s
  refine ⟨fun h => ?_, fun h => h⟩
  have h' : (slot c s).p ≠ [] := h
  have e : final c s = slot c s := by unfold final constant; rw [if_pos h']
  rw [e]
  exact ⟨rfl, rfl, rfl⟩

theorem set_sign {c : Ctx} {m : Mem} (h : I c m) (s : Slot) : I c (m.set (.cache s .sign) (final c s).neg) ∧ le c m (m.set (.cache s .sign) (final c s).neg) := by
  constructor
  · intro t
    refine ⟨fun hp => ?_, (h t).2⟩
    obtain ⟨h1, h2, h3⟩ := (h t).1 hp
    refine ⟨?_, h2, h3⟩
    show (if t = s then (final c s).neg else m.sign t) = _
    split
    · rename_i e; rw [e]
    · exact h1
  · intro t
    refine ⟨fun hp => ?_, id, id⟩
    show (if t = s then (final c s).neg else m.sign t) = _
    split
    · rename_i e; rw [e]
    · exact hp

theorem set_size {c : Ctx} {m : Mem} (h : I c m) (s : Slot) :
    I c (m.set (.cache s .size) (final c s).p.length) ∧ le c m (m.set (.cache s .size) (final c s).p.length) := by
  constructor
  · intro t
    refine ⟨fun hp => ?_, (h t).2⟩
    obtain ⟨h1, h2, h3⟩ := (h t).1 hp
    refine ⟨h1, ?_, h3⟩
    show (if t = s then (final c s).p.length else m.size t) = _
    split
    · rename_i e; rw [e]
    · exact h2
  · intro t
    refine ⟨id, fun hp => ?_, id⟩
    show (if t = s then (final c s).p.length else m.size t) = _
    split
    · rename_i e; rw [e]
    · exact hp

theorem I.ptr_nil {c : Ctx} {m : Mem} (h : I c m) {s : Slot} (hf : (final c s).p = []) : m.ptr s = [] := by
  by_contra hp
  exact hp (((h s).1 hp).2.2.trans hf)

theorem set_ptr {c : Ctx} {m : Mem} (h : I c m) (s : Slot) (h0 : (slot c s).p = []) (h1 : m.sign s = (final c s).neg)
    (h2 : m.size s = (final c s).p.length) :
    I c (m.set (.cache s .ptr) (final c s).p) ∧ le c m (m.set (.cache s .ptr) (final c s).p) := by
  constructor
  · intro t
    show ((if t = s then (final c s).p else m.ptr t) ≠ [] → m.sign t = _ ∧ m.size t = _ ∧ (if t = s then (final c s).p else m.ptr t) = _) ∧
      (_ → (if t = s then (final c s).p else m.ptr t) ≠ [])
    by_cases e : t = s
    · subst e
      exact ⟨fun _ => ⟨h1, h2, if_pos rfl⟩, fun hp => absurd h0 hp⟩
    · rw [if_neg e]
      exact h t
  · intro t
    refine ⟨id, id, fun hp => ?_⟩
    show (if t = s then (final c s).p else m.ptr t) ≠ []
    split
    · rename_i e
      subst e
      exact fun hf => hp (h.ptr_nil hf)
    · exact hp

/-- The orders of the copies in which a cache with a pointer is complete: the pointer is stored last. -/
structure Order.Ok (o : Order) : Prop where
  st : o.st = [.sign, .size, .ptr] ∨ o.st = [.size, .sign, .ptr]
  ld : ∀ f, f ∈ o.ld

theorem store_ok {c : Ctx} {s : Slot} {o : Order} (ho : o.Ok) (h0 : (slot c s).p = []) (m : Mem) :
    Ok (I c) (le c) (store s (final c s) o.st) () m := by
  have fin : ∀ m : Mem, m.sign s = (final c s).neg → m.size s = (final c s).p.length →
      Ok (I c) (le c) (Prog.write (.cache s .ptr) (final c s).p (.ret ())) () m := by
    intro m h1 h2
    exact .write (fun m' i l => set_ptr i s h0 ((l s).1 h1) ((l s).2.1 h2)) fun m' i l => .ret _ _
  rcases ho.st with h | h
  · rw [h]
    refine .write (fun m' i l => set_sign i s) fun m1 i1 l1 => ?_
    refine .write (fun m' i l => set_size i s) fun m2 i2 l2 => ?_
    exact fin _ ((l2 s).1 (if_pos rfl)) (if_pos rfl)
  · rw [h]
    refine .write (fun m' i l => set_size i s) fun m1 i1 l1 => ?_
    refine .write (fun m' i l => set_sign i s) fun m2 i2 l2 => ?_
    exact fin _ (if_pos rfl) ((l2 s).2.1 (if_pos rfl))

/-- What `load` assembles when the cache holds `R`. -/
def loaded (R : Mpi) : List Field → Fields → Fields
  | [], r => r
  | .sign :: fs, r => loaded R fs { r with neg := R.neg }
  | .size :: fs, r => loaded R fs { r with n := R.p.length }
  | .ptr :: fs, r => loaded R fs { r with p := R.p }

theorem loaded_eq (R : Mpi) (fs : List Field) : ∀ r : Fields, (.sign ∈ fs ∨ r.neg = R.neg) → (.size ∈ fs ∨ r.n = R.p.length) → (.ptr ∈ fs ∨ r.p = R.p) →
    loaded R fs r = ⟨R.neg, R.p.length, R.p⟩ := by
  induction fs with
  | nil =>
    intro r h1 h2 h3
    simp only [List.not_mem_nil, false_or] at h1 h2 h3
    rw [loaded, ← h1, ← h2, ← h3]
  | cons f fs ih =>
    intro r h1 h2 h3
    cases f
    · refine ih _ (.inr rfl) ?_ ?_
      · simpa using h2
      · simpa using h3
    · refine ih _ ?_ (.inr rfl) ?_
      · simpa using h1
      · simpa using h3
    · refine ih _ ?_ ?_ (.inr rfl)
      · simpa using h1
      · simpa using h2

theorem load_ok {c : Ctx} {s : Slot} (fs : List Field) : ∀ (r : Fields) (m : Mem), m.ptr s ≠ [] →
    Ok (I c) (le c) (load s fs r) (loaded (final c s) fs r) m := by
  induction fs with
  | nil => intro r m h; exact .ret _ _
  | cons f fs ih =>
    intro r m h
    cases f
    · refine .read fun m' i l => ?_
      have := (l s).2.2 h
      rw [loaded, ← ((i s).1 this).1]
      exact ih _ m' this
    · refine .read fun m' i l => ?_
      have := (l s).2.2 h
      rw [loaded, ← ((i s).1 this).2.1]
      exact ih _ m' this
    · refine .read fun m' i l => ?_
      have := (l s).2.2 h
      have e : loaded (final c s) (.ptr :: fs) r = loaded (final c s) fs { r with p := m'.ptr s } := by rw [loaded, ← ((i s).1 this).2.2]
      rw [e]
      exact ih _ m' this

theorem cacheProg_ok {c : Ctx} {s : Slot} {o : Order} (ho : o.Ok) (m : Mem) : Ok (I c) (le c) (cacheProg o s (modulus c s)) (constant c s) m := by
  refine .read fun m' i l => ?_
  show Ok (I c) (le c) (if m'.ptr s = [] then _ else _) _ m'
  by_cases hp : m'.ptr s = []
  · have h0 : (slot c s).p = [] := by
      by_contra h
      exact (i s).2 h hp
    have e : constant c s = freshRR (modulus c s) := by unfold constant; rw [if_neg (by simpa using h0)]
    rw [if_pos hp]
    rw [e]
    cases hR : freshRR (modulus c s) with
    | ok R =>
      have hf : final c s = R := by unfold final; rw [e, hR]
      have := store_ok (o := o) ho h0 m'
      rw [hf] at this
      exact this.bind (rely c) fun m2 l2 => .ret _ _
    | err e => exact .ret _ _
    | ub => exact .ret _ _
  · rw [if_neg hp]
    refine (load_ok (c := c) o.ld ⟨false, 0, []⟩ m' hp).bind (rely c) fun m2 l2 => ?_
    rw [loaded_eq _ _ _ (.inl (ho.ld _)) (.inl (ho.ld _)) (.inl (ho.ld _))]
    have hf : constant c s = .ok (final c s) := by
      unfold final
      have hne : (final c s).p ≠ [] := by rw [← ((i s).1 hp).2.2]; exact hp
      unfold final at hne
      cases h : constant c s with
      | ok R => rfl
      | err e => rw [h] at hne; exact absurd rfl hne
      | ub => rw [h] at hne; exact absurd rfl hne
    rw [hf]
    have : Fields.view ⟨(final c s).neg, (final c s).p.length, (final c s).p⟩ = .ok (final c s) := by unfold Fields.view; rw [if_pos rfl]
    rw [this]
    exact .ret _ _

theorem getRR_constant (c : Ctx) (s : Slot) : getRR (modulus c s) (some (slot c s)) = (constant c s >>= fun R => .ok (R, some R)) := by
  unfold constant
  by_cases h : (slot c s).p = []
  · rw [getRR_fresh h, if_neg (by simpa using h)]
  · rw [getRR_cached h, if_pos h]; rfl

/-- The result of `mbedtls_mpi_exp_mod` with a cache of `c`, as `ModelExp` describes it. -/
def expRes (c : Ctx) (s : Slot) (X : Mpi) (A : Arg) (E : Mpi) : Out Mpi := expMod X A E (modulus c s) (some (slot c s)) >>= fun r => .ok r.1

theorem expRes_eq (c : Ctx) (s : Slot) (X : Mpi) (A : Arg) (E : Mpi) :
    expRes c s X A E = (expPre X A E (modulus c s) >>= fun t => constant c s >>= fun R => expPost E (modulus c s) t R) := by
  unfold expRes
  rw [expMod_split]
  simp only [out_assoc, getRR_constant, out_pure_ok, Out.bind_ok]
  cases expPre X A E (modulus c s) with
  | err e => rfl
  | ub => rfl
  | ok t =>
    simp only [Out.bind_ok]
    cases constant c s with
    | err e => rfl
    | ub => rfl
    | ok R =>
      simp only [Out.bind_ok]
      cases expPost E (modulus c s) t R <;> rfl

theorem expProg_ok {c : Ctx} {s : Slot} {o : Order} (ho : o.Ok) (X : Mpi) (A : Arg) (E : Mpi) (m : Mem) :
    Ok (I c) (le c) (expProg o s X A E (modulus c s)) (expRes c s X A E) m := by
  rw [expRes_eq]
  unfold expProg
  cases expPre X A E (modulus c s) with
  | err e => exact .ret _ _
  | ub => exact .ret _ _
  | ok t =>
    simp only [Out.bind_ok]
    exact (cacheProg_ok ho m).bind (rely c) fun m1 l1 => .read fun m2 i2 l2 => .ret _ _

theorem evalProg_ok {c : Ctx} {o : Order} (ho : o.Ok) (inp : Bytes) (m : Mem) : Ok (I c) (le c) (evalProg o c inp) (evalArray c inp).1 m := by
  unfold evalProg evalArray
  by_cases h : msgSize ≠ c.len
  · rw [if_pos h, if_pos h]; exact .ret _ _
  · rw [if_neg h, if_neg h]
    have e : evalExp c inp = ((do let x ← readBinary .null inp; modMpi x .self c.N : Out Mpi) >>= fun x => expMod x .self c.E c.N (some c.RN)) := by
      unfold evalExp
      rw [out_assoc]
    rw [e]
    cases (do let x ← readBinary .null inp; modMpi x .self c.N : Out Mpi) with
    | err e => exact .ret _ _
    | ub => exact .ret _ _
    | ok x =>
      simp only [Out.bind_ok]
      have h1 := expProg_ok (c := c) (s := .N) ho x .self c.E m
      refine h1.bind (rely c) fun m1 l1 => ?_
      have h2 : (evalEnd c (expMod x .self c.E c.N (some c.RN))).1 = (match expRes c .N x .self c.E with
        | .ok x => writeIgn x
        | .err _ => .exc .runtimeError
        | .ub => .ub) := by
        unfold expRes
        show _ = (match expMod x .self c.E c.N (some c.RN) >>= fun r => .ok r.1 with
          | .ok x => writeIgn x
          | .err _ => .exc .runtimeError
          | .ub => .ub)
        cases expMod x .self c.E c.N (some c.RN) <;> rfl
      rw [h2]
      exact .ret _ _

theorem crt_res (dst T DP DQ : Mpi) (c : Ctx) (i : Nat) :
    (crt dst T DP DQ c i).1 = (expRes c .P .null (.ext T) DP >>= fun T1 => expRes c .Q .null (.ext T) DQ >>= fun T2 => crtEnd c dst T1 T2) := by
  unfold expRes crt
  simp only [get_bind]
  show _ = ((expMod .null (.ext T) DP c.P (some c.RP) >>= fun r => Out.ok r.1) >>= fun T1 =>
    (expMod .null (.ext T) DQ c.Q (some c.RQ) >>= fun r => Out.ok r.1) >>= fun T2 => crtEnd c dst T1 T2)
  cases expMod .null (.ext T) DP c.P (some c.RP) with
  | err e => rfl
  | ub => rfl
  | ok a =>
    simp only [Out.bind_ok]
    rw [of_bind_ok rfl, put_bind]
    cases expMod .null (.ext T) DQ c.Q (some c.RQ) with
    | err e => rfl
    | ub => rfl
    | ok b =>
      simp only [Out.bind_ok]
      rw [of_bind_ok rfl, put_bind]
      unfold crtEnd
      cases subMpi dst (.ext a.1) (.ext b.1) with
      | err e => rfl
      | ub => rfl
      | ok T =>
        rw [of_bind_ok rfl]
        simp only [Out.bind_ok]
        cases mulMpi a.1 (.ext T) (.ext c.QP) with
        | err e => rfl
        | ub => rfl
        | ok X =>
          rw [of_bind_ok rfl]
          simp only [Out.bind_ok]
          cases modMpi T (.ext X) c.P with
          | err e => rfl
          | ub => rfl
          | ok T =>
            rw [of_bind_ok rfl]
            simp only [Out.bind_ok]
            cases mulMpi X (.ext T) (.ext c.Q) with
            | err e => rfl
            | ub => rfl
            | ok X => rfl

theorem crtProg_ok {c : Ctx} {o : Order} (ho : o.Ok) (dst T DP DQ : Mpi) (i : Nat) (m : Mem) :
    Ok (I c) (le c) (crtProg o c dst T DP DQ) (crt dst T DP DQ c i).1 m := by
  rw [crt_res]
  refine (expProg_ok (c := c) (s := .P) ho .null (.ext T) DP m).bind (rely c) fun m1 l1 => ?_
  cases expRes c .P .null (.ext T) DP with
  | err e => exact .ret _ _
  | ub => exact .ret _ _
  | ok T1 => exact (expProg_ok (c := c) (s := .Q) ho .null (.ext T) DQ m1).bind (rely c) fun m2 l2 => .ret _ _

theorem multProg_ok {v : Inv} {o : Order} (ho : o.Ok) (inp : Bytes) (order : Nat) (m : Mem) :
    Ok (I v.ctx) (le v.ctx) (multProg o v inp order) (invertMult v inp order).1 m := by
  unfold multProg invertMult
  by_cases h : order = 0
  · rw [if_pos h, if_pos h]; exact .ret _ _
  rw [if_neg h, if_neg h]
  by_cases h' : msgSize ≠ v.ctx.len
  · rw [if_pos h', if_pos h']; exact .ret _ _
  rw [if_neg h', if_neg h']
  unfold multRun
  cases readBinary .null inp with
  | err e => exact .ret _ _
  | ub => exact .ret _ _
  | ok x =>
    rw [of_bind_ok rfl]
    simp only [Out.bind_ok]
    cases multExps v order with
    | err e => exact .ret _ _
    | ub => exact .ret _ _
    | ok d =>
      rw [of_bind_ok rfl]
      simp only [Out.bind_ok, out_pure_ok]
      refine (crtProg_ok ho .null x d.1 d.2 0 m).bind (rely v.ctx) fun m1 l1 => ?_
      have e : ((crt .null x d.1 d.2 >>= fun y => St.of (writeBinary y msgSize)) v.ctx 0).1 =
          ((crt .null x d.1 d.2 v.ctx 0).1 >>= fun y => writeBinary y msgSize) := by
        rw [bind_apply]
        rcases crt .null x d.1 d.2 v.ctx 0 with ⟨r, c', i'⟩
        cases r <;> rfl
      rw [e]
      exact .ret _ _

end Verif.Rsa.Threads
