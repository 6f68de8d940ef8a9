import Verif.Lib.Model

/-!
# Invariants of starting and stopping the library
-/

namespace Verif.Lib

/-- Objects that were not released. -/
def live {α : Type} (l : List (Option α)) : Nat := (l.filter Option.isSome).length

theorem live_append_some {α : Type} (l : List (Option α)) (a : α) : live (l ++ [some a]) = live l + 1 := by
  simp [live, List.filter_append]

theorem live_set_none {α : Type} : ∀ (l : List (Option α)) (p : Nat) (a : α), l[p]? = some (some a) → live (l.set p none) + 1 = live l
  | [], p, a, h => by simp at h
  | x :: l, 0, a, h => by
    simp at h
    subst h
    simp [live]
  | x :: l, p + 1, a, h => by
    have := live_set_none l p a (by simpa using h)
    cases x with
    | none => simpa [live] using this
    | some y => simp [live] at this ⊢; omega

theorem live_set_some {α : Type} : ∀ (l : List (Option α)) (p : Nat) (a b : α), l[p]? = some (some a) → live (l.set p (some b)) = live l
  | [], p, a, b, h => by simp at h
  | x :: l, 0, a, b, h => by
    simp at h
    subst h
    simp [live]
  | x :: l, p + 1, a, b, h => by
    have := live_set_some l p a b (by simpa using h)
    cases x with
    | none => simpa [live] using this
    | some y => simp [live] at this ⊢; omega

theorem destroyable_iff : ∀ (n : Nat) (m : Mutexes), destroyable n m = true ↔ ∀ k, k < n → m k = none
  | 0, m => by simp [destroyable]
  | n + 1, m => by
    rw [destroyable, Bool.and_eq_true, destroyable_iff n m, Option.isNone_iff_eq_none]
    constructor
    · intro h k hk
      by_cases h1 : k = n
      · exact h1 ▸ h.2
      · exact h.1 k (by omega)
    · intro h
      exact ⟨fun k hk => h k (by omega), h n (by omega)⟩

/-- The pointers are null or point to live objects. -/
structure Valid (s : State) : Prop where
  handle : ∀ p, s.handle = some p → ∃ own, s.handles[p]? = some (some own)
  buf : ∀ p, s.buf = some p → ∃ m, s.bufs[p]? = some (some m)

theorem valid_start : Valid start := ⟨by simp [start], by simp [start]⟩

theorem getElem?_append_last {α : Type} (l : List α) (a : α) : (l ++ [a])[l.length]? = some a := by simp

theorem valid_initLocks {e : Env} {l : Luck} {s : State} (h : Valid s) : Valid (initLocks e l s) := by
  unfold initLocks
  split
  · exact h
  · split
    · exact ⟨h.handle, by simp⟩
    · refine ⟨h.handle, fun p hp => ?_⟩
      simp only [Option.some.injEq] at hp
      subst hp
      exact ⟨_, getElem?_append_last _ _⟩

/-- The state in an outcome. -/
def Out.state? : Out → Option State
  | .ret s | .thrown s | .blocked s => some s
  | .ub => none

theorem run_cons (e : Env) (a : Ev) (h : List Ev) (s : State) : run e (a :: h) s = (step e a s).state?.bind (run e h) := by
  rw [run]
  cases step e a s <;> rfl

theorem run_append (e : Env) : ∀ (h h' : List Ev) (s : State), run e (h ++ h') s = (run e h s).bind (run e h')
  | [], h', s => rfl
  | a :: h, h', s => by
    rw [List.cons_append, run_cons, run_cons]
    cases (step e a s).state? with
    | none => rfl
    | some s1 => exact run_append e h h' s1

/-- The outcome of `init` as a state. -/
theorem init_state (e : Env) (l : Luck) (t : Thread) (s0 : State) :
    ∃ s, (init e l t s0).state? = some s ∧
      s.bufs = (initLocks e l s0).bufs ∧ s.buf = (initLocks e l s0).buf ∧ s.cb = (initLocks e l s0).cb ∧ s.dyn = s0.dyn ∧
      ((s.handles = s0.handles ∧ s.handle = s0.handle) ∨
        ∃ own, s.handles = s0.handles ++ [some own] ∧ s.handle = some s0.handles.length) := by
  have hl : (initLocks e l s0).handles = s0.handles ∧ (initLocks e l s0).handle = s0.handle ∧ (initLocks e l s0).dyn = s0.dyn := by
    unfold initLocks
    split
    · exact ⟨rfl, rfl, rfl⟩
    · split <;> exact ⟨rfl, rfl, rfl⟩
  obtain ⟨h1, h2, h3⟩ := hl
  simp only [init]
  split
  · exact ⟨_, rfl, rfl, rfl, rfl, h3, Or.inl ⟨h1, h2⟩⟩
  · split
    · exact ⟨_, rfl, rfl, rfl, rfl, h3, Or.inl ⟨h1, h2⟩⟩
    · rename_i c own _
      unfold initSodium
      split
      · exact ⟨_, rfl, rfl, rfl, rfl, h3, Or.inr ⟨own, by simp only [h1], by simp only [h1]⟩⟩
      · exact ⟨_, rfl, rfl, rfl, rfl, h3, Or.inr ⟨own, by simp only [h1], by simp only [h1]⟩⟩

theorem valid_init {e : Env} {l : Luck} {t : Thread} {s0 s : State} (h : Valid s0) (hs : (init e l t s0).state? = some s) : Valid s := by
  obtain ⟨s', h0, h1, h2, -, -, h3⟩ := init_state e l t s0
  rw [hs] at h0
  obtain rfl := Option.some.inj h0
  have hv := valid_initLocks (e := e) (l := l) h
  refine ⟨fun p hp => ?_, fun p hp => ?_⟩
  · rcases h3 with ⟨h4, h5⟩ | ⟨own, h4, h5⟩
    · rw [h4]; exact h.handle p (h5 ▸ hp)
    · rw [h5] at hp
      obtain rfl := Option.some.inj hp
      exact ⟨own, by rw [h4]; exact getElem?_append_last _ _⟩
  · rw [h1]; exact hv.buf p (h2 ▸ hp)

theorem dropHandle_valid {e : Env} {t : Thread} {s : State} (h : Valid s) :
    ∃ s', dropHandle e t s = some s' ∧ Valid s' ∧ s'.handle = none ∧ s'.buf = s.buf ∧ s'.bufs = s.bufs ∧ s'.cb = s.cb ∧ s'.dyn = s.dyn := by
  unfold dropHandle
  cases hp : s.handle with
  | none => exact ⟨s, rfl, h, hp, rfl, rfl, rfl, rfl⟩
  | some p =>
    obtain ⟨own, ho⟩ := h.handle p hp
    simp only [ho]
    exact ⟨_, rfl, ⟨by simp, h.buf⟩, rfl, rfl, rfl, rfl, rfl⟩

/-- The mutexes in use are free. -/
def Idle (e : Env) (s : State) : Prop := ∀ p m, s.buf = some p → s.bufs[p]? = some (some m) → ∀ k, k < e.locks → m k = none

theorem killLocks_valid {e : Env} {s : State} (h : Valid s) (hi : e.ssl = true → Idle e s) :
    ∃ s', killLocks e s = some s' ∧ Valid s' ∧ s'.handle = s.handle ∧ s'.handles = s.handles ∧ s'.core = s.core ∧
      s'.dyn = s.dyn ∧ s'.avail = s.avail ∧ (e.ssl = true → s'.buf = none) := by
  unfold killLocks
  cases hs : e.ssl with
  | false => exact ⟨s, rfl, h, rfl, rfl, rfl, rfl, rfl, by simp⟩
  | true =>
    simp only [Bool.not_true, Bool.false_eq_true, ↓reduceIte]
    cases hp : s.buf with
    | none => exact ⟨s, rfl, h, rfl, rfl, rfl, rfl, rfl, fun _ => hp⟩
    | some p =>
      obtain ⟨m, hm⟩ := h.buf p hp
      have : destroyable e.locks m = true := (destroyable_iff _ _).2 (hi hs p m hp hm)
      simp only [hm, this, ↓reduceIte]
      exact ⟨_, rfl, ⟨h.handle, by simp⟩, rfl, rfl, rfl, rfl, rfl, fun _ => rfl⟩

theorem cleanup_valid {e : Env} {t : Thread} {s : State} (h : Valid s) (hi : e.ssl = true → Idle e s) :
    ∃ s', cleanup e t s = .ret s' ∧ Valid s' ∧ s'.handle = none := by
  obtain ⟨s1, h1, hv, hn, hb, hbs, -, -⟩ := dropHandle_valid (e := e) (t := t) h
  obtain ⟨s2, h2, hv2, hh, -⟩ := killLocks_valid (e := e) hv (fun hs p m hp hm => hi hs p m (hb ▸ hp) (hbs ▸ hm))
  exact ⟨s2, by simp only [cleanup, h1, h2], hv2, by rw [hh]; exact hn⟩

end Verif.Lib
