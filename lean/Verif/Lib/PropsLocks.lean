import Verif.Lib.PropsFail

/-!
# C83: the locks of OpenSSL

`Mon` says who is in which critical section according to the history alone, and which histories keep the rules: a thread leaves only what it
has entered, dynamic locks are used between creation and destruction, and nobody is in a critical section when the library is started
or stopped.
-/

namespace Verif.Lib

structure Mon where
  /-- The library has been started and not stopped. -/
  on : Bool
  who : Nat → Option Thread
  dyn : List (Option (Option Thread))

def Mon.quiet (e : Env) (m : Mon) : Prop :=
  (∀ n, n < e.locks → m.who n = none) ∧ ∀ (p : Nat) (x : Option Thread), m.dyn[p]? = some (some x) → x = none

/-- Entering and leaving critical sections by the rules. -/
inductive Rule (e : Env) : Mon → Ev → Mon → Prop
  | init (m : Mon) (t : Thread) (l : Luck) (hl : l.malloc = true) (hq : m.quiet e) : Rule e m (.init t l) { m with on := e.ssl }
  | cleanup (m : Mon) (t : Thread) (hq : m.quiet e) : Rule e m (.cleanup t) { m with on := false }
  | enter (m : Mon) (t : Thread) (n : Nat) (hn : n < e.locks) (h : m.who n = none) :
      Rule e m (.lock t n) { m with who := fun k => if k = n then some t else m.who k }
  | wait (m : Mon) (t u : Thread) (n : Nat) (hn : n < e.locks) (h : m.who n = some u) : Rule e m (.lock t n) m
  | leave (m : Mon) (t : Thread) (n : Nat) (hn : n < e.locks) (h : m.who n = some t) :
      Rule e m (.unlock t n) { m with who := fun k => if k = n then none else m.who k }
  | create (m : Mon) (ok : Bool) : Rule e m (.dynCreate ok) (if m.on && ok then { m with dyn := m.dyn ++ [some none] } else m)
  | dynEnter (m : Mon) (t : Thread) (p : Nat) (h : m.dyn[p]? = some (some none)) :
      Rule e m (.dynLock t p) { m with dyn := m.dyn.set p (some (some t)) }
  | dynWait (m : Mon) (t u : Thread) (p : Nat) (h : m.dyn[p]? = some (some (some u))) : Rule e m (.dynLock t p) m
  | dynLeave (m : Mon) (t : Thread) (p : Nat) (h : m.dyn[p]? = some (some (some t))) :
      Rule e m (.dynUnlock t p) { m with dyn := m.dyn.set p (some none) }
  | destroy (m : Mon) (p : Nat) (h : m.dyn[p]? = some (some none)) : Rule e m (.dynDestroy p) { m with dyn := m.dyn.set p none }

/-- A history by the rules. -/
inductive Rules (e : Env) : Mon → List Ev → Mon → Prop
  | nil (m : Mon) : Rules e m [] m
  | cons (m m1 m2 : Mon) (a : Ev) (h : List Ev) (h1 : Rule e m a m1) (h2 : Rules e m1 h m2) : Rules e m (a :: h) m2

def calm : Mon := ⟨false, fun _ => none, []⟩

/-- What the library knows about the critical sections. -/
structure Knows (e : Env) (m : Mon) (s : State) : Prop where
  valid : Valid s
  cb : s.cb = m.on
  on : m.on = true → ∃ (p : Nat) (b : Mutexes), s.buf = some p ∧ s.bufs[p]? = some (some b) ∧ ∀ n, n < e.locks → b n = m.who n
  off : m.on = false → s.buf = none
  len : s.dyn.length = m.dyn.length
  dyn : ∀ (p : Nat) (x : Option Thread), m.dyn[p]? = some (some x) → s.dyn[p]? = some (some (if m.on then x else none))
  ssl : m.on = true → e.ssl = true

theorem knows_start (e : Env) : Knows e calm start :=
  ⟨valid_start, rfl, by simp [calm], fun _ => rfl, rfl, by simp [calm], by simp [calm]⟩

theorem getElem?_set_ne' {α : Type} (l : List α) {p q : Nat} (a : α) (h : p ≠ q) : (l.set p a)[q]? = l[q]? := by
  simp [h]

theorem getElem?_set_eq' {α : Type} (l : List α) {p : Nat} (a b : α) (h : l[p]? = some b) : (l.set p a)[p]? = some a := by
  have : p < l.length := by
    rcases Nat.lt_or_ge p l.length with h1 | h1
    · exact h1
    · rw [List.getElem?_eq_none h1] at h; simp at h
  simp [this]

theorem bool_cases (b : Bool) : b = false ∨ b = true := by cases b <;> simp

theorem knows_step {e : Env} {m m' : Mon} {a : Ev} {s : State} (hr : Rule e m a m') (hk : Knows e m s) :
    ∃ s', (step e a s).state? = some s' ∧ Knows e m' s' := by
  cases hr with
  | init t l hl hq =>
    obtain ⟨s', h0, h1, h2, h3, h4, -⟩ := init_state e l t s
    refine ⟨s', h0, valid_init hk.valid h0, ?_, ?_, ?_, by rw [h4]; exact hk.len, ?_, fun h => h⟩
    · rw [h3]
      simp only [initLocks, hl]
      cases he : e.ssl with
      | true => rfl
      | false =>
        have : m.on = false := by
          cases ho : m.on with
          | false => rfl
          | true => rw [hk.ssl ho] at he; simp at he
        simp [hk.cb, this]
    · intro he
      have he' : e.ssl = true := he
      refine ⟨s.bufs.length, fun _ => none, ?_, ?_, ?_⟩
      · rw [h2]; simp [initLocks, hl, he']
      · rw [h1]; simp [initLocks, hl, he']
      · intro n hn; exact (hq.1 n hn).symm
    · intro he
      have he' : e.ssl = false := he
      have : m.on = false := by
        cases ho : m.on with
        | false => rfl
        | true => rw [hk.ssl ho] at he'; simp at he'
      rw [h2]
      simp only [initLocks, he']
      exact hk.off this
    · intro p x hx
      have hx' : m.dyn[p]? = some (some x) := hx
      have := hq.2 p x hx'
      subst this
      rw [h4, hk.dyn p none hx']
      simp
  | cleanup t hq =>
    have hi : e.ssl = true → Idle e s := by
      intro _ p b hp hb k hkk
      cases ho : m.on with
      | false => rw [hk.off ho] at hp; simp at hp
      | true =>
        obtain ⟨p', b', g1, g2, g3⟩ := hk.on ho
        rw [g1] at hp
        obtain rfl := Option.some.inj hp
        rw [g2] at hb
        obtain rfl := Option.some.inj (Option.some.inj hb)
        rw [g3 k hkk]
        exact hq.1 k hkk
    obtain ⟨s1, g1, g2, g3, g4, -, -, -, g8, -⟩ := cleanup_exact (e := e) (t := t) hk.valid hi
    obtain ⟨s1', k1, k2, -⟩ := cleanup_valid (e := e) (t := t) hk.valid hi
    have : s1' = s1 := by rw [g1] at k1; injection k1 with k1; exact k1.symm
    subst this
    refine ⟨s1', by simp only [step, g1]; rfl, k2, ?_, by simp, ?_, by rw [g8]; exact hk.len, ?_, by simp⟩
    · cases he : e.ssl with
      | true =>
        rw [(g3 he).2, hk.cb]
        cases ho : m.on with
        | false => rfl
        | true =>
          obtain ⟨p', b', g1, -⟩ := hk.on ho
          rw [g1]; rfl
      | false =>
        rw [(g4 he).2.1, hk.cb]
        cases ho : m.on with
        | false => rfl
        | true => rw [hk.ssl ho] at he; simp at he
    · intro _
      cases he : e.ssl with
      | true => exact (g3 he).1
      | false =>
        rw [(g4 he).1]
        cases ho : m.on with
        | false => exact hk.off ho
        | true => rw [hk.ssl ho] at he; simp at he
    · intro p x hx
      have hx' : m.dyn[p]? = some (some x) := hx
      have := hq.2 p x hx'
      subst this
      rw [g8, hk.dyn p none hx']
      simp
  | enter t n hn h =>
    rcases bool_cases m.on with ho | ho
    · refine ⟨s, by simp [step, lock, hk.cb, ho, Out.state?], hk.valid, hk.cb, by simp [ho], hk.off, hk.len, hk.dyn, hk.ssl⟩
    · obtain ⟨p, b, g1, g2, g3⟩ := hk.on ho
      have hb : b n = none := by rw [g3 n hn]; exact h
      refine ⟨{ s with bufs := s.bufs.set p (some fun k => if k = n then some t else b k) }, ?_, ?_, hk.cb, ?_, hk.off, hk.len, hk.dyn, hk.ssl⟩
      · simp [step, lock, hk.cb, ho, g1, g2, hn, hb, Out.state?]
      · refine ⟨hk.valid.handle, fun q hq => ?_⟩
        have hq' : s.buf = some q := hq
        rw [g1] at hq'
        obtain rfl := Option.some.inj hq'
        exact ⟨_, getElem?_set_eq' _ _ _ g2⟩
      · intro _
        refine ⟨p, _, g1, getElem?_set_eq' _ _ _ g2, fun k hkk => ?_⟩
        show (if k = n then some t else b k) = (if k = n then some t else m.who k)
        rw [g3 k hkk]
  | wait t u n hn h =>
    refine ⟨s, ?_, hk⟩
    cases ho : m.on with
    | false => simp [step, lock, hk.cb, ho, Out.state?]
    | true =>
      obtain ⟨p, b, g1, g2, g3⟩ := hk.on ho
      have hb : b n = some u := by rw [g3 n hn]; exact h
      simp [step, lock, hk.cb, ho, g1, g2, hn, hb, Out.state?]
  | leave t n hn h =>
    rcases bool_cases m.on with ho | ho
    · refine ⟨s, by simp [step, unlock, hk.cb, ho, Out.state?], hk.valid, hk.cb, by simp [ho], hk.off, hk.len, hk.dyn, hk.ssl⟩
    · obtain ⟨p, b, g1, g2, g3⟩ := hk.on ho
      have hb : b n = some t := by rw [g3 n hn]; exact h
      refine ⟨{ s with bufs := s.bufs.set p (some fun k => if k = n then none else b k) }, ?_, ?_, hk.cb, ?_, hk.off, hk.len, hk.dyn, hk.ssl⟩
      · simp [step, unlock, hk.cb, ho, g1, g2, hn, hb, Out.state?]
      · refine ⟨hk.valid.handle, fun q hq => ?_⟩
        have hq' : s.buf = some q := hq
        rw [g1] at hq'
        obtain rfl := Option.some.inj hq'
        exact ⟨_, getElem?_set_eq' _ _ _ g2⟩
      · intro _
        refine ⟨p, _, g1, getElem?_set_eq' _ _ _ g2, fun k hkk => ?_⟩
        show (if k = n then none else b k) = (if k = n then none else m.who k)
        rw [g3 k hkk]
  | create ok =>
    cases hc : m.on && ok with
    | false =>
      refine ⟨s, ?_, by simpa using hk⟩
      have : (!s.cb || !ok) = true := by rw [hk.cb, ← Bool.not_and, hc]; rfl
      simp [step, dynCreate, this, Out.state?]
    | true =>
      have hon : m.on = true := by simp at hc; exact hc.1
      have : (!s.cb || !ok) = false := by rw [hk.cb, ← Bool.not_and, hc]; rfl
      refine ⟨{ s with dyn := s.dyn ++ [some none] }, by simp [step, dynCreate, this, Out.state?], ?_⟩
      simp only [↓reduceIte]
      refine ⟨⟨hk.valid.handle, hk.valid.buf⟩, hk.cb, hk.on, hk.off, by simp [hk.len], ?_, hk.ssl⟩
      intro p x hx
      have hx' : (m.dyn ++ [some none])[p]? = some (some x) := hx
      show (s.dyn ++ [some none])[p]? = _
      rw [List.getElem?_append] at hx' ⊢
      rw [hk.len]
      split at hx'
      · rename_i hp
        rw [if_pos hp]
        exact hk.dyn p x hx'
      · rename_i hp
        rw [if_neg hp, hx']
        simp [hon]
  | dynEnter t p h =>
    have hd := hk.dyn p none h
    rcases bool_cases m.on with ho | ho
    · refine ⟨s, by simp [step, dynLock, hk.cb, ho, Out.state?], hk.valid, hk.cb, by simp [ho], hk.off, by simp [hk.len], ?_, hk.ssl⟩
      intro q x hx
      have hx' : (m.dyn.set p (some (some t)))[q]? = some (some x) := hx
      by_cases hpq : p = q
      · subst hpq
        rw [hd]; simp [ho]
      · rw [getElem?_set_ne' _ _ hpq] at hx'
        exact hk.dyn q x hx'
    · refine ⟨{ s with dyn := s.dyn.set p (some (some t)) }, ?_, ⟨hk.valid.handle, hk.valid.buf⟩, hk.cb, hk.on, hk.off, by simp [hk.len], ?_, hk.ssl⟩
      · simp only [ite_self] at hd
        simp [step, dynLock, hk.cb, ho, hd, Out.state?]
      intro q x hx
      have hx' : (m.dyn.set p (some (some t)))[q]? = some (some x) := hx
      show (s.dyn.set p (some (some t)))[q]? = _
      by_cases hpq : p = q
      · subst hpq
        rw [getElem?_set_eq' _ _ _ h] at hx'
        rw [getElem?_set_eq' _ _ _ hd, hx']
        simp [ho]
      · rw [getElem?_set_ne' _ _ hpq] at hx' ⊢
        exact hk.dyn q x hx'
  | dynWait t u p h =>
    refine ⟨s, ?_, hk⟩
    have hd := hk.dyn p _ h
    cases ho : m.on with
    | false => simp [step, dynLock, hk.cb, ho, Out.state?]
    | true =>
      simp only [ho, ↓reduceIte] at hd
      simp [step, dynLock, hk.cb, ho, hd, Out.state?]
  | dynLeave t p h =>
    have hd := hk.dyn p _ h
    rcases bool_cases m.on with ho | ho
    · refine ⟨s, by simp [step, dynUnlock, hk.cb, ho, Out.state?], hk.valid, hk.cb, by simp [ho], hk.off, by simp [hk.len], ?_, hk.ssl⟩
      intro q x hx
      have hx' : (m.dyn.set p (some none))[q]? = some (some x) := hx
      by_cases hpq : p = q
      · subst hpq
        rw [hd]; simp [ho]
      · rw [getElem?_set_ne' _ _ hpq] at hx'
        exact hk.dyn q x hx'
    · refine ⟨{ s with dyn := s.dyn.set p (some none) }, ?_, ⟨hk.valid.handle, hk.valid.buf⟩, hk.cb, hk.on, hk.off, by simp [hk.len], ?_, hk.ssl⟩
      · simp only [ho, ↓reduceIte] at hd
        simp [step, dynUnlock, hk.cb, ho, hd, Out.state?]
      intro q x hx
      have hx' : (m.dyn.set p (some none))[q]? = some (some x) := hx
      show (s.dyn.set p (some none))[q]? = _
      by_cases hpq : p = q
      · subst hpq
        rw [getElem?_set_eq' _ _ _ h] at hx'
        rw [getElem?_set_eq' _ _ _ hd, hx']
        simp [ho]
      · rw [getElem?_set_ne' _ _ hpq] at hx' ⊢
        exact hk.dyn q x hx'
  | destroy p h =>
    have hd := hk.dyn p _ h
    simp only [ite_self] at hd
    rcases bool_cases m.on with ho | ho
    · refine ⟨s, by simp [step, dynDestroy, hk.cb, ho, Out.state?], hk.valid, hk.cb, by simp [ho], hk.off, by simp [hk.len], ?_, hk.ssl⟩
      intro q x hx
      have hx' : (m.dyn.set p none)[q]? = some (some x) := hx
      by_cases hpq : p = q
      · subst hpq
        rw [getElem?_set_eq' _ _ _ h] at hx'
        simp at hx'
      · rw [getElem?_set_ne' _ _ hpq] at hx'
        exact hk.dyn q x hx'
    · refine ⟨{ s with dyn := s.dyn.set p none }, ?_, ⟨hk.valid.handle, hk.valid.buf⟩, hk.cb, hk.on, hk.off, by simp [hk.len], ?_, hk.ssl⟩
      · simp [step, dynDestroy, hk.cb, ho, hd, Out.state?]
      intro q x hx
      have hx' : (m.dyn.set p none)[q]? = some (some x) := hx
      show (s.dyn.set p none)[q]? = _
      by_cases hpq : p = q
      · subst hpq
        rw [getElem?_set_eq' _ _ _ h] at hx'
        simp at hx'
      · rw [getElem?_set_ne' _ _ hpq] at hx' ⊢
        exact hk.dyn q x hx'

theorem knows_run {e : Env} {m m' : Mon} {h : List Ev} (hr : Rules e m h m') : ∀ s, Knows e m s → ∃ s', run e h s = some s' ∧ Knows e m' s' := by
  induction hr with
  | nil m => exact fun s hk => ⟨s, rfl, hk⟩
  | cons m m1 m2 a h h1 h2 ih =>
    intro s hk
    obtain ⟨s1, g1, g2⟩ := knows_step h1 hk
    obtain ⟨s', g3, g4⟩ := ih s1 g2
    exact ⟨s', by rw [run_cons, g1]; exact g3, g4⟩

/-- **C83 (locks).** In every history by the rules (in which the allocation in `init_locks` succeeds) nothing is undefined; and while the library
is started a thread that asks for a lock gets it if nobody is in the critical section, and waits otherwise. The same for the dynamic
locks. -/
theorem c83_locks_partial (e : Env) (h : List Ev) (m : Mon) (hr : Rules e calm h m) :
    ∃ s, run e h start = some s ∧
      (m.on = true → ∀ t n, n < e.locks →
        (m.who n = none → ∃ s', lock e t n s = .ret s' ∧ ∀ u, lock e u n s' = .blocked s') ∧
        (∀ u, m.who n = some u → lock e t n s = .blocked s ∧ (t ≠ u → unlock e t n s = .ub))) ∧
      (m.on = true → ∀ t p,
        (m.dyn[p]? = some (some none) → ∃ s', dynLock t p s = .ret s' ∧ ∀ u, dynLock u p s' = .blocked s') ∧
        (∀ u, m.dyn[p]? = some (some (some u)) → dynLock t p s = .blocked s)) := by
  obtain ⟨s, h1, hk⟩ := knows_run hr start (knows_start e)
  refine ⟨s, h1, fun ho t n hn => ?_, fun ho t p => ?_⟩
  · obtain ⟨p, b, g1, g2, g3⟩ := hk.on ho
    refine ⟨fun hw => ?_, fun u hw => ?_⟩
    · have hb : b n = none := by rw [g3 n hn]; exact hw
      refine ⟨_, by simp only [lock, hk.cb, ho, g1, g2, hn, hb]; rfl, fun u => ?_⟩
      simp only [lock, hk.cb, ho, g1, getElem?_set_eq' _ _ _ g2, hn]
      simp
    · have hb : b n = some u := by rw [g3 n hn]; exact hw
      refine ⟨by simp [lock, hk.cb, ho, g1, g2, hn, hb], fun htu => ?_⟩
      simp [unlock, hk.cb, ho, g1, g2, hn, hb, Ne.symm htu]
  · refine ⟨fun hw => ?_, fun u hw => ?_⟩
    · have hd := hk.dyn p _ hw
      simp only [ite_self] at hd
      refine ⟨_, by simp only [dynLock, hk.cb, ho, hd]; rfl, fun u => ?_⟩
      simp only [dynLock, hk.cb, ho, getElem?_set_eq' _ _ _ hd]
      simp
    · have hd := hk.dyn p _ hw
      simp only [ho, ↓reduceIte] at hd
      simp [dynLock, hk.cb, ho, hd]

/-- Thread 1 is in section 3 and thread 2 waits. -/
example : Rules (multi true) calm [.init 0 lucky, .lock 1 3, .lock 2 3] ⟨true, fun k => if k = 3 then some 1 else none, []⟩ := by
  refine .cons _ _ _ _ _ (.init _ 0 lucky rfl ⟨by simp [calm], by simp [calm]⟩) ?_
  refine .cons _ _ _ _ _ (.enter _ 1 3 (by decide) rfl) ?_
  exact .cons _ _ _ _ _ (.wait _ 2 1 3 (by decide) rfl) (.nil _)

/-- Starting the library again while a lock is held lets a second thread into the critical section, and the first one unlocks a mutex that it
does not hold. -/
theorem c83_reinit_witness : ∃ s s', run (multi true) [.init 0 lucky, .lock 1 3] start = some s ∧
    run (multi true) [.init 0 lucky] s = some s' ∧ (∃ s'', lock (multi true) 2 3 s' = .ret s'') ∧ unlock (multi true) 1 3 s' = .ub :=
  ⟨_, _, rfl, rfl, ⟨_, rfl⟩, rfl⟩

/-- Stopping the library while a lock is held destroys a locked mutex. -/
theorem c83_stop_witness : run (multi true) [.init 0 lucky, .lock 1 3, .cleanup 0] start = none := rfl

/-- If the allocation fails when the library is started a second time, the error is ignored, the callbacks stay in place, and the next lock
dereferences a null pointer; `cleanup_crypto_lib` does not remove the callbacks any more. -/
theorem c83_null_witness : run (multi true) [.init 0 lucky, .init 0 ⟨false, true, true, true, true⟩, .lock 0 3] start = none ∧
    run (multi true) [.init 0 lucky, .init 0 ⟨false, true, true, true, true⟩, .cleanup 0, .lock 0 3] start = none := ⟨rfl, rfl⟩

end Verif.Lib
