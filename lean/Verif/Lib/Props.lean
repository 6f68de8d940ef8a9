import Verif.Lib.Lemmas
import Mathlib.Data.List.Induction

/-!
# C83: starting and stopping the library

The statements use histories of calls by any threads. `Good`, `repeats`, `Mon` and `Disciplined` are about the history alone.
-/

namespace Verif.Lib

/-- Everything in `init_crypto_lib` succeeds. -/
def lucky : Luck := ⟨true, true, true, true, true⟩

/-- Calls of `init_crypto_lib` (true) and `cleanup_crypto_lib` (false) by some threads, with whatever succeeds. -/
def call : Thread × Bool × Luck → Ev
  | (t, true, l) => .init t l
  | (t, false, _) => .cleanup t

/-- No mutex is held, in any array. -/
def Free (s : State) : Prop := ∀ (p : Nat) (m : Mutexes), s.bufs[p]? = some (some m) → ∀ k, m k = none

theorem free_set_none {s : State} (h : Free s) (p : Nat) : ∀ (q : Nat) (m : Mutexes), (s.bufs.set p none)[q]? = some (some m) → ∀ k, m k = none := by
  intro q m hm
  rw [List.getElem?_set] at hm
  split at hm
  · split at hm <;> simp at hm
  · exact h q m hm

theorem free_init {e : Env} {l : Luck} {t : Thread} {s0 s : State} (h : Free s0) (hs : (init e l t s0).state? = some s) : Free s := by
  obtain ⟨s', h0, h1, -⟩ := init_state e l t s0
  rw [hs] at h0
  obtain rfl := Option.some.inj h0
  intro p m hm
  rw [h1] at hm
  unfold initLocks at hm
  split at hm
  · exact h p m hm
  · split at hm
    · exact h p m hm
    · simp only [List.getElem?_append] at hm
      split at hm
      · exact h p m hm
      · rw [List.getElem?_cons] at hm
        split at hm
        · simp only [Option.some.injEq] at hm
          subst hm
          intro k; rfl
        · simp at hm

theorem free_cleanup {e : Env} {t : Thread} {s0 s : State} (hv : Valid s0) (h : Free s0) (hs : cleanup e t s0 = .ret s) : Free s := by
  obtain ⟨s1, h1, -, -, hb, hbs, -, -⟩ := dropHandle_valid (e := e) (t := t) hv
  simp only [cleanup, h1] at hs
  have hf : Free s1 := by intro p m hm; exact h p m (hbs ▸ hm)
  unfold killLocks at hs
  split at hs
  · simp at hs
  · rename_i s2 h2
    simp only [Out.ret.injEq] at hs
    subst hs
    split at h2
    · exact Option.some.inj h2 ▸ hf
    · split at h2
      · exact Option.some.inj h2 ▸ hf
      · split at h2
        · split at h2
          · exact Option.some.inj h2 ▸ free_set_none hf _
          · simp at h2
        · simp at h2

theorem idle_of_free {e : Env} {s : State} (h : Free s) : Idle e s := fun p m _ hm k _ => h p m hm k

theorem calls_valid (e : Env) : ∀ (cs : List (Thread × Bool × Luck)) (s : State), Valid s → Free s →
    ∃ s', run e (cs.map call) s = some s' ∧ Valid s' ∧ Free s'
  | [], s, hv, hf => ⟨s, rfl, hv, hf⟩
  | (t, true, l) :: cs, s, hv, hf => by
    obtain ⟨s1, h1, -⟩ := init_state e l t s
    obtain ⟨s', h2, h3⟩ := calls_valid e cs s1 (valid_init hv h1) (free_init hf h1)
    refine ⟨s', ?_, h3⟩
    rw [List.map_cons, run_cons]
    simp only [call, step, h1]
    exact h2
  | (t, false, l) :: cs, s, hv, hf => by
    obtain ⟨s1, h1, hv1, -⟩ := cleanup_valid (e := e) (t := t) hv (fun _ => idle_of_free hf)
    obtain ⟨s', h2, h3⟩ := calls_valid e cs s1 hv1 (free_cleanup hv hf h1)
    refine ⟨s', ?_, h3⟩
    rw [List.map_cons, run_cons]
    simp only [call, step, h1]
    exact h2

/-- **C83 (any order of calls).** Whatever sequence of `init_crypto_lib` and `cleanup_crypto_lib` threads call, and whatever fails in them,
nothing is released twice and no released object is used (as long as OpenSSL holds no lock at these moments). -/
theorem c83_no_ub (e : Env) (cs : List (Thread × Bool × Luck)) : run e (cs.map call) start ≠ none := by
  obtain ⟨s', h, -⟩ := calls_valid e cs start valid_start (by intro p m hm; simp [start] at hm)
  rw [h]; simp

example (e : Env) : run e [.cleanup 0, .init 1 ⟨true, true, true, false, true⟩, .init 2 lucky, .cleanup 1, .cleanup 1] start ≠ none :=
  c83_no_ub e [(0, false, lucky), (1, true, ⟨true, true, true, false, true⟩), (2, true, lucky), (1, false, lucky), (1, false, lucky)]

/-! ### What is left behind -/

/-- How often an initialisation follows an initialisation directly. -/
def repeats : List (Thread × Bool) → Nat
  | a :: b :: cs => (if a.2 = true ∧ b.2 = true then 1 else 0) + repeats (b :: cs)
  | _ => 0

/-- The last call was an initialisation. -/
def running (cs : List (Thread × Bool)) : Bool := (cs.getLast?.map Prod.snd).getD false

def lk (c : Thread × Bool) : Thread × Bool × Luck := (c.1, c.2, lucky)

theorem run_snoc (e : Env) (h : List Ev) (a : Ev) (s s1 s2 : State) (h1 : run e h s = some s1) (h2 : (step e a s1).state? = some s2) :
    run e (h ++ [a]) s = some s2 := by
  rw [run_append, h1]
  show run e [a] s1 = some s2
  rw [run_cons, h2]; rfl

theorem repeats_snoc : ∀ (cs : List (Thread × Bool)) (c : Thread × Bool),
    repeats (cs ++ [c]) = repeats cs + (if running cs = true ∧ c.2 = true then 1 else 0)
  | [], c => by simp [repeats, running]
  | [a], c => by
    obtain ⟨a, b⟩ := a
    cases b <;> simp [repeats, running]
  | a :: b :: cs, c => by
    have h := repeats_snoc (b :: cs) c
    have hr : running (a :: b :: cs) = running (b :: cs) := by simp [running, List.getLast?_cons_cons]
    simp only [List.cons_append, repeats, hr] at h ⊢
    omega

theorem running_snoc (cs : List (Thread × Bool)) (c : Thread × Bool) : running (cs ++ [c]) = c.2 := by simp [running]

/-- The handles after a call of `init_crypto_lib` in which everything succeeds. -/
theorem init_lucky (e : Env) (t : Thread) (s0 : State) : ∃ s own, init e lucky t s0 = .ret s ∧
    s.handles = s0.handles ++ [some own] ∧ s.handle = some s0.handles.length ∧
    (own = true ↔ s0.core (e.slot t) = .off) ∧
    s.core = (if s0.core (e.slot t) = .off then put s0.core (e.slot t) .ready else s0.core) ∧
    (e.ssl = true → s.bufs = s0.bufs ++ [some fun _ => none] ∧ s.buf = some s0.bufs.length ∧ s.cb = true) ∧
    s.avail = e.aes ∧ s.sodium = true ∧ s.misuse = true := by
  have hl : (initLocks e lucky s0).handles = s0.handles ∧ (initLocks e lucky s0).core = s0.core ∧
      (e.ssl = true → (initLocks e lucky s0).bufs = s0.bufs ++ [some fun _ => none] ∧
        (initLocks e lucky s0).buf = some s0.bufs.length ∧ (initLocks e lucky s0).cb = true) := by
    unfold initLocks
    cases e.ssl <;> simp [lucky]
  obtain ⟨h1, h2, h3⟩ := hl
  by_cases hc : s0.core (e.slot t) = .off
  · refine ⟨{ initLocks e lucky s0 with
        core := put s0.core (e.slot t) .ready, handles := s0.handles ++ [some true], handle := some s0.handles.length,
        sodium := true, misuse := true, avail := e.aes }, true, ?_, rfl, rfl, by simp [hc], by simp [hc], h3, rfl, rfl, rfl⟩
    simp only [init, mkHandle, h1, h2, hc]
    rfl
  · refine ⟨{ initLocks e lucky s0 with
        core := s0.core, handles := s0.handles ++ [some false], handle := some s0.handles.length,
        sodium := true, misuse := true, avail := e.aes }, false, ?_, rfl, rfl, by simp [hc], by simp [hc], h3, rfl, rfl, rfl⟩
    have hm : mkHandle e lucky t true s0.core = (s0.core, some false) := by simp [mkHandle, hc]
    simp only [init, h1, h2, hm]
    rfl

/-- `cleanup_crypto_lib` in full. -/
theorem cleanup_exact {e : Env} {t : Thread} {s : State} (h : Valid s) (hi : e.ssl = true → Idle e s) :
    ∃ s', cleanup e t s = .ret s' ∧ s'.handle = none ∧ (e.ssl = true → s'.buf = none ∧ s'.cb = (s.cb && s.buf.isNone)) ∧
      (e.ssl = false → s'.buf = s.buf ∧ s'.cb = s.cb ∧ s'.bufs = s.bufs) ∧
      live s'.handles + (if s.handle.isSome then 1 else 0) = live s.handles ∧
      (e.ssl = true → live s'.bufs + (if s.buf.isSome then 1 else 0) = live s.bufs) ∧
      s'.core = (match s.handle with
        | none => s.core
        | some p => if s.handles[p]? = some (some true) then put s.core (e.slot t) .off else s.core) ∧
      s'.dyn = s.dyn ∧ s'.avail = s.avail ∧ s'.sodium = s.sodium := by
  have hd : ∃ s1, dropHandle e t s = some s1 ∧ s1.handle = none ∧ s1.buf = s.buf ∧ s1.bufs = s.bufs ∧ s1.cb = s.cb ∧ s1.dyn = s.dyn ∧
      live s1.handles + (if s.handle.isSome then 1 else 0) = live s.handles ∧
      s1.core = (match s.handle with
        | none => s.core
        | some p => if s.handles[p]? = some (some true) then put s.core (e.slot t) .off else s.core) ∧
      s1.avail = s.avail ∧ s1.sodium = s.sodium := by
    unfold dropHandle
    cases hp : s.handle with
    | none => exact ⟨s, rfl, hp, rfl, rfl, rfl, rfl, rfl, rfl, rfl, rfl⟩
    | some p =>
      obtain ⟨own, ho⟩ := h.handle p hp
      simp only [ho]
      refine ⟨_, rfl, rfl, rfl, rfl, rfl, rfl, live_set_none _ _ _ ho, ?_, rfl, rfl⟩
      cases own <;> simp
  obtain ⟨s1, h1, h2, h3, h4, h5, h6, h7, h8, h9, h10⟩ := hd
  simp only [cleanup, h1]
  unfold killLocks
  cases hs : e.ssl with
  | false =>
    exact ⟨s1, rfl, h2, by simp, fun _ => ⟨h3, h5, h4⟩, h7, by simp, h8, h6, h9, h10⟩
  | true =>
    simp only [Bool.not_true, Bool.false_eq_true, ↓reduceIte]
    rw [h3]
    cases hp : s.buf with
    | none =>
      exact ⟨s1, rfl, h2, fun _ => ⟨h3.trans hp, by simp [h5]⟩, by simp, h7, fun _ => by simp [h4], h8, h6, h9, h10⟩
    | some p =>
      obtain ⟨m, hm⟩ := h.buf p hp
      have : destroyable e.locks m = true := (destroyable_iff _ _).2 (hi hs p m hp hm)
      simp only [h4, hm, this, ↓reduceIte]
      exact ⟨_, rfl, h2, fun _ => ⟨rfl, by simp⟩, by simp, h7, fun _ => live_set_none _ _ _ hm, h8, h6, h9, h10⟩

/-- What is left after calls that succeed: the objects in use and those that no pointer leads to. -/
theorem count_inv (e : Env) (cs : List (Thread × Bool)) : ∃ s, run e ((cs.map lk).map call) start = some s ∧ Valid s ∧ Free s ∧
    live s.handles = repeats cs + (if running cs then 1 else 0) ∧ s.handle.isSome = running cs ∧
    (e.ssl = true → live s.bufs = repeats cs + (if running cs then 1 else 0) ∧ s.buf.isSome = running cs ∧ s.cb = running cs) ∧
    (e.ssl = false → s.bufs = [] ∧ s.buf = none ∧ s.cb = false) := by
  induction cs using List.reverseRecOn with
  | nil => exact ⟨start, rfl, valid_start, by intro p m hm; simp [start] at hm, rfl, rfl, fun _ => ⟨rfl, rfl, rfl⟩, fun _ => ⟨rfl, rfl, rfl⟩⟩
  | append_singleton cs c ih =>
    obtain ⟨s, h1, hv, hf, h2, h3, h4, h5⟩ := ih
    obtain ⟨t, b⟩ := c
    rw [repeats_snoc, running_snoc]
    simp only [List.map_append, List.map_cons, List.map_nil]
    cases b with
    | true =>
      obtain ⟨s1, own, g1, g2, g3, -, -, g4, -⟩ := init_lucky e t s
      have hs : (init e lucky t s).state? = some s1 := by rw [g1]; rfl
      refine ⟨s1, run_snoc e _ _ _ _ _ h1 hs, valid_init hv hs, free_init hf hs, ?_, by rw [g3]; rfl, fun he => ?_, fun he => ?_⟩
      · rw [g2, live_append_some, h2]; simp
      · obtain ⟨k1, k2, k3⟩ := g4 he
        refine ⟨?_, by rw [k2]; rfl, k3⟩
        rw [k1, live_append_some, (h4 he).1]; simp
      · obtain ⟨s', k0, k1, k2, k3, -⟩ := init_state e lucky t s
        rw [hs] at k0
        obtain rfl := Option.some.inj k0
        rw [k1, k2, k3]
        simp only [initLocks, he]
        exact h5 he
    | false =>
      obtain ⟨s1, g1, g2, g3, g4, g5, g6, -⟩ := cleanup_exact (e := e) (t := t) hv (fun _ => idle_of_free hf)
      have hs : (cleanup e t s).state? = some s1 := by rw [g1]; rfl
      obtain ⟨s1', k1, k2, -⟩ := cleanup_valid (e := e) (t := t) hv (fun _ => idle_of_free hf)
      have : s1' = s1 := by rw [g1] at k1; injection k1 with k1; exact k1.symm
      subst this
      refine ⟨s1', run_snoc e _ _ _ _ _ h1 hs, k2, free_cleanup hv hf g1, ?_, by rw [g2]; rfl, fun he => ?_, fun he => ?_⟩
      · rw [h3] at g5
        simp; omega
      · obtain ⟨q1, q2, q3⟩ := h4 he
        have := g6 he
        rw [q2] at this
        refine ⟨by simp; omega, by rw [(g3 he).1]; rfl, ?_⟩
        rw [(g3 he).2, q3]
        have : s.buf.isNone = !s.buf.isSome := by cases s.buf <;> rfl
        rw [this, q2]
        cases running cs <;> rfl
      · obtain ⟨q1, q2, q3⟩ := h5 he
        obtain ⟨r1, r2, r3⟩ := g4 he
        exact ⟨r3.trans q1, r1.trans q2, r2.trans q3⟩

/-- **C83 (leaks).** After any sequence of calls that succeed, by any threads, the number of RELIC handles and of arrays of mutexes that were
not released is one if the last call was an initialisation, plus one for every initialisation that directly followed another: each of
these is lost for good. -/
theorem c83_count (e : Env) (cs : List (Thread × Bool)) : ∃ s, run e ((cs.map lk).map call) start = some s ∧
    live s.handles = repeats cs + (if running cs then 1 else 0) ∧
    (e.ssl = true → live s.bufs = repeats cs + (if running cs then 1 else 0) ∧ s.cb = running cs) ∧
    (e.ssl = false → s.bufs = [] ∧ s.cb = false) := by
  obtain ⟨s, h1, -, -, h2, -, h3, h4⟩ := count_inv e cs
  exact ⟨s, h1, h2, fun he => ⟨(h3 he).1, (h3 he).2.2⟩, fun he => ⟨(h4 he).1, (h4 he).2.2⟩⟩

/-- **C83 (a proper program).** If every initialisation is followed by a cleanup before the next one, nothing is left at the end. -/
theorem c83_balanced (e : Env) (cs : List (Thread × Bool)) (h : repeats cs = 0) (hr : running cs = false) :
    ∃ s, run e ((cs.map lk).map call) start = some s ∧ live s.handles = 0 ∧ live s.bufs = 0 ∧ s.cb = false := by
  obtain ⟨s, h1, -, -, h2, -, h3, h4⟩ := count_inv e cs
  rw [h, hr] at h2
  refine ⟨s, h1, h2, ?_, ?_⟩
  · cases he : e.ssl with
    | true => rw [(h3 he).1, h, hr]; rfl
    | false => rw [(h4 he).1]; rfl
  · cases he : e.ssl with
    | true => rw [(h3 he).2.2, hr]
    | false => rw [(h4 he).2.2]

example : repeats [(0, true), (0, false), (1, false), (2, true), (2, false)] = 0 ∧
    running [(0, true), (0, false), (1, false), (2, true), (2, false)] = false := by decide

/-- The same calls with two initialisations in a row leave one handle and one array behind. -/
example : repeats [(0, true), (0, true), (0, false), (0, false)] = 1 := by decide

/-! ### RELIC -/

/-- The contexts after calls by threads with the same context. -/
theorem core_inv (e : Env) (k : Nat) (cs : List (Thread × Bool)) (hk : ∀ c ∈ cs, e.slot c.1 = k) :
    ∃ s, run e ((cs.map lk).map call) start = some s ∧ Valid s ∧ Free s ∧ s.handle.isSome = running cs ∧
      (s.core k = if running cs = true ∨ 0 < repeats cs then .ready else .off) ∧ (∀ j, j ≠ k → s.core j = .off) ∧
      (∀ p, s.handle = some p → (s.handles[p]? = some (some true) ↔ repeats cs = 0)) := by
  induction cs using List.reverseRecOn with
  | nil => exact ⟨start, rfl, valid_start, by intro p m hm; simp [start] at hm, rfl, by simp [start, repeats, running],
      fun _ _ => rfl, by simp [start]⟩
  | append_singleton cs c ih =>
    obtain ⟨s, h1, hv, hf, h2, h3, h4, h5⟩ := ih fun c hc => hk c (by simp [hc])
    obtain ⟨t, b⟩ := c
    have ht : e.slot t = k := hk (t, b) (by simp)
    rw [repeats_snoc, running_snoc]
    simp only [List.map_append, List.map_cons, List.map_nil]
    cases b with
    | true =>
      obtain ⟨s1, own, g1, g2, g3, g4, g5, -⟩ := init_lucky e t s
      have hs : (init e lucky t s).state? = some s1 := by rw [g1]; rfl
      rw [ht] at g4 g5
      refine ⟨s1, run_snoc e _ _ _ _ _ h1 hs, valid_init hv hs, free_init hf hs, by rw [g3]; rfl, ?_, ?_, ?_⟩
      · rw [g5]
        split
        · simp [put]
        · rename_i hc
          rw [h3] at hc ⊢
          simp only [true_or, ↓reduceIte]
          split
          · rfl
          · rename_i hn; rw [if_neg hn] at hc; exact absurd rfl hc
      · intro j hj
        rw [g5]
        split
        · simp [put, hj, h4 j hj]
        · exact h4 j hj
      · intro p hp
        rw [g3] at hp
        obtain rfl := Option.some.inj hp
        rw [g2, getElem?_append_last]
        simp only [Option.some.injEq, g4, h3]
        cases running cs <;> simp
    | false =>
      obtain ⟨s1, g1, g2, g3, g4, g5, g6, g7, -⟩ := cleanup_exact (e := e) (t := t) hv (fun _ => idle_of_free hf)
      have hs : (cleanup e t s).state? = some s1 := by rw [g1]; rfl
      obtain ⟨s1', k1, k2, -⟩ := cleanup_valid (e := e) (t := t) hv (fun _ => idle_of_free hf)
      have : s1' = s1 := by rw [g1] at k1; injection k1 with k1; exact k1.symm
      subst this
      rw [ht] at g7
      refine ⟨s1', run_snoc e _ _ _ _ _ h1 hs, k2, free_cleanup hv hf g1, by rw [g2]; rfl, ?_, ?_, by rw [g2]; simp⟩
      · rw [g7]
        cases hh : s.handle with
        | none =>
          rw [hh] at h2
          simp only [h3, ← h2]
          simp
        | some p =>
          rw [hh] at h2
          simp only [h5 p hh]
          by_cases hz : repeats cs = 0
          · simp [hz, put]
          · simp only [hz, if_false, h3, ← h2]
            simp
            omega
      · intro j hj
        rw [g7]
        cases hh : s.handle with
        | none => exact h4 j hj
        | some p =>
          simp only
          split
          · simp [put, hj, h4 j hj]
          · exact h4 j hj

/-- **C83 (RELIC).** If all calls come from one thread (or RELIC has one context for all threads) and succeed, that thread can use pairings
exactly if the last call was an initialisation or if there was ever an initialisation directly after another: from then on no
`cleanup_crypto_lib` stops RELIC. With one context for each thread the other threads get an error whatever was called. -/
theorem c83_pairing (e : Env) (k : Nat) (cs : List (Thread × Bool)) (hk : ∀ c ∈ cs, e.slot c.1 = k) :
    ∃ s, run e ((cs.map lk).map call) start = some s ∧
      (∀ t, e.slot t = k → pairing e t s = if running cs = true ∨ 0 < repeats cs then .ready else .error) ∧
      (∀ t, e.slot t ≠ k → pairing e t s = .error) := by
  obtain ⟨s, h1, -, -, -, h2, h3, -⟩ := core_inv e k cs hk
  refine ⟨s, h1, fun t ht => ?_, fun t ht => ?_⟩
  · simp only [pairing, ht, h2]
    by_cases hc : running cs = true ∨ 0 < repeats cs
    · simp only [if_pos hc]
    · simp only [if_neg hc]
  · simp only [pairing, h3 _ ht]

/-- RELIC as README.md asks for it: a context for each thread. -/
def multi (ssl : Bool) : Env := ⟨ssl, 41, id, true⟩

example (ssl : Bool) : ∃ s, run (multi ssl) [.init 0 lucky] start = some s ∧ pairing (multi ssl) 0 s = .ready ∧
    pairing (multi ssl) 1 s = .error := by
  obtain ⟨s, h1, h2, h3⟩ := c83_pairing (multi ssl) 0 [(0, true)] (by simp [multi])
  exact ⟨s, h1, (h2 0 rfl).trans (by decide), h3 1 (by simp [multi])⟩

theorem cleanups_core (e : Env) : ∀ (ts : List Thread) (s s' : State), Valid s → Free s → s.handle = none →
    run e (ts.map Ev.cleanup) s = some s' → s'.core = s.core
  | [], s, s', _, _, _, h => by
    simp only [List.map_nil, run, Option.some.injEq] at h
    rw [h]
  | t :: ts, s, s', hv, hf, hn, h => by
    obtain ⟨s1, g1, g2, -, -, -, -, g7, -⟩ := cleanup_exact (e := e) (t := t) hv (fun _ => idle_of_free hf)
    obtain ⟨s1', k1, k2, -⟩ := cleanup_valid (e := e) (t := t) hv (fun _ => idle_of_free hf)
    have : s1' = s1 := by rw [g1] at k1; injection k1 with k1; exact k1.symm
    subst this
    rw [List.map_cons, run_cons] at h
    simp only [step, g1] at h
    have := cleanups_core e ts s1' s' k2 (free_cleanup hv hf g1) g2 h
    rw [this, g7, hn]

/-- **C83 (two threads).** Two threads with contexts of their own that can both use pairings, in whatever way they got there: then no sequence
of calls of `cleanup_crypto_lib` stops both. -/
theorem c83_two_threads (e : Env) (cs : List (Thread × Bool × Luck)) (s s' : State) (h : run e (cs.map call) start = some s)
    (t u : Thread) (htu : e.slot t ≠ e.slot u) (h1 : pairing e t s = .ready) (h2 : pairing e u s = .ready)
    (ts : List Thread) (h' : run e (ts.map Ev.cleanup) s = some s') : pairing e t s' = .ready ∨ pairing e u s' = .ready := by
  obtain ⟨s0, g0, hv, hf⟩ := calls_valid e cs start valid_start (by intro p m hm; simp [start] at hm)
  rw [h] at g0
  obtain rfl := Option.some.inj g0
  cases ts with
  | nil =>
    simp only [List.map_nil, run, Option.some.injEq] at h'
    exact Or.inl (h' ▸ h1)
  | cons v ts =>
    obtain ⟨s1, g1, g2, -, -, -, -, g7, -⟩ := cleanup_exact (e := e) (t := v) hv (fun _ => idle_of_free hf)
    obtain ⟨s1', k1, k2, -⟩ := cleanup_valid (e := e) (t := v) hv (fun _ => idle_of_free hf)
    have : s1' = s1 := by rw [g1] at k1; injection k1 with k1; exact k1.symm
    subst this
    rw [List.map_cons, run_cons] at h'
    simp only [step, g1] at h'
    have hc := cleanups_core e ts s1' s' k2 (free_cleanup hv hf g1) g2 h'
    have key : ∀ w, e.slot w ≠ e.slot v → s'.core (e.slot w) = s.core (e.slot w) := by
      intro w hw
      rw [hc, g7]
      cases s.handle with
      | none => rfl
      | some p =>
        simp only
        split
        · simp [put, hw]
        · rfl
    by_cases hw : e.slot t = e.slot v
    · right
      have := key u (by rw [← hw]; exact fun h => htu h.symm)
      simpa only [pairing, this] using h2
    · left
      simpa only [pairing, key t hw] using h1

example : ∃ s, run (multi true) [.init 0 lucky, .init 1 lucky] start = some s ∧ pairing (multi true) 0 s = .ready ∧
    pairing (multi true) 1 s = .ready := ⟨_, rfl, rfl, rfl⟩

end Verif.Lib
