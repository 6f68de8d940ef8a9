import Verif.Lib.Props

/-!
# C83: failures while the library starts, and the locks of OpenSSL
-/

namespace Verif.Lib

/-! ### Failures -/

/-- The RELIC contexts after `init_crypto_lib`. -/
theorem init_core (e : Env) (l : Luck) (t : Thread) (s0 s : State) (h : (init e l t s0).state? = some s) :
    s.core = s0.core ∨ (s0.core (e.slot t) = .off ∧ l.new = true ∧ l.coreInit = true ∧
      s.core = put s0.core (e.slot t) (if l.params then .ready else .bare)) := by
  have hl : (initLocks e l s0).core = s0.core := by
    unfold initLocks
    split
    · rfl
    · split <;> rfl
  have hm : (mkHandle e l t true s0.core).1 = s0.core ∨ (s0.core (e.slot t) = .off ∧ l.coreInit = true ∧
      (mkHandle e l t true s0.core).1 = put s0.core (e.slot t) (if l.params then .ready else .bare)) := by
    unfold mkHandle
    by_cases hc : s0.core (e.slot t) = .off
    · cases h1 : l.coreInit <;> cases h2 : l.params <;> simp [hc]
    · simp [hc]
  simp only [init, hl] at h
  split at h
  · exact Or.inl (by rw [← Option.some.inj h]; exact hl)
  · rename_i hn
    have hn' : l.new = true := by simpa using hn
    split at h
    · rename_i c hc
      rw [hc] at hm
      have : s.core = c := by rw [← Option.some.inj h]
      rw [this]
      rcases hm with hm | ⟨a, b, hm⟩
      · exact Or.inl hm
      · exact Or.inr ⟨a, hn', b, hm⟩
    · rename_i c own hc
      rw [hc] at hm
      have : s.core = c := by
        unfold initSodium at h
        split at h <;> rw [← Option.some.inj h]
      rw [this]
      rcases hm with hm | ⟨a, b, hm⟩
      · exact Or.inl hm
      · exact Or.inr ⟨a, hn', b, hm⟩

/-- When `init_crypto_lib` returns. -/
theorem init_ret (e : Env) (l : Luck) (t : Thread) (s0 s : State) (h : init e l t s0 = .ret s) :
    s.core (e.slot t) ≠ .off ∧ s.sodium = true ∧ s.misuse = true ∧ s.avail = e.aes ∧ s.handle.isSome = true ∧
      (l.params = true → s0.core (e.slot t) ≠ .bare → s.core (e.slot t) = .ready) := by
  have hl : (initLocks e l s0).core = s0.core := by
    unfold initLocks
    split
    · rfl
    · split <;> rfl
  simp only [init, hl] at h
  split at h
  · simp at h
  · split at h
    · simp at h
    · rename_i c own hc
      unfold initSodium at h
      split at h
      · simp at h
      · simp only [Out.ret.injEq] at h
        subst h
        refine ⟨?_, rfl, rfl, rfl, rfl, ?_⟩
        · unfold mkHandle at hc
          by_cases h0 : s0.core (e.slot t) = .off
          · cases h1 : l.coreInit <;> cases h2 : l.params <;> simp [h0, h1, h2] at hc
            simp [← hc.1, put]
          · simp [h0] at hc
            simpa [← hc.1] using h0
        · intro hp hb
          unfold mkHandle at hc
          by_cases h0 : s0.core (e.slot t) = .off
          · cases h1 : l.coreInit <;> simp [h0, h1, hp] at hc
            simp [← hc.1, put]
          · simp [h0] at hc
            rw [← hc.1]
            cases hs : s0.core (e.slot t) with
            | off => exact absurd hs h0
            | bare => exact absurd hs hb
            | ready => rfl

/-- The RELIC contexts after any step but an initialisation. -/
theorem step_core {e : Env} {a : Ev} {s s' : State} (h : (step e a s).state? = some s') (j : Nat) :
    s'.core j = s.core j ∨ s'.core j = .off ∨ ∃ t l, a = .init t l ∧ e.slot t = j ∧ s.core j = .off ∧
      s'.core j = (if l.params then .ready else .bare) := by
  cases a with
  | init t l =>
    rcases init_core e l t s s' h with h1 | ⟨h0, -, -, h1⟩
    · exact Or.inl (by rw [h1])
    · by_cases hj : e.slot t = j
      · exact Or.inr (Or.inr ⟨t, l, rfl, hj, by rw [← hj]; exact h0, by rw [h1]; simp [put, hj]⟩)
      · left; rw [h1]; simp only [put]; rw [if_neg fun hh => hj (Eq.symm hh)]
  | cleanup t =>
    simp only [step, cleanup] at h
    split at h
    · simp [Out.state?] at h
    · rename_i s1 hs1
      split at h
      · simp [Out.state?] at h
      · rename_i s2 hs2
        obtain rfl := Option.some.inj h
        have h2 : s2.core = s1.core := by
          unfold killLocks at hs2
          split at hs2
          · rw [Option.some.inj hs2]
          · split at hs2
            · rw [Option.some.inj hs2]
            · split at hs2
              · split at hs2
                · rw [← Option.some.inj hs2]
                · simp at hs2
              · simp at hs2
        rw [h2]
        unfold dropHandle at hs1
        split at hs1
        · left; rw [Option.some.inj hs1]
        · split at hs1
          · rename_i own _
            rw [← Option.some.inj hs1]
            cases own
            · left; rfl
            · by_cases hj : j = e.slot t
              · right; left; simp [put, hj]
              · left; simp [put, hj]
          · simp at hs1
  | lock t n =>
    left
    simp only [step, lock] at h
    repeat' split at h
    all_goals first | (simp only [Out.state?, Option.some.injEq] at h; rw [← h]) | simp [Out.state?] at h
  | unlock t n =>
    left
    simp only [step, unlock] at h
    repeat' split at h
    all_goals first | (simp only [Out.state?, Option.some.injEq] at h; rw [← h]) | simp [Out.state?] at h
  | dynCreate m =>
    left
    simp only [step, dynCreate] at h
    repeat' split at h
    all_goals first | (simp only [Out.state?, Option.some.injEq] at h; rw [← h]) | simp [Out.state?] at h
  | dynLock t n =>
    left
    simp only [step, dynLock] at h
    repeat' split at h
    all_goals first | (simp only [Out.state?, Option.some.injEq] at h; rw [← h]) | simp [Out.state?] at h
  | dynUnlock t n =>
    left
    simp only [step, dynUnlock] at h
    repeat' split at h
    all_goals first | (simp only [Out.state?, Option.some.injEq] at h; rw [← h]) | simp [Out.state?] at h
  | dynDestroy n =>
    left
    simp only [step, dynDestroy] at h
    repeat' split at h
    all_goals first | (simp only [Out.state?, Option.some.injEq] at h; rw [← h]) | simp [Out.state?] at h

/-- In a history the setting of the curve parameters never fails. -/
def ParamsOk (h : List Ev) : Prop := ∀ t l, Ev.init t l ∈ h → l.params = true

theorem never_bare (e : Env) : ∀ (h : List Ev) (s s' : State), ParamsOk h → (∀ j, s.core j ≠ .bare) → run e h s = some s' →
    ∀ j, s'.core j ≠ .bare
  | [], s, s', _, h0, hr, j => by
    simp only [run, Option.some.injEq] at hr
    exact hr ▸ h0 j
  | a :: h, s, s', hp, h0, hr, j => by
    rw [run_cons] at hr
    cases hs : (step e a s).state? with
    | none => simp [hs] at hr
    | some s1 =>
      rw [hs] at hr
      refine never_bare e h s1 s' (fun t l hl => hp t l (List.mem_cons_of_mem _ hl)) (fun i => ?_) hr j
      rcases step_core hs i with h1 | h1 | ⟨t, l, ha, -, -, h1⟩
      · rw [h1]; exact h0 i
      · rw [h1]; simp
      · rw [h1, hp t l (by simp [ha])]; simp

/-- **C83 (a successful start).** If setting the curve parameters never failed, then after any history a call of `init_crypto_lib` that returns
leaves a library that its thread can use: pairings work, libsodium is initialised, the misuse handler is in place and the availability
of the PRP is that of the processor. -/
theorem c83_ready_partial (e : Env) (h : List Ev) (s : State) (hr : run e h start = some s) (hp : ParamsOk h) (t : Thread) (l : Luck)
    (hl : l.params = true) (s' : State) (hi : init e l t s = .ret s') :
    pairing e t s' = .ready ∧ s'.sodium = true ∧ s'.misuse = true ∧ s'.avail = e.aes := by
  obtain ⟨-, h1, h2, h3, -, h4⟩ := init_ret e l t s s' hi
  refine ⟨?_, h1, h2, h3⟩
  simp only [pairing, h4 hl (never_bare e h start s hp (by simp [start]) hr _)]

example : ∃ s, run (multi true) [.init 0 lucky, .cleanup 0, .init 0 ⟨true, true, true, true, false⟩] start = some s ∧
    ∃ s', init (multi true) lucky 0 s = .ret s' ∧ pairing (multi true) 0 s' = .ready := ⟨_, rfl, _, rfl, rfl⟩

/-- Without that condition it is wrong: after a call that failed to set the parameters (and threw) the next call returns, but the parameters
are not set. -/
theorem c83_unset_witness : ∃ s s', run (multi true) [.init 0 ⟨true, true, true, false, true⟩] start = some s ∧
    init (multi true) lucky 0 s = .ret s' ∧ pairing (multi true) 0 s' = .unset := ⟨_, _, rfl, rfl, rfl⟩

/-- **C83 (no way back).** A context without parameters and without a handle stays like that, whatever its thread calls. -/
theorem c83_unset_forever (e : Env) (t : Thread) : ∀ (cs : List (Bool × Luck)) (s s' : State), Valid s → Free s → s.core (e.slot t) = .bare →
    (∀ p, s.handle = some p → s.handles[p]? = some (some false)) →
    run e ((cs.map fun c => (t, c.1, c.2)).map call) s = some s' → pairing e t s' = .unset := by
  intro cs
  induction cs with
  | nil =>
    intro s s' _ _ hb _ hr
    simp only [List.map_nil, run, Option.some.injEq] at hr
    simp only [pairing, ← hr, hb]
  | cons c cs ih =>
    intro s s' hv hf hb hh hr
    obtain ⟨b, l⟩ := c
    rw [List.map_cons, List.map_cons, run_cons] at hr
    cases b with
    | true =>
      obtain ⟨s1, h0, -, -, -, -, h3⟩ := init_state e l t s
      simp only [call, step, h0] at hr
      have hc : s1.core = s.core := by
        rcases init_core e l t s s1 h0 with h | ⟨h, -⟩
        · exact h
        · rw [hb] at h; simp at h
      refine ih s1 s' (valid_init hv h0) (free_init hf h0) (by rw [hc]; exact hb) ?_ hr
      intro p hp
      rcases h3 with ⟨h4, h5⟩ | ⟨own, h4, h5⟩
      · rw [h4]; exact hh p (h5 ▸ hp)
      · rw [h5] at hp
        obtain rfl := Option.some.inj hp
        rw [h4, getElem?_append_last]
        have : own = false := by
          have hlc : (initLocks e l s).core = s.core ∧ (initLocks e l s).handles = s.handles := by
            unfold initLocks
            split
            · exact ⟨rfl, rfl⟩
            · split <;> exact ⟨rfl, rfl⟩
          have hm : mkHandle e l t true s.core = (s.core, some false) := by simp [mkHandle, hb]
          simp only [init, hlc.1, hlc.2, hm] at h0
          split at h0
          · have : s1.handles = s.handles := by rw [← Option.some.inj h0]; exact hlc.2
            rw [h4] at this
            simpa using congrArg List.length this
          · unfold initSodium at h0
            split at h0 <;>
            · have : s1.handles = s.handles ++ [some false] := by rw [← Option.some.inj h0]
              rw [h4] at this
              simpa using this
        rw [this]
    | false =>
      obtain ⟨s1, g1, g2, -, -, -, -, g7, -⟩ := cleanup_exact (e := e) (t := t) hv (fun _ => idle_of_free hf)
      obtain ⟨s1', k1, k2, -⟩ := cleanup_valid (e := e) (t := t) hv (fun _ => idle_of_free hf)
      have : s1' = s1 := by rw [g1] at k1; injection k1 with k1; exact k1.symm
      subst this
      simp only [call, step, g1] at hr
      refine ih s1' s' k2 (free_cleanup hv hf g1) ?_ (by rw [g2]; simp) hr
      rw [g7]
      cases hp : s.handle with
      | none => exact hb
      | some p => simpa [hh p hp] using hb

example : ∃ s, run (multi true) [.init 0 ⟨true, true, true, false, true⟩] start = some s ∧ Valid s ∧ Free s ∧ s.core 0 = .bare ∧
    s.handle = none := by
  obtain ⟨s, h1, h2, h3⟩ := calls_valid (multi true) [(0, true, ⟨true, true, true, false, true⟩)] start valid_start
    (by intro p m hm; simp [start] at hm)
  refine ⟨s, h1, h2, h3, ?_⟩
  simp only [List.map_cons, List.map_nil, call] at h1
  have : run (multi true) [.init 0 ⟨true, true, true, false, true⟩] start = some
    { start with core := put start.core 0 .bare, bufs := [some fun _ => none], buf := some 0, cb := true } := rfl
  rw [this] at h1
  rw [← Option.some.inj h1]
  exact ⟨rfl, rfl⟩

/-- **C83 (a failed start can be undone).** From a state in which the library is stopped, `init_crypto_lib` followed by `cleanup_crypto_lib` by
the same thread leaves no more objects and no other RELIC context than before, whatever failed, unless setting the parameters failed. -/
theorem c83_undo_partial (e : Env) (l : Luck) (t : Thread) (s : State) (hv : Valid s) (hf : Free s) (hh : s.handle = none) (hb : s.buf = none)
    (hc : s.core (e.slot t) = .off) (hl : l.new = true → l.coreInit = true → l.params = true) :
    ∃ s', run e [.init t l, .cleanup t] s = some s' ∧ s'.core = s.core ∧ live s'.handles = live s.handles ∧ live s'.bufs = live s.bufs ∧
      s'.handle = none ∧ s'.buf = none := by
  obtain ⟨s1, h0, h1, h2, h2', -, h3⟩ := init_state e l t s
  have hv1 := valid_init hv h0
  have hf1 := free_init hf h0
  obtain ⟨s2, g1, g2, g3, g4, g5, g6, g7, -⟩ := cleanup_exact (e := e) (t := t) hv1 (fun _ => idle_of_free hf1)
  refine ⟨s2, ?_, ?_, ?_, ?_, g2, ?_⟩
  · rw [run_cons]
    simp only [step, h0, Option.bind_some, run, g1]
  · rw [g7]
    have hlc : (initLocks e l s).core = s.core ∧ (initLocks e l s).handles = s.handles ∧ (initLocks e l s).handle = s.handle := by
      unfold initLocks
      split
      · exact ⟨rfl, rfl, rfl⟩
      · split <;> exact ⟨rfl, rfl, rfl⟩
    cases hn : l.new with
    | false =>
      simp only [init, hn] at h0
      have : s1 = initLocks e l s := by rw [← Option.some.inj h0]
      rw [this, hlc.2.2, hh]
      exact hlc.1
    | true =>
      cases hci : l.coreInit with
      | false =>
        have hm : mkHandle e l t true s.core = (s.core, none) := by simp [mkHandle, hc, hci]
        simp only [init, hn, hlc.1, hm] at h0
        have h1' : s1.handle = s.handle ∧ s1.core = s.core := by rw [← Option.some.inj h0]; exact ⟨hlc.2.2, rfl⟩
        rw [h1'.1, hh]
        exact h1'.2
      | true =>
        have hp := hl hn hci
        have hm : mkHandle e l t true s.core = (put s.core (e.slot t) .ready, some true) := by simp [mkHandle, hc, hci, hp]
        simp only [init, hn, hlc.1, hlc.2.1, hm] at h0
        have h1' : s1.handle = some s.handles.length ∧ s1.handles = s.handles ++ [some true] ∧
            s1.core = put s.core (e.slot t) .ready := by
          unfold initSodium at h0
          simp only [Bool.not_true, Bool.false_eq_true, ↓reduceIte] at h0
          split at h0 <;> rw [← Option.some.inj h0] <;> exact ⟨rfl, rfl, rfl⟩
        rw [h1'.1, h1'.2.1, h1'.2.2]
        simp only [getElem?_append_last, ↓reduceIte]
        funext j
        simp only [put]
        split
        · rename_i hj; rw [hj, hc]
        · rfl
  · rcases h3 with ⟨h4, h5⟩ | ⟨own, h4, h5⟩
    · rw [h4, h5, hh] at g5; simpa using g5
    · rw [h4, h5, live_append_some] at g5; simpa using g5
  · cases he : e.ssl with
    | true =>
      have := g6 he
      rw [h1, h2] at this
      simp only [initLocks, he] at this
      cases hm : l.malloc with
      | true => simpa [hm, live_append_some] using this
      | false => simpa [hm] using this
    | false =>
      rw [(g4 he).2.2, h1]
      simp only [initLocks, he]
      rfl
  · cases he : e.ssl with
    | true => exact (g3 he).1
    | false =>
      rw [(g4 he).1, h2]
      simp only [initLocks, he]
      exact hb

/-- libsodium cannot be initialised: the handle and the mutexes are released by the cleanup. -/
example : ∃ s', run (multi true) [.init 0 ⟨true, true, true, true, false⟩, .cleanup 0] start = some s' ∧ s'.core = start.core ∧
    live s'.handles = 0 ∧ live s'.bufs = 0 ∧ s'.handle = none ∧ s'.buf = none :=
  c83_undo_partial (multi true) ⟨true, true, true, true, false⟩ 0 start valid_start (by intro p m hm; simp [start] at hm) rfl rfl rfl
    fun _ _ => rfl

/-! ### Availability of the PRP -/

theorem step_avail {e : Env} {a : Ev} {s s' : State} (h : (step e a s).state? = some s') :
    s'.avail = s.avail ∨ (s'.avail = e.aes ∧ ∃ t l, a = .init t l ∧ init e l t s = .ret s') := by
  cases a with
  | init t l =>
    cases hi : init e l t s with
    | ret s1 =>
      simp only [step, hi] at h
      obtain rfl := Option.some.inj h
      exact Or.inr ⟨(init_ret e l t s s1 hi).2.2.2.1, t, l, rfl, hi⟩
    | thrown s1 =>
      simp only [step, hi] at h
      obtain rfl := Option.some.inj h
      have hl : (initLocks e l s).avail = s.avail := by
        unfold initLocks
        split
        · rfl
        · split <;> rfl
      left
      simp only [init] at hi
      split at hi
      · injection hi with hi; rw [← hi]; exact hl
      · split at hi
        · injection hi with hi; rw [← hi]; exact hl
        · unfold initSodium at hi
          split at hi
          · injection hi with hi; rw [← hi]; exact hl
          · simp at hi
    | blocked s1 =>
      simp only [init] at hi
      split at hi
      · simp at hi
      · split at hi
        · simp at hi
        · unfold initSodium at hi
          split at hi <;> simp at hi
    | ub =>
      simp only [step, hi] at h
      simp [Out.state?] at h
  | cleanup t =>
    left
    simp only [step, cleanup] at h
    split at h
    · simp [Out.state?] at h
    · rename_i s1 hs1
      split at h
      · simp [Out.state?] at h
      · rename_i s2 hs2
        obtain rfl := Option.some.inj h
        have h2 : s2.avail = s1.avail := by
          unfold killLocks at hs2
          repeat' split at hs2
          all_goals first | (simp only [Option.some.injEq] at hs2; rw [← hs2]) | simp at hs2
        rw [h2]
        unfold dropHandle at hs1
        repeat' split at hs1
        all_goals first | (simp only [Option.some.injEq] at hs1; rw [← hs1]) | simp at hs1
  | lock t n =>
    left
    simp only [step, lock] at h
    repeat' split at h
    all_goals first | (simp only [Out.state?, Option.some.injEq] at h; rw [← h]) | simp [Out.state?] at h
  | unlock t n =>
    left
    simp only [step, unlock] at h
    repeat' split at h
    all_goals first | (simp only [Out.state?, Option.some.injEq] at h; rw [← h]) | simp [Out.state?] at h
  | dynCreate m =>
    left
    simp only [step, dynCreate] at h
    repeat' split at h
    all_goals first | (simp only [Out.state?, Option.some.injEq] at h; rw [← h]) | simp [Out.state?] at h
  | dynLock t n =>
    left
    simp only [step, dynLock] at h
    repeat' split at h
    all_goals first | (simp only [Out.state?, Option.some.injEq] at h; rw [← h]) | simp [Out.state?] at h
  | dynUnlock t n =>
    left
    simp only [step, dynUnlock] at h
    repeat' split at h
    all_goals first | (simp only [Out.state?, Option.some.injEq] at h; rw [← h]) | simp [Out.state?] at h
  | dynDestroy n =>
    left
    simp only [step, dynDestroy] at h
    repeat' split at h
    all_goals first | (simp only [Out.state?, Option.some.injEq] at h; rw [← h]) | simp [Out.state?] at h

/-- Some call of `init_crypto_lib` in the history returned. -/
def Started (e : Env) (h : List Ev) : Prop :=
  ∃ h1 t l h2 s s', h = h1 ++ .init t l :: h2 ∧ run e h1 start = some s ∧ init e l t s = .ret s'

/-- **C83 (availability).** `Prp::is_available()` is false until a call of `init_crypto_lib` has returned, and from then on says whether the
processor has the instructions, also after `cleanup_crypto_lib`. -/
theorem c83_avail (e : Env) (h : List Ev) (s : State) (hr : run e h start = some s) :
    (¬ Started e h → s.avail = false) ∧ (Started e h → s.avail = e.aes) := by
  induction h using List.reverseRecOn generalizing s with
  | nil =>
    refine ⟨fun _ => ?_, ?_⟩
    · simp only [run, Option.some.injEq] at hr
      rw [← hr]; rfl
    · rintro ⟨h1, t, l, h2, -, -, h3, -⟩
      simp at h3
  | append_singleton h a ih =>
    rw [run_append] at hr
    cases h1 : run e h start with
    | none => simp [h1] at hr
    | some s1 =>
      rw [h1] at hr
      have hr' : run e [a] s1 = some s := hr
      rw [run_cons] at hr'
      cases h2 : (step e a s1).state? with
      | none => simp [h2] at hr'
      | some s2 =>
        rw [h2] at hr'
        simp only [Option.bind_some, run, Option.some.injEq] at hr'
        subst hr'
        obtain ⟨ih1, ih2⟩ := ih s1 h1
        have mono : Started e h → Started e (h ++ [a]) := by
          rintro ⟨p, t, l, q, x, y, e1, e2, e3⟩
          exact ⟨p, t, l, q ++ [a], x, y, by rw [e1]; simp, e2, e3⟩
        refine ⟨fun hn => ?_, fun hs => ?_⟩
        · rcases step_avail h2 with h3 | ⟨h3, t, l, rfl, h4⟩
          · rw [h3]; exact ih1 fun hh => hn (mono hh)
          · exact absurd ⟨h, t, l, [], s1, s2, by simp, h1, h4⟩ hn
        · rcases step_avail h2 with h3 | ⟨h3, -⟩
          · obtain ⟨p, t, l, q, x, y, e1, e2, e3⟩ := hs
            cases hq : q.reverse with
            | nil =>
              have hq' : q = [] := by simpa using hq
              subst hq'
              obtain ⟨e4, e5⟩ := List.append_inj' e1 rfl
              subst e4
              simp only [List.cons.injEq, and_true] at e5
              subst e5
              rw [h1] at e2
              obtain rfl := Option.some.inj e2
              simp only [step, e3, Out.state?, Option.some.injEq] at h2
              subst h2
              exact (init_ret e l t s1 y e3).2.2.2.1
            | cons b r =>
              have hq' : q = r.reverse ++ [b] := by
                have := congrArg List.reverse hq
                simpa using this
              subst hq'
              have e1' : h ++ [a] = (p ++ .init t l :: r.reverse) ++ [b] := by rw [e1]; simp
              obtain ⟨e4, -⟩ := List.append_inj' e1' rfl
              rw [h3]
              exact ih2 ⟨p, t, l, r.reverse, x, y, e4, e2, e3⟩
          · exact h3

example : Started (multi true) [.init 0 ⟨true, true, true, true, false⟩, .init 0 lucky, .cleanup 0] :=
  ⟨[.init 0 ⟨true, true, true, true, false⟩], 0, lucky, [.cleanup 0], _, _, rfl, rfl, rfl⟩

end Verif.Lib
