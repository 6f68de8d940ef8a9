import Verif.Key.LemmasStep

/-!
# Properties C20 and C21: ownership, release and content of key objects

`N` is the key length, `ml` tells whether memory locking is compiled in.
-/

namespace Verif.Key

open Verif

/-- States reachable by programs that pass large enough buffers. -/
def Reach (N : Nat) (ml : Bool) (st : St) : Prop :=
  ∃ ops rs, (∀ op ∈ ops, op.pre N) ∧ run N ml St.init ops = some (st, rs)

theorem run_inv {N : Nat} {ml : Bool} (ops : List Op) : ∀ {st st' : St} {rs : List (Res Bytes)}, Inv ml st →
    (∀ op ∈ ops, op.pre N) → run N ml st ops = some (st', rs) → Inv ml st' := by
  induction ops with
  | nil => intro st st' rs h _ hr; simp only [run, Option.some.injEq, Prod.mk.injEq] at hr; rw [← hr.1]; exact h
  | cons op ops ih =>
    intro st st' rs h hpre hr
    simp only [run] at hr
    cases h1 : step N ml st op with
    | none => rw [h1] at hr; cases hr
    | some x =>
      obtain ⟨st1, r1⟩ := x
      rw [h1] at hr
      simp only at hr
      cases h2 : run N ml st1 ops with
      | none => rw [h2] at hr; cases hr
      | some y =>
        obtain ⟨st2, rs2⟩ := y
        rw [h2] at hr
        simp only [Option.some.injEq, Prod.mk.injEq] at hr
        rw [← hr.1]
        exact ih (step_ok h (hpre op (List.mem_cons_self)) h1).inv (fun o ho => hpre o (List.mem_cons_of_mem _ ho)) h2

theorem reach_inv {N : Nat} {ml : Bool} {st : St} (h : Reach N ml st) : Inv ml st := by
  obtain ⟨ops, rs, hpre, hr⟩ := h
  exact run_inv ops (inv_init ml) hpre hr

theorem spec_no_ub {N : Nat} {a a' : Spec.St} {op : Op} {r : Res Bytes} (h : Spec.step N a op = some (a', r)) : r ≠ .ub := by
  have hr : ∀ o b, Spec.read o b ≠ .ub := by
    intro o b; unfold Spec.read; split
    · split <;> simp
    · simp
  intro e; subst e
  cases op with
  | newRandom r junk => simp [Spec.step] at h
  | newFrom b => cases b <;> simp [Spec.step] at h
  | newCallback f j => cases f <;> simp [Spec.step] at h
  | moveCtor s => simp [Spec.step] at h
  | moveAssign d s =>
    simp only [Spec.step] at h
    split at h
    · simp at h
    · cases h
  | erase i => simp [Spec.step] at h
  | destroy i => simp [Spec.step] at h
  | lock i => simp [Spec.step] at h
  | unlock i => simp [Spec.step] at h
  | readData i =>
    simp only [Spec.step, Option.map_eq_some_iff, Prod.mk.injEq] at h
    obtain ⟨o, _, _, h⟩ := h; exact hr _ _ h
  | readUnlock i =>
    simp only [Spec.step, Option.map_eq_some_iff, Prod.mk.injEq] at h
    obtain ⟨o, _, _, h⟩ := h; exact hr _ _ h
  | serialize i =>
    simp only [Spec.step, Option.map_eq_some_iff, Prod.mk.injEq] at h
    obtain ⟨o, _, _, h⟩ := h; exact hr _ _ h

theorem run_sim {N : Nat} (ops : List Op) : ∀ {st st' : St} {a : Spec.St} {rs : List (Res Bytes)}, Inv true st → Sim st a →
    (∀ op ∈ ops, op.pre N) → run N true st ops = some (st', rs) →
    ∃ a', Spec.run N a ops = some (a', rs) ∧ Sim st' a' ∧ ∀ r ∈ rs, r ≠ .ub := by
  induction ops with
  | nil =>
    intro st st' a rs h hs _ hr
    simp only [run, Option.some.injEq, Prod.mk.injEq] at hr
    obtain ⟨rfl, rfl⟩ := hr
    exact ⟨a, rfl, hs, by simp⟩
  | cons op ops ih =>
    intro st st' a rs h hs hpre hr
    simp only [run] at hr
    cases h1 : step N true st op with
    | none => rw [h1] at hr; cases hr
    | some x =>
      obtain ⟨st1, r1⟩ := x
      rw [h1] at hr
      simp only at hr
      cases h2 : run N true st1 ops with
      | none => rw [h2] at hr; cases hr
      | some y =>
        obtain ⟨st2, rs2⟩ := y
        rw [h2] at hr
        simp only [Option.some.injEq, Prod.mk.injEq] at hr
        obtain ⟨rfl, rfl⟩ := hr
        have hok := step_ok h (hpre op (List.mem_cons_self)) h1
        obtain ⟨a1, ha1, hs1⟩ := hok.sim rfl a hs
        obtain ⟨a2, ha2, hs2, hub⟩ := ih hok.inv hs1 (fun o ho => hpre o (List.mem_cons_of_mem _ ho)) h2
        refine ⟨a2, ?_, hs2, ?_⟩
        · simp only [Spec.run, ha1, ha2]
        · intro r hr
          rcases List.mem_cons.1 hr with hr | hr
          · subst hr; exact spec_no_ub ha1
          · exact hub r hr

/-! ## C20 -/

/-- C20: with memory locking, every history of key operations behaves exactly as the value semantics of `Spec`
(moves transfer the value, moved-from and erased keys are empty, reading an empty or locked key throws), and no
operation is undefined: no double free, no use after free, no null or protected access. -/
theorem c20_value_semantics {N : Nat} {ops : List Op} {st : St} {rs : List (Res Bytes)} (hpre : ∀ op ∈ ops, op.pre N)
    (hr : run N true St.init ops = some (st, rs)) :
    ∃ a, Spec.run N [] ops = some (a, rs) ∧
      a.length = st.objs.length ∧
      (∀ i, Spec.obj a i = (st.obj i).map fun o => ⟨o.content.bind fun c => (st.heap[c]?).map (·.data), o.locked⟩) ∧
      ∀ r ∈ rs, r ≠ .ub := by
  obtain ⟨a, h1, h2, h3⟩ := run_sim ops (inv_init true) sim_init hpre hr
  exact ⟨a, h1, h2.len, h2.objs, h3⟩

/-- A history with imports, moves, self-assignment, locking and reads. -/
def demo : List Op :=
  [.newFrom (some [1, 2, 3, 4, 5]), .newRandom [9, 9, 9, 9] [], .moveCtor 0, .readUnlock 0, .readData 2, .readUnlock 2,
   .moveAssign 1 2, .moveAssign 1 1, .readData 1, .lock 1, .serialize 1, .unlock 1, .serialize 1, .erase 1, .readUnlock 1,
   .destroy 0, .destroy 1, .destroy 2]

example : (∀ op ∈ demo, op.pre 4) ∧ (run 4 true St.init demo).map (·.2) =
    some [.ok [0, 0, 0, 0, 5], .ok [], .ok [], .exc .runtimeError, .exc .runtimeError, .ok [1, 2, 3, 4],
      .ok [], .ok [], .ok [1, 2, 3, 4], .ok [], .exc .runtimeError, .ok [], .ok [1, 2, 3, 4], .ok [], .exc .runtimeError,
      .ok [], .ok [], .ok []] := by
  constructor
  · intro op hop
    simp only [demo, List.mem_cons, List.not_mem_nil, or_false] at hop
    rcases hop with h|h|h|h|h|h|h|h|h|h|h|h|h|h|h|h|h|h <;> subst h <;> simp [Op.pre]
  · decide +kernel

/-- C20: in every reachable state (with or without memory locking) a buffer has at most one owner, an owned buffer has
not been released, and no buffer is released twice; released buffers are wiped. -/
theorem c20_unique_owner {N : Nat} {ml : Bool} {st : St} (h : Reach N ml st) :
    (∀ i j oi oj c, st.obj i = some oi → st.obj j = some oj → oi.content = some c → oj.content = some c → i = j) ∧
    (∀ i o c, st.obj i = some o → o.content = some c → ∃ cell, st.heap[c]? = some cell ∧ cell.frees = 0) ∧
    (∀ (c : Nat) cell, st.heap[c]? = some cell →
      cell.frees ≤ 1 ∧ (cell.frees = 1 → cell.data = List.replicate cell.data.length 0)) := by
  have hi := reach_inv h
  refine ⟨hi.uniq, ?_, hi.freed⟩
  intro i o c h1 h2
  obtain ⟨cell, h3, h4, _⟩ := hi.own i o c h1 h2
  exact ⟨cell, h3, h4⟩

theorem run_noLeak {N : Nat} {ml : Bool} (ops : List Op) : ∀ {st st' : St} {rs : List (Res Bytes)}, Inv ml st → NoLeak st →
    (∀ op ∈ ops, op.pre N) → (∀ op ∈ ops, op.noThrow) → run N ml st ops = some (st', rs) → NoLeak st' := by
  induction ops with
  | nil => intro st st' rs _ h _ _ hr; simp only [run, Option.some.injEq, Prod.mk.injEq] at hr; rw [← hr.1]; exact h
  | cons op ops ih =>
    intro st st' rs h hl hpre hnt hr
    simp only [run] at hr
    cases h1 : step N ml st op with
    | none => rw [h1] at hr; cases hr
    | some x =>
      obtain ⟨st1, r1⟩ := x
      rw [h1] at hr
      simp only at hr
      cases h2 : run N ml st1 ops with
      | none => rw [h2] at hr; cases hr
      | some y =>
        obtain ⟨st2, rs2⟩ := y
        rw [h2] at hr
        simp only [Option.some.injEq, Prod.mk.injEq] at hr
        rw [← hr.1]
        have hok := step_ok h (hpre op (List.mem_cons_self)) h1
        exact ih hok.inv (hok.noLeak (hnt op List.mem_cons_self) hl) (fun o ho => hpre o (List.mem_cons_of_mem _ ho))
          (fun o ho => hnt o (List.mem_cons_of_mem _ ho)) h2

/-- C20: once every object is destroyed (or empty), every buffer was wiped and released exactly once.
Partial: for histories in which no initialisation callback throws; otherwise the buffer is lost, see
`c20_callback_leak_false`. -/
theorem c20_all_released_partial {N : Nat} {ml : Bool} {ops : List Op} {st : St} {rs : List (Res Bytes)}
    (hpre : ∀ op ∈ ops, op.pre N) (hnt : ∀ op ∈ ops, op.noThrow) (hr : run N ml St.init ops = some (st, rs))
    (hend : ∀ i o, st.obj i = some o → o.content = none) :
    ∀ cell ∈ st.heap, cell.frees = 1 ∧ ∀ b ∈ cell.data, b = 0 := by
  have hinv := run_inv ops (inv_init ml) hpre hr
  have hnl := run_noLeak ops (inv_init ml) (by intro c cell h; simp [St.init] at h) hpre hnt hr
  intro cell hcell
  obtain ⟨c, hc⟩ := List.getElem?_of_mem hcell
  have h1 := hinv.freed c cell hc
  have h2 : cell.frees ≠ 0 := by
    intro h0
    obtain ⟨i, o, h3, h4⟩ := hnl c cell hc h0
    rw [hend i o h3] at h4; cases h4
  have h3 : cell.frees = 1 := by omega
  refine ⟨h3, ?_⟩
  intro b hb
  rw [h1.2 h3] at hb
  exact (List.mem_replicate.1 hb).2

example : ∃ st rs, run 4 true St.init demo = some (st, rs) ∧ st.heap.length = 2 ∧ st.objs = [none, none, none] ∧
    ∀ cell ∈ st.heap, cell.frees = 1 ∧ ∀ b ∈ cell.data, b = 0 := by
  refine ⟨⟨[⟨[0,0,0,0], .noaccess, 1⟩, ⟨[0,0,0,0], .noaccess, 1⟩], [none, none, none]⟩, ?_, ?_, rfl, rfl, by decide⟩
  · exact ((run 4 true St.init demo).map (·.2)).get (by decide +kernel)
  · decide +kernel

/-- C20 is false when an initialisation callback throws: the buffer is never released.  (Reachable through the public
interface: `derive_key` on a moved-from PRG, and the PRP constructor on a moved-from key.) -/
theorem c20_callback_leak_false :
    ∃ ops : List Op, ∃ st rs, (∀ op ∈ ops, op.pre 4) ∧ run 4 true St.init ops = some (st, rs) ∧ st.objs = [] ∧
      ∃ cell ∈ st.heap, cell.frees = 0 :=
  ⟨[.newCallback none [0, 0, 0, 0]], ⟨[⟨[0, 0, 0, 0], .rw, 0⟩], []⟩, [.exc .runtimeError],
    by simp [Op.pre], rfl, rfl, _, List.mem_cons_self, rfl⟩

/-- C20: an object that was moved from, or erased, is empty: reading it in any way throws `runtime_error`. -/
theorem c20_empty_after_move {N : Nat} {st st' : St} {r : Res Bytes} (hre : Reach N true st) {s : Nat} {op : Op}
    (hop : op = .moveCtor s ∨ op = .erase s ∨ ∃ d, d ≠ s ∧ op = .moveAssign d s)
    (h : step N true st op = some (st', r)) :
    r = .ok [] ∧ st'.obj s = some ⟨none, true⟩ ∧
    step N true st' (.readData s) = some (st', .exc .runtimeError) ∧
    step N true st' (.readUnlock s) = some (st', .exc .runtimeError) ∧
    step N true st' (.serialize s) = some (st', .exc .runtimeError) := by
  have hinv := reach_inv hre
  have key : r = .ok [] ∧ st'.obj s = some ⟨none, true⟩ := by
    rcases hop with hop | hop | ⟨d, hds, hop⟩
    · subst hop
      simp only [step] at h
      cases ho : st.obj s with
      | none => rw [ho] at h; cases h
      | some o =>
        rw [ho] at h
        simp only [Option.some.injEq, Prod.mk.injEq] at h
        obtain ⟨rfl, rfl⟩ := h
        have hs := obj_lt ho
        refine ⟨rfl, ?_⟩
        rw [obj_pushObj, if_neg (by simp [St.setObj]; omega), obj_setObj _ _ _ _ hs, if_pos rfl]
    · subst hop
      simp only [step] at h
      cases ho : st.obj s with
      | none => rw [ho] at h; cases h
      | some o =>
        rw [ho] at h
        simp only at h
        have hs := obj_lt ho
        cases hc : o.content with
        | none =>
          rw [hc] at h
          simp only [Option.some.injEq, Prod.mk.injEq] at h
          obtain ⟨rfl, rfl⟩ := h
          have hl := hinv.emp s o ho hc
          refine ⟨rfl, ?_⟩
          rw [ho]; cases o; simp_all
        | some c =>
          rw [hc] at h
          obtain ⟨cell, hcell, hfree⟩ := free_ok hinv ho hc
          simp only [hfree, Res.map_ok, fin, Option.some.injEq, Prod.mk.injEq] at h
          obtain ⟨rfl, rfl⟩ := h
          refine ⟨rfl, ?_⟩
          rw [obj_setObj _ _ _ _ (by exact hs), if_pos rfl]
    · subst hop
      simp only [step] at h
      cases hod : st.obj d with
      | none => rw [hod] at h; cases h
      | some od =>
        cases hos : st.obj s with
        | none => rw [hod, hos] at h; cases h
        | some os =>
          rw [hod, hos] at h
          simp only [if_neg hds] at h
          have hs := obj_lt hos
          have hd := obj_lt hod
          cases hc : od.content with
          | none =>
            rw [hc] at h
            simp only [Res.bind_ok, fin, Option.some.injEq, Prod.mk.injEq] at h
            obtain ⟨rfl, rfl⟩ := h
            exact ⟨rfl, by rw [obj_setObj _ _ _ _ (by simpa [St.setObj] using hs), if_pos rfl]⟩
          | some c =>
            rw [hc] at h
            obtain ⟨cell, hcell, hfree⟩ := free_ok hinv hod hc
            simp only [hfree, Res.bind_ok, fin, Option.some.injEq, Prod.mk.injEq] at h
            obtain ⟨rfl, rfl⟩ := h
            exact ⟨rfl, by rw [obj_setObj _ _ _ _ (by simpa [St.setObj] using hs), if_pos rfl]⟩
  obtain ⟨k1, k2⟩ := key
  refine ⟨k1, k2, ?_, ?_, ?_⟩ <;> simp [step, k2, isLocked]

example : ∃ st st' : St, Reach 2 true st ∧ step 2 true st (.moveCtor 0) = some (st', .ok []) ∧
    st'.obj 1 = some ⟨some 0, true⟩ :=
  ⟨_, _, ⟨[.newFrom (some [7, 8])], _, by simp [Op.pre], rfl⟩, rfl, rfl⟩

/-- C20 is false when memory locking is compiled out: `data()` of an erased key returns a null pointer instead of
throwing, and the library then reads through it. -/
theorem c20_nolock_null_false :
    ∃ ops : List Op, ∃ st rs, (∀ op ∈ ops, op.pre 4) ∧ run 4 false St.init ops = some (st, rs) ∧ Res.ub ∈ rs :=
  ⟨[.newFrom (some [1, 2, 3, 4]), .erase 0, .readData 0], _, _, by simp [Op.pre], rfl, by decide⟩

/-! ## C21 -/

/-- C21: importing stores the first `N` bytes, zeroes exactly these in the caller's buffer and leaves the rest. -/
theorem c21_import {N : Nat} {ml : Bool} {st : St} (_hre : Reach N ml st) (b : Bytes) (hb : N ≤ b.length) :
    ∃ st', step N ml st (.newFrom (some b)) = some (st', .ok (List.replicate N 0 ++ b.drop N)) ∧
      st'.obj st.objs.length = some ⟨some st.heap.length, ml⟩ ∧
      st'.heap[st.heap.length]? = some ⟨b.take N, if ml then .noaccess else .rw, 0⟩ := by
  refine ⟨(st.alloc (b.take N) (freshProt ml)).pushObj ⟨some st.heap.length, ml⟩, ?_, ?_, ?_⟩
  · simp only [step]; rw [if_neg (by omega)]
  · rw [obj_pushObj]; exact if_pos rfl
  · simp [St.pushObj, St.alloc, freshProt]

example : ∃ st', step 2 true St.init (.newFrom (some [5, 6, 7])) = some (st', .ok [0, 0, 7]) :=
  let ⟨st', h, _⟩ := c21_import (ml := true) (st := St.init) ⟨[], [], by simp, rfl⟩ [5, 6, 7] (by decide : 2 ≤ 3)
  ⟨st', h⟩

/-- C21: a null buffer is refused. -/
theorem c21_null (N : Nat) (ml : Bool) (st : St) : step N ml st (.newFrom none) = some (st, .exc .invalidArgument) := rfl

/-- Contents never change while the buffer is alive. -/
theorem step_data {N : Nat} {ml : Bool} {st st' : St} {op : Op} {r : Res Bytes} (h : step N ml st op = some (st', r))
    {c : Nat} (hc : c < st.heap.length) :
    ∃ cell', st'.heap[c]? = some cell' ∧ (cell'.frees = 0 → ∃ cell, st.heap[c]? = some cell ∧ cell.frees = 0 ∧ cell'.data = cell.data) := by
  obtain ⟨cell, hcell⟩ : ∃ cell, st.heap[c]? = some cell := ⟨st.heap[c], List.getElem?_eq_getElem hc⟩
  have same : ∀ s : St, s.heap = st.heap → ∃ cell', s.heap[c]? = some cell' ∧
      (cell'.frees = 0 → ∃ cell, st.heap[c]? = some cell ∧ cell.frees = 0 ∧ cell'.data = cell.data) := by
    intro s hs
    exact ⟨cell, by rw [hs]; exact hcell, fun h => ⟨cell, hcell, h, rfl⟩⟩
  have app : ∀ (s : St) x, s.heap = st.heap ++ x → ∃ cell', s.heap[c]? = some cell' ∧
      (cell'.frees = 0 → ∃ cell, st.heap[c]? = some cell ∧ cell.frees = 0 ∧ cell'.data = cell.data) := by
    intro s x hs
    exact ⟨cell, by rw [hs, List.getElem?_append_left hc]; exact hcell, fun h => ⟨cell, hcell, h, rfl⟩⟩
  have hfree : ∀ c2 s, st.free c2 = .ok s → ∀ s' : St, s'.heap = s.heap → ∃ cell', s'.heap[c]? = some cell' ∧
      (cell'.frees = 0 → ∃ cell, st.heap[c]? = some cell ∧ cell.frees = 0 ∧ cell'.data = cell.data) := by
    intro c2 s hf s' hs'
    rw [hs']
    unfold St.free at hf
    cases h2 : st.heap[c2]? with
    | none => rw [h2] at hf; cases hf
    | some cell2 =>
      rw [h2] at hf
      simp only at hf
      by_cases h3 : cell2.frees = 0
      · rw [if_pos h3] at hf
        injection hf with hf; subst hf
        by_cases hcc : c2 = c
        · subst hcc
          simp only [List.getElem?_set_self hc]
          exact ⟨_, rfl, fun h => by simp at h⟩
        · simp only [List.getElem?_set_ne hcc]
          exact ⟨cell, hcell, fun h => ⟨cell, hcell, h, rfl⟩⟩
      · rw [if_neg h3] at hf; cases hf
  have hprot : ∀ c2 p s, st.protect c2 p = .ok s → ∀ s' : St, s'.heap = s.heap → ∃ cell', s'.heap[c]? = some cell' ∧
      (cell'.frees = 0 → ∃ cell, st.heap[c]? = some cell ∧ cell.frees = 0 ∧ cell'.data = cell.data) := by
    intro c2 p s hf s' hs'
    rw [hs']
    unfold St.protect at hf
    cases h2 : st.heap[c2]? with
    | none => rw [h2] at hf; cases hf
    | some cell2 =>
      rw [h2] at hf
      simp only at hf
      by_cases h3 : cell2.frees = 0
      · rw [if_pos h3] at hf
        injection hf with hf; subst hf
        by_cases hcc : c2 = c
        · subst hcc
          simp only [List.getElem?_set_self hc]
          exact ⟨_, rfl, fun h => ⟨cell2, h2, h3, rfl⟩⟩
        · simp only [List.getElem?_set_ne hcc]
          exact ⟨cell, hcell, fun h => ⟨cell, hcell, h, rfl⟩⟩
      · rw [if_neg h3] at hf; cases hf
  have hlock : ∀ i o s, lockObj ml st i o = .ok s → ∀ s' : St, s'.heap = s.heap → ∃ cell', s'.heap[c]? = some cell' ∧
      (cell'.frees = 0 → ∃ cell, st.heap[c]? = some cell ∧ cell.frees = 0 ∧ cell'.data = cell.data) := by
    intro i o s hl s' hs'
    unfold lockObj at hl
    split at hl
    · split at hl
      · split at hl
        · injection hl with hl; subst hl; exact same s' hs'
        · rename_i c2 _ _
          cases h2 : st.protect c2 .noaccess with
          | ok s2 =>
            rw [h2] at hl; injection hl with hl; subst hl
            exact hprot c2 .noaccess s2 h2 s' hs'
          | exc e => rw [h2] at hl; cases hl
          | ub => rw [h2] at hl; cases hl
      · injection hl with hl; subst hl; exact same s' hs'
    · injection hl with hl; subst hl; exact same s' hs'
  have hunlock : ∀ i o s, unlockObj ml st i o = .ok s → ∀ s' : St, s'.heap = s.heap → ∃ cell', s'.heap[c]? = some cell' ∧
      (cell'.frees = 0 → ∃ cell, st.heap[c]? = some cell ∧ cell.frees = 0 ∧ cell'.data = cell.data) := by
    intro i o s hl s' hs'
    unfold unlockObj at hl
    split at hl
    · split at hl
      · split at hl
        · rename_i c2 _ _
          cases h2 : st.protect c2 .ro with
          | ok s2 =>
            rw [h2] at hl; injection hl with hl; subst hl
            exact hprot c2 .ro s2 h2 s' hs'
          | exc e => rw [h2] at hl; cases hl
          | ub => rw [h2] at hl; cases hl
        · injection hl with hl; subst hl; exact same s' hs'
      · injection hl with hl; subst hl; exact same s' hs'
    · injection hl with hl; subst hl; exact same s' hs'
  cases op with
  | newRandom rb junk =>
    simp only [step, Option.some.injEq, Prod.mk.injEq] at h
    obtain ⟨rfl, _⟩ := h; exact app _ _ rfl
  | newFrom b =>
    cases b with
    | none =>
      simp only [step, Option.some.injEq, Prod.mk.injEq] at h
      obtain ⟨rfl, _⟩ := h; exact same _ rfl
    | some b =>
      simp only [step] at h
      split at h
      · simp only [Option.some.injEq, Prod.mk.injEq] at h
        obtain ⟨rfl, _⟩ := h; exact same _ rfl
      · simp only [Option.some.injEq, Prod.mk.injEq] at h
        obtain ⟨rfl, _⟩ := h; exact app _ _ rfl
  | newCallback f j =>
    cases f with
    | none =>
      simp only [step, Option.some.injEq, Prod.mk.injEq] at h
      obtain ⟨rfl, _⟩ := h; exact app _ _ rfl
    | some d =>
      simp only [step, Option.some.injEq, Prod.mk.injEq] at h
      obtain ⟨rfl, _⟩ := h; exact app _ _ rfl
  | moveCtor s =>
    simp only [step] at h
    split at h
    · simp only [Option.some.injEq, Prod.mk.injEq] at h
      obtain ⟨rfl, _⟩ := h; exact same _ rfl
    · cases h
  | moveAssign d s =>
    simp only [step] at h
    split at h
    · rename_i od os _ _
      split at h
      · simp only [Option.some.injEq, Prod.mk.injEq] at h
        obtain ⟨rfl, _⟩ := h; exact same _ rfl
      · cases hod : od.content with
        | none =>
          rw [hod] at h
          simp only [Res.bind_ok, fin, Option.some.injEq, Prod.mk.injEq] at h
          obtain ⟨rfl, _⟩ := h; exact same _ rfl
        | some c2 =>
          rw [hod] at h
          simp only at h
          cases hf : st.free c2 with
          | ok s2 =>
            rw [hf] at h
            simp only [Res.bind_ok, fin, Option.some.injEq, Prod.mk.injEq] at h
            obtain ⟨rfl, _⟩ := h; exact hfree c2 s2 hf _ rfl
          | exc e =>
            rw [hf] at h
            simp only [Res.bind_exc, fin, Option.some.injEq, Prod.mk.injEq] at h
            obtain ⟨rfl, _⟩ := h; exact same _ rfl
          | ub =>
            rw [hf] at h
            simp only [Res.bind_ub, fin, Option.some.injEq, Prod.mk.injEq] at h
            obtain ⟨rfl, _⟩ := h; exact same _ rfl
    · cases h
  | erase i =>
    simp only [step] at h
    split at h
    · split at h
      · rename_i c2 _
        cases hf : st.free c2 with
        | ok s2 =>
          rw [hf] at h
          simp only [Res.map_ok, fin, Option.some.injEq, Prod.mk.injEq] at h
          obtain ⟨rfl, _⟩ := h; exact hfree c2 s2 hf _ rfl
        | exc e =>
          rw [hf] at h
          simp only [Res.map_exc, fin, Option.some.injEq, Prod.mk.injEq] at h
          obtain ⟨rfl, _⟩ := h; exact same _ rfl
        | ub =>
          rw [hf] at h
          simp only [Res.map_ub, fin, Option.some.injEq, Prod.mk.injEq] at h
          obtain ⟨rfl, _⟩ := h; exact same _ rfl
      · simp only [Option.some.injEq, Prod.mk.injEq] at h
        obtain ⟨rfl, _⟩ := h; exact same _ rfl
    · cases h
  | destroy i =>
    simp only [step] at h
    split at h
    · split at h
      · rename_i c2 _
        cases hf : st.free c2 with
        | ok s2 =>
          rw [hf] at h
          simp only [Res.map_ok, fin, Option.some.injEq, Prod.mk.injEq] at h
          obtain ⟨rfl, _⟩ := h; exact hfree c2 s2 hf _ rfl
        | exc e =>
          rw [hf] at h
          simp only [Res.map_exc, fin, Option.some.injEq, Prod.mk.injEq] at h
          obtain ⟨rfl, _⟩ := h; exact same _ rfl
        | ub =>
          rw [hf] at h
          simp only [Res.map_ub, fin, Option.some.injEq, Prod.mk.injEq] at h
          obtain ⟨rfl, _⟩ := h; exact same _ rfl
      · simp only [Option.some.injEq, Prod.mk.injEq] at h
        obtain ⟨rfl, _⟩ := h; exact same _ rfl
    · cases h
  | lock i =>
    simp only [step, Option.map_eq_some_iff] at h
    obtain ⟨o, _, h⟩ := h
    cases hl : lockObj ml st i o with
    | ok s =>
      rw [hl] at h
      simp only [fin, Prod.mk.injEq] at h
      obtain ⟨rfl, _⟩ := h; exact hlock i o s hl s rfl
    | exc e => rw [hl] at h; simp only [fin, Prod.mk.injEq] at h; obtain ⟨rfl, _⟩ := h; exact same _ rfl
    | ub => rw [hl] at h; simp only [fin, Prod.mk.injEq] at h; obtain ⟨rfl, _⟩ := h; exact same _ rfl
  | unlock i =>
    simp only [step, Option.map_eq_some_iff] at h
    obtain ⟨o, _, h⟩ := h
    cases hl : unlockObj ml st i o with
    | ok s =>
      rw [hl] at h
      simp only [fin, Prod.mk.injEq] at h
      obtain ⟨rfl, _⟩ := h; exact hunlock i o s hl s rfl
    | exc e => rw [hl] at h; simp only [fin, Prod.mk.injEq] at h; obtain ⟨rfl, _⟩ := h; exact same _ rfl
    | ub => rw [hl] at h; simp only [fin, Prod.mk.injEq] at h; obtain ⟨rfl, _⟩ := h; exact same _ rfl
  | readData i =>
    simp only [step, Option.map_eq_some_iff, Prod.mk.injEq] at h
    obtain ⟨o, _, rfl, _⟩ := h; exact same _ rfl
  | readUnlock i =>
    simp only [step, Option.map_eq_some_iff] at h
    obtain ⟨o, _, h⟩ := h
    split at h
    · simp only [Prod.mk.injEq] at h
      obtain ⟨rfl, _⟩ := h; exact same _ rfl
    · cases hl : unlockObj ml st i o with
      | ok s =>
        rw [hl] at h
        simp only [Prod.mk.injEq] at h
        obtain ⟨rfl, _⟩ := h; exact hunlock i o s hl s rfl
      | exc e => rw [hl] at h; simp only [fin, Prod.mk.injEq] at h; obtain ⟨rfl, _⟩ := h; exact same _ rfl
      | ub => rw [hl] at h; simp only [fin, Prod.mk.injEq] at h; obtain ⟨rfl, _⟩ := h; exact same _ rfl
  | serialize i =>
    simp only [step, Option.map_eq_some_iff, Prod.mk.injEq] at h
    obtain ⟨o, _, rfl, _⟩ := h; exact same _ rfl

theorem run_data {N : Nat} {ml : Bool} (ops : List Op) : ∀ {st st' : St} {rs : List (Res Bytes)},
    run N ml st ops = some (st', rs) → ∀ {c : Nat} {cell : Cell}, st.heap[c]? = some cell →
    ∃ cell', st'.heap[c]? = some cell' ∧ (cell'.frees = 0 → cell'.data = cell.data) := by
  induction ops with
  | nil =>
    intro st st' rs hr c cell hc
    simp only [run, Option.some.injEq, Prod.mk.injEq] at hr
    rw [← hr.1]; exact ⟨cell, hc, fun _ => rfl⟩
  | cons op ops ih =>
    intro st st' rs hr c cell hc
    simp only [run] at hr
    cases h1 : step N ml st op with
    | none => rw [h1] at hr; cases hr
    | some x =>
      obtain ⟨st1, r1⟩ := x
      rw [h1] at hr
      simp only at hr
      cases h2 : run N ml st1 ops with
      | none => rw [h2] at hr; cases hr
      | some y =>
        obtain ⟨st2, rs2⟩ := y
        rw [h2] at hr
        simp only [Option.some.injEq, Prod.mk.injEq] at hr
        rw [← hr.1]
        obtain ⟨cell1, hc1, hd1⟩ := step_data h1 (List.getElem?_eq_some_iff.1 hc).1
        obtain ⟨cell2, hc2, hd2⟩ := ih h2 hc1
        refine ⟨cell2, hc2, fun hf => ?_⟩
        by_cases h0 : cell1.frees = 0
        · obtain ⟨cell0, hc0, _, hd0⟩ := hd1 h0
          rw [hc] at hc0; injection hc0 with hc0; subst hc0
          rw [hd2 hf, hd0]
        · -- a released buffer stays released
          exfalso
          have : ∀ (ops : List Op) (s s' : St) rs, run N ml s ops = some (s', rs) → ∀ (c : Nat) (x : Cell), s.heap[c]? = some x →
              x.frees ≠ 0 → ∀ y, s'.heap[c]? = some y → y.frees ≠ 0 := by
            intro ops
            induction ops with
            | nil =>
              intro s s' rs hr c x hx hne y hy
              simp only [run, Option.some.injEq, Prod.mk.injEq] at hr
              rw [← hr.1, hx] at hy; injection hy with hy; subst hy; exact hne
            | cons op ops ih =>
              intro s s' rs hr c x hx hne y hy
              simp only [run] at hr
              cases h1 : step N ml s op with
              | none => rw [h1] at hr; cases hr
              | some p =>
                obtain ⟨s1, r1⟩ := p
                rw [h1] at hr
                simp only at hr
                cases h2 : run N ml s1 ops with
                | none => rw [h2] at hr; cases hr
                | some q =>
                  obtain ⟨s2, rs2⟩ := q
                  rw [h2] at hr
                  simp only [Option.some.injEq, Prod.mk.injEq] at hr
                  rw [← hr.1] at hy
                  obtain ⟨z, hz, hz2⟩ := step_data h1 (List.getElem?_eq_some_iff.1 hx).1
                  refine ih s1 s2 rs2 h2 c z hz ?_ y hy
                  intro h0
                  obtain ⟨w, hw, hw2, _⟩ := hz2 h0
                  rw [hx] at hw; injection hw with hw; subst hw; exact hne hw2
          exact this ops st1 st2 rs2 h2 c cell1 hc1 h0 cell2 hc2 hf

/-- C21: the imported bytes stay what they are: after any further history, whichever object owns the buffer reads
back exactly the first `N` bytes of the caller's buffer. -/
theorem c21_content_constant {N : Nat} {ml : Bool} {st0 st : St} {b : Bytes} {ops : List Op} {rs : List (Res Bytes)}
    (hre : Reach N ml st0) (hb : N ≤ b.length) (hpre : ∀ op ∈ ops, op.pre N)
    (hr : run N ml st0 (.newFrom (some b) :: ops) = some (st, rs))
    {i : Nat} {o : Obj} (ho : st.obj i = some o) (hc : o.content = some st0.heap.length) :
    ∃ st', step N ml st (.readUnlock i) = some (st', .ok (b.take N)) := by
  obtain ⟨st1, h1, _, hcell⟩ := c21_import hre b hb
  have hinv0 := reach_inv hre
  have hinv1 := (step_ok hinv0 (op := .newFrom (some b)) hb h1).inv
  simp only [run, h1] at hr
  cases h2 : run N ml st1 ops with
  | none => rw [h2] at hr; cases hr
  | some y =>
    obtain ⟨st2, rs2⟩ := y
    rw [h2] at hr
    simp only [Option.some.injEq, Prod.mk.injEq] at hr
    obtain ⟨rfl, _⟩ := hr
    have hinv2 := run_inv ops hinv1 hpre h2
    obtain ⟨cell', hc', hd'⟩ := run_data ops h2 hcell
    obtain ⟨st3, h3, _, _, _, _, cell, hcl, hd⟩ := unlockObj_ok hinv2 ho hc
    rw [hc'] at hcl; injection hcl with hcl; subst hcl
    have hf : cell'.frees = 0 := by
      obtain ⟨cell2, hx, hy, _⟩ := hinv2.own i o _ ho hc
      rw [hc'] at hx; injection hx with hx; subst hx; exact hy
    refine ⟨st3, ?_⟩
    simp only [step, ho, Option.map_some, hc, h3]
    rw [hd, hd' hf]

example : ∃ st rs, run 2 true St.init [.newFrom (some [5, 6, 7]), .newRandom [1, 1] [], .unlock 0, .moveCtor 0, .moveAssign 1 2] =
      some (st, rs) ∧ st.obj 1 = some ⟨some 0, false⟩ ∧ ∃ st', step 2 true st (.readUnlock 1) = some (st', .ok [5, 6]) :=
  ⟨_, _, rfl, rfl, _, rfl⟩

end Verif.Key
