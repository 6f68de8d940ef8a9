import Verif.Key.Spec

/-! Invariant and simulation for key objects. -/

namespace Verif.Key

open Verif

/-- Page protection agrees with the flag. -/
def ProtOk (ml locked : Bool) (p : Prot) : Prop :=
  if ml then (locked = true ↔ p = .noaccess) else (p ≠ .noaccess ∧ locked = false)

structure Inv (ml : Bool) (st : St) : Prop where
  own : ∀ i o c, st.obj i = some o → o.content = some c →
    ∃ cell, st.heap[c]? = some cell ∧ cell.frees = 0 ∧ ProtOk ml o.locked cell.prot
  uniq : ∀ i j oi oj c, st.obj i = some oi → st.obj j = some oj → oi.content = some c → oj.content = some c → i = j
  emp : ∀ i o, st.obj i = some o → o.content = none → o.locked = true
  freed : ∀ (c : Nat) cell, st.heap[c]? = some cell →
    cell.frees ≤ 1 ∧ (cell.frees = 1 → cell.data = List.replicate cell.data.length 0)

/-- Every buffer not yet released belongs to an object. -/
def NoLeak (st : St) : Prop :=
  ∀ (c : Nat) cell, st.heap[c]? = some cell → cell.frees = 0 → ∃ i o, st.obj i = some o ∧ o.content = some c

/-- User view of an object. -/
def absObj (h : List Cell) (o : Obj) : Spec.Obj := ⟨o.content.bind fun c => (h[c]?).map (·.data), o.locked⟩

structure Sim (st : St) (a : Spec.St) : Prop where
  len : a.length = st.objs.length
  objs : ∀ i, Spec.obj a i = (st.obj i).map (absObj st.heap)

theorem obj_lt {st : St} {i : Nat} {o : Obj} (h : st.obj i = some o) : i < st.objs.length := by
  unfold St.obj at h
  cases h' : st.objs[i]? with
  | none => rw [h'] at h; cases h
  | some x => exact (List.getElem?_eq_some_iff.1 h').1

theorem obj_setObj (st : St) (i j : Nat) (x : Option Obj) (hi : i < st.objs.length) :
    (st.setObj i x).obj j = if i = j then x else st.obj j := by
  unfold St.obj St.setObj
  by_cases h : i = j
  · subst h
    rw [if_pos rfl]
    simp only [List.getElem?_set_self hi]
    cases x <;> rfl
  · rw [if_neg h]
    simp only [List.getElem?_set_ne h]

theorem obj_pushObj (st : St) (j : Nat) (o : Obj) :
    (st.pushObj o).obj j = if j = st.objs.length then some o else st.obj j := by
  unfold St.obj St.pushObj
  by_cases h : j = st.objs.length
  · subst h; simp
  · rw [if_neg h]
    by_cases h2 : j < st.objs.length
    · simp only [List.getElem?_append_left h2]
    · have h3 : (st.objs ++ [some o])[j]? = none := by
        apply List.getElem?_eq_none; simp; omega
      have h4 : st.objs[j]? = none := List.getElem?_eq_none (by omega)
      simp only [h3, h4]

theorem sobj_set (a : Spec.St) (i j : Nat) (x : Option Spec.Obj) (hi : i < a.length) :
    Spec.obj (a.set i x) j = if i = j then x else Spec.obj a j := by
  unfold Spec.obj
  by_cases h : i = j
  · subst h
    rw [if_pos rfl, List.getElem?_set_self hi]
    cases x <;> rfl
  · rw [if_neg h, List.getElem?_set_ne h]

theorem sobj_push (a : Spec.St) (j : Nat) (o : Spec.Obj) :
    Spec.obj (a ++ [some o]) j = if j = a.length then some o else Spec.obj a j := by
  unfold Spec.obj
  by_cases h : j = a.length
  · subst h; simp
  · rw [if_neg h]
    by_cases h2 : j < a.length
    · rw [List.getElem?_append_left h2]
    · have h3 : (a ++ [some o])[j]? = none := by
        apply List.getElem?_eq_none; simp; omega
      have h4 : a[j]? = none := List.getElem?_eq_none (by omega)
      rw [h3, h4]

/-! ### Effects on the heap -/

theorem inv_init (ml : Bool) : Inv ml St.init := by
  constructor <;> intros <;> simp_all [St.init, St.obj]

theorem sim_init : Sim St.init [] := by
  constructor
  · rfl
  · intro i; simp [Spec.obj, St.obj, St.init]

theorem protOk_fresh (ml : Bool) : ProtOk ml ml (freshProt ml) := by
  cases ml <;> simp [ProtOk, freshProt]

/-- A fresh object with a fresh buffer. -/
theorem inv_fresh {ml : Bool} {st : St} (h : Inv ml st) (d : Bytes) :
    Inv ml ((st.alloc d (freshProt ml)).pushObj ⟨some st.heap.length, ml⟩) := by
  have hobj : ∀ j, ((st.alloc d (freshProt ml)).pushObj ⟨some st.heap.length, ml⟩).obj j =
      if j = st.objs.length then some ⟨some st.heap.length, ml⟩ else st.obj j := by
    intro j; rw [obj_pushObj]; rfl
  have hheap : ∀ c, c < st.heap.length →
      ((st.alloc d (freshProt ml)).pushObj ⟨some st.heap.length, ml⟩).heap[c]? = st.heap[c]? := by
    intro c hc; simp only [St.pushObj, St.alloc]; rw [List.getElem?_append_left hc]
  have hnew : ((st.alloc d (freshProt ml)).pushObj ⟨some st.heap.length, ml⟩).heap[st.heap.length]? =
      some ⟨d, freshProt ml, 0⟩ := by
    simp [St.pushObj, St.alloc]
  have hlt : ∀ i o c, st.obj i = some o → o.content = some c → c < st.heap.length := by
    intro i o c h1 h2
    obtain ⟨cell, hc, _⟩ := h.own i o c h1 h2
    exact (List.getElem?_eq_some_iff.1 hc).1
  constructor
  · intro i o c h1 h2
    rw [hobj] at h1
    by_cases hi : i = st.objs.length
    · rw [if_pos hi] at h1
      injection h1 with h1; subst h1
      simp only [Option.some.injEq] at h2; subst h2
      exact ⟨_, hnew, rfl, protOk_fresh ml⟩
    · rw [if_neg hi] at h1
      rw [hheap c (hlt i o c h1 h2)]
      exact h.own i o c h1 h2
  · intro i j oi oj c h1 h2 h3 h4
    rw [hobj] at h1 h2
    by_cases hi : i = st.objs.length <;> by_cases hj : j = st.objs.length
    · omega
    · rw [if_pos hi] at h1; rw [if_neg hj] at h2
      injection h1 with h1; subst h1
      simp only [Option.some.injEq] at h3; subst h3
      exact absurd (hlt _ _ _ h2 h4) (Nat.lt_irrefl _)
    · rw [if_neg hi] at h1; rw [if_pos hj] at h2
      injection h2 with h2; subst h2
      simp only [Option.some.injEq] at h4; subst h4
      exact absurd (hlt _ _ _ h1 h3) (Nat.lt_irrefl _)
    · rw [if_neg hi] at h1; rw [if_neg hj] at h2
      exact h.uniq i j oi oj c h1 h2 h3 h4
  · intro i o h1 h2
    rw [hobj] at h1
    by_cases hi : i = st.objs.length
    · rw [if_pos hi] at h1
      injection h1 with h1; subst h1; cases h2
    · rw [if_neg hi] at h1; exact h.emp i o h1 h2
  · intro c cell hc
    by_cases hlt' : c < st.heap.length
    · rw [hheap c hlt'] at hc; exact h.freed c cell hc
    · have : c = st.heap.length := by
        have := (List.getElem?_eq_some_iff.1 hc).1
        simp [St.pushObj, St.alloc] at this; omega
      subst this
      rw [hnew] at hc; injection hc with hc; subst hc
      exact ⟨Nat.zero_le _, fun h => absurd h (by simp)⟩

theorem sim_fresh {ml : Bool} {st : St} {a : Spec.St} (h : Inv ml st) (hs : Sim st a) (d : Bytes) :
    Sim ((st.alloc d (freshProt ml)).pushObj ⟨some st.heap.length, ml⟩) (a ++ [some ⟨some d, ml⟩]) := by
  constructor
  · simp [St.pushObj, St.alloc, hs.len]
  · intro i
    rw [sobj_push, obj_pushObj, hs.len]
    have e : (st.alloc d (freshProt ml)).objs.length = st.objs.length := rfl
    rw [e]
    by_cases hi : i = st.objs.length
    · rw [if_pos hi, if_pos hi]
      simp [absObj, St.pushObj, St.alloc]
    · rw [if_neg hi, if_neg hi, hs.objs i]
      have e2 : (st.alloc d (freshProt ml)).obj i = st.obj i := rfl
      rw [e2]
      cases ho : st.obj i with
      | none => rfl
      | some o =>
        simp only [Option.map_some, Option.some.injEq, absObj]
        cases hc : o.content with
        | none => rfl
        | some c =>
          obtain ⟨cell, hcell, _⟩ := h.own i o c ho hc
          have hlt := (List.getElem?_eq_some_iff.1 hcell).1
          simp only [Option.bind_some, St.pushObj, St.alloc]
          rw [List.getElem?_append_left hlt]

theorem noLeak_fresh {ml : Bool} {st : St} (hl : NoLeak st) (d : Bytes) :
    NoLeak ((st.alloc d (freshProt ml)).pushObj ⟨some st.heap.length, ml⟩) := by
  intro c cell hc hf
  by_cases hlt : c < st.heap.length
  · have : st.heap[c]? = some cell := by
      simp only [St.pushObj, St.alloc] at hc
      rwa [List.getElem?_append_left hlt] at hc
    obtain ⟨i, o, h1, h2⟩ := hl c cell this hf
    refine ⟨i, o, ?_, h2⟩
    rw [obj_pushObj, if_neg]
    · exact h1
    · have := obj_lt h1
      simp [St.alloc]; omega
  · have : c = st.heap.length := by
      have := (List.getElem?_eq_some_iff.1 hc).1
      simp [St.pushObj, St.alloc] at this; omega
    subst this
    refine ⟨st.objs.length, ⟨some st.heap.length, ml⟩, ?_, rfl⟩
    rw [obj_pushObj]
    exact if_pos rfl

/-- A buffer allocated and then lost by a throwing callback. -/
theorem inv_alloc {ml : Bool} {st : St} (h : Inv ml st) (d : Bytes) (p : Prot) : Inv ml (st.alloc d p) := by
  have hheap : ∀ c, c < st.heap.length → (st.alloc d p).heap[c]? = st.heap[c]? := by
    intro c hc; simp only [St.alloc]; rw [List.getElem?_append_left hc]
  refine ⟨?_, h.uniq, h.emp, ?_⟩
  · intro i o c h1 h2
    obtain ⟨cell, hc, hr⟩ := h.own i o c h1 h2
    have := (List.getElem?_eq_some_iff.1 hc).1
    rw [hheap c this]
    exact ⟨cell, hc, hr⟩
  · intro c cell hc
    by_cases hlt' : c < st.heap.length
    · rw [hheap c hlt'] at hc; exact h.freed c cell hc
    · have : c = st.heap.length := by
        have := (List.getElem?_eq_some_iff.1 hc).1
        simp [St.alloc] at this; omega
      subst this
      simp [St.alloc] at hc; subst hc
      exact ⟨Nat.zero_le _, fun h => absurd h (by simp)⟩

theorem sim_alloc {ml : Bool} {st : St} {a : Spec.St} (h : Inv ml st) (hs : Sim st a) (d : Bytes) (p : Prot) :
    Sim (st.alloc d p) a := by
  refine ⟨hs.len, fun i => ?_⟩
  rw [hs.objs i]
  have e2 : (st.alloc d p).obj i = st.obj i := rfl
  rw [e2]
  cases ho : st.obj i with
  | none => rfl
  | some o =>
    simp only [Option.map_some, Option.some.injEq, absObj]
    cases hc : o.content with
    | none => rfl
    | some c =>
      obtain ⟨cell, hcell, _⟩ := h.own i o c ho hc
      have hlt := (List.getElem?_eq_some_iff.1 hcell).1
      simp only [Option.bind_some, St.alloc]
      rw [List.getElem?_append_left hlt]

/-- Releasing the buffer of object `i` and storing `x` (without that buffer) in its place. -/
theorem free_ok {ml : Bool} {st : St} (h : Inv ml st) {i : Nat} {o : Obj} {c : Nat} (ho : st.obj i = some o)
    (hc : o.content = some c) :
    ∃ cell, st.heap[c]? = some cell ∧
      st.free c = .ok { st with heap := st.heap.set c ⟨List.replicate cell.data.length 0, .noaccess, 1⟩ } := by
  obtain ⟨cell, hcell, hf, _⟩ := h.own i o c ho hc
  refine ⟨cell, hcell, ?_⟩
  unfold St.free
  rw [hcell]
  simp only [hf, if_true]

/-- The state after releasing the buffer of object `i` and making the object empty or destroyed. -/
def afterFree (st : St) (c : Nat) (n : Nat) (i : Nat) (x : Option Obj) : St :=
  St.setObj { st with heap := st.heap.set c ⟨List.replicate n 0, .noaccess, 1⟩ } i x

theorem obj_afterFree (st : St) (c n i : Nat) (x : Option Obj) (hi : i < st.objs.length) (j : Nat) :
    (afterFree st c n i x).obj j = if i = j then x else st.obj j := by
  unfold afterFree
  exact (obj_setObj _ i j x hi).trans rfl

theorem inv_afterFree {ml : Bool} {st : St} (h : Inv ml st) {i c : Nat} {o : Obj} (ho : st.obj i = some o)
    (hc : o.content = some c) (n : Nat) (x : Option Obj) (hx : x = none ∨ x = some ⟨none, true⟩) :
    Inv ml (afterFree st c n i x) := by
  have hi := obj_lt ho
  have hcl : c < st.heap.length := by
    obtain ⟨cell, hcell, _⟩ := h.own i o c ho hc
    exact (List.getElem?_eq_some_iff.1 hcell).1
  have hxc : ∀ ox, x = some ox → ox.content = none := by
    intro ox hox
    rcases hx with hx | hx
    · rw [hx] at hox; cases hox
    · rw [hx] at hox; injection hox with hox; subst hox; rfl
  constructor
  · intro j oj cj h1 h2
    rw [obj_afterFree _ _ _ _ _ hi] at h1
    by_cases hij : i = j
    · rw [if_pos hij] at h1
      rw [hxc oj h1] at h2; cases h2
    · rw [if_neg hij] at h1
      obtain ⟨cell, hcell, hr⟩ := h.own j oj cj h1 h2
      have hne : c ≠ cj := by
        intro e; subst e
        exact hij (h.uniq i j o oj c ho h1 hc h2)
      refine ⟨cell, ?_, hr⟩
      simp only [afterFree, St.setObj]
      rw [List.getElem?_set_ne hne]; exact hcell
  · intro j k oj ok' c' h1 h2 h3 h4
    rw [obj_afterFree _ _ _ _ _ hi] at h1 h2
    by_cases hij : i = j
    · rw [if_pos hij] at h1; rw [hxc oj h1] at h3; cases h3
    · by_cases hik : i = k
      · rw [if_pos hik] at h2; rw [hxc ok' h2] at h4; cases h4
      · rw [if_neg hij] at h1; rw [if_neg hik] at h2
        exact h.uniq j k oj ok' c' h1 h2 h3 h4
  · intro j oj h1 h2
    rw [obj_afterFree _ _ _ _ _ hi] at h1
    by_cases hij : i = j
    · rw [if_pos hij] at h1
      rcases hx with hx | hx
      · rw [hx] at h1; cases h1
      · rw [hx] at h1; injection h1 with h1; subst h1; rfl
    · rw [if_neg hij] at h1; exact h.emp j oj h1 h2
  · intro c' cell hcell
    simp only [afterFree, St.setObj] at hcell
    by_cases hcc : c = c'
    · subst hcc
      rw [List.getElem?_set_self hcl] at hcell
      injection hcell with hcell; subst hcell
      exact ⟨Nat.le_refl _, fun _ => by simp⟩
    · rw [List.getElem?_set_ne hcc] at hcell
      exact h.freed c' cell hcell

theorem sim_afterFree {ml : Bool} {st : St} {a : Spec.St} (h : Inv ml st) (hs : Sim st a) {i c : Nat} {o : Obj}
    (ho : st.obj i = some o) (hc : o.content = some c) (n : Nat) (x : Option Obj) (y : Option Spec.Obj)
    (hx : (x = none ∧ y = none) ∨ (x = some ⟨none, true⟩ ∧ y = some .empty)) :
    Sim (afterFree st c n i x) (a.set i y) := by
  have hi := obj_lt ho
  constructor
  · simp [afterFree, St.setObj, hs.len]
  · intro j
    rw [obj_afterFree _ _ _ _ _ hi, sobj_set _ _ _ _ (by rw [hs.len]; exact hi)]
    by_cases hij : i = j
    · rw [if_pos hij, if_pos hij]
      rcases hx with ⟨h1, h2⟩ | ⟨h1, h2⟩
      · rw [h1, h2]; rfl
      · rw [h1, h2]; rfl
    · rw [if_neg hij, if_neg hij, hs.objs j]
      cases hj : st.obj j with
      | none => rfl
      | some oj =>
        simp only [Option.map_some, Option.some.injEq, absObj]
        cases hcj : oj.content with
        | none => rfl
        | some cj =>
          have hne : c ≠ cj := by
            intro e; subst e
            exact hij (h.uniq i j o oj c ho hj hc hcj)
          simp only [Option.bind_some, afterFree, St.setObj]
          rw [List.getElem?_set_ne hne]

theorem noLeak_afterFree {st : St} (hl : NoLeak st) {i c : Nat} {o : Obj}
    (ho : st.obj i = some o) (hc : o.content = some c) (n : Nat) (x : Option Obj) (hcl : c < st.heap.length) :
    NoLeak (afterFree st c n i x) := by
  have hi := obj_lt ho
  intro c' cell hcell hf
  simp only [afterFree, St.setObj] at hcell
  by_cases hcc : c = c'
  · subst hcc
    rw [List.getElem?_set_self hcl] at hcell
    injection hcell with hcell; subst hcell; cases hf
  · rw [List.getElem?_set_ne hcc] at hcell
    obtain ⟨j, oj, h1, h2⟩ := hl c' cell hcell hf
    refine ⟨j, oj, ?_, h2⟩
    rw [obj_afterFree _ _ _ _ _ hi, if_neg]
    · exact h1
    · intro e; subst e
      rw [ho] at h1; injection h1 with h1; subst h1
      rw [hc] at h2; injection h2 with h2; exact hcc h2

/-! ### Moving -/

/-- Object `s` gives its content to the place `d` (an existing empty object, or a destroyed one). -/
def moved (st : St) (d s : Nat) (os : Obj) : St := (st.setObj d (some os)).setObj s (some ⟨none, true⟩)

theorem obj_moved (st : St) (d s : Nat) (os : Obj) (hd : d < st.objs.length) (hs : s < st.objs.length) (j : Nat) :
    (moved st d s os).obj j = if s = j then some ⟨none, true⟩ else if d = j then some os else st.obj j := by
  unfold moved
  rw [obj_setObj _ _ _ _ (by simpa [St.setObj] using hs), obj_setObj _ _ _ _ hd]

theorem inv_moved {ml : Bool} {st : St} (h : Inv ml st) {d s : Nat} {os : Obj}
    (hd : d < st.objs.length) (hs : st.obj s = some os) :
    Inv ml (moved st d s os) := by
  have hsl := obj_lt hs
  have ho := obj_moved st d s os hd hsl
  constructor
  · intro i o c h1 h2
    rw [ho] at h1
    by_cases h3 : s = i
    · rw [if_pos h3] at h1; injection h1 with h1; subst h1; cases h2
    · rw [if_neg h3] at h1
      by_cases h4 : d = i
      · rw [if_pos h4] at h1; injection h1 with h1; subst h1
        exact h.own s os c hs h2
      · rw [if_neg h4] at h1; exact h.own i o c h1 h2
  · intro i j oi oj c h1 h2 h3 h4
    have key : ∀ k ok', (moved st d s os).obj k = some ok' → ok'.content = some c →
        ∃ k', st.obj k' = some ok' ∧ ((k = d ∧ k' = s) ∨ (k ≠ d ∧ k ≠ s ∧ k' = k)) := by
      intro k ok' hk hkc
      rw [ho] at hk
      by_cases h5 : s = k
      · rw [if_pos h5] at hk; injection hk with hk; subst hk; cases hkc
      · rw [if_neg h5] at hk
        by_cases h6 : d = k
        · rw [if_pos h6] at hk; injection hk with hk; subst hk
          exact ⟨s, hs, Or.inl ⟨h6.symm, rfl⟩⟩
        · rw [if_neg h6] at hk
          exact ⟨k, hk, Or.inr ⟨fun e => h6 e.symm, fun e => h5 e.symm, rfl⟩⟩
    obtain ⟨i', hi', hi2⟩ := key i oi h1 h3
    obtain ⟨j', hj', hj2⟩ := key j oj h2 h4
    have := h.uniq i' j' oi oj c hi' hj' h3 h4
    rcases hi2 with ⟨a1, a2⟩ | ⟨a1, a2, a3⟩ <;> rcases hj2 with ⟨b1, b2⟩ | ⟨b1, b2, b3⟩ <;> omega
  · intro i o h1 h2
    rw [ho] at h1
    by_cases h3 : s = i
    · rw [if_pos h3] at h1; injection h1 with h1; subst h1; rfl
    · rw [if_neg h3] at h1
      by_cases h4 : d = i
      · rw [if_pos h4] at h1; injection h1 with h1; subst h1
        exact h.emp s os hs h2
      · rw [if_neg h4] at h1; exact h.emp i o h1 h2
  · exact h.freed

theorem sim_moved {st : St} {a : Spec.St} (hsim : Sim st a) {d s : Nat} {os : Obj}
    (hd : d < st.objs.length) (hs : st.obj s = some os) :
    Sim (moved st d s os) ((a.set d (some (absObj st.heap os))).set s (some .empty)) := by
  have hsl := obj_lt hs
  constructor
  · simp [moved, St.setObj, hsim.len]
  · intro j
    rw [obj_moved st d s os hd hsl, sobj_set _ _ _ _ (by simp [hsim.len, hsl]),
      sobj_set _ _ _ _ (by rw [hsim.len]; exact hd)]
    by_cases h3 : s = j
    · rw [if_pos h3, if_pos h3]; rfl
    · rw [if_neg h3, if_neg h3]
      by_cases h4 : d = j
      · rw [if_pos h4, if_pos h4]; rfl
      · rw [if_neg h4, if_neg h4, hsim.objs j]; rfl

theorem noLeak_moved {st : St} (hl : NoLeak st) {d s : Nat} {os : Obj} (hne : d ≠ s)
    (hd : d < st.objs.length) (hs : st.obj s = some os) (hde : ∀ od, st.obj d = some od → od.content = none) :
    NoLeak (moved st d s os) := by
  have hsl := obj_lt hs
  have ho := obj_moved st d s os hd hsl
  intro c cell hc hf
  obtain ⟨j, oj, h1, h2⟩ := hl c cell hc hf
  by_cases hj : j = s
  · subst hj
    rw [hs] at h1; injection h1 with h1; subst h1
    refine ⟨d, os, ?_, h2⟩
    rw [ho, if_neg (fun e => hne e.symm), if_pos rfl]
  · by_cases hjd : j = d
    · subst hjd
      rw [hde oj h1] at h2; cases h2
    · refine ⟨j, oj, ?_, h2⟩
      rw [ho, if_neg (fun e => hj e.symm), if_neg (fun e => hjd e.symm)]; exact h1

/-! ### Changing the protection -/

def reprot (st : St) (i c : Nat) (o : Obj) (cell : Cell) (p : Prot) (l : Bool) : St :=
  St.setObj { st with heap := st.heap.set c { cell with prot := p } } i (some { o with locked := l })

theorem obj_reprot (st : St) (i c : Nat) (o : Obj) (cell : Cell) (p : Prot) (l : Bool) (hi : i < st.objs.length) (j : Nat) :
    (reprot st i c o cell p l).obj j = if i = j then some { o with locked := l } else st.obj j := by
  unfold reprot
  exact (obj_setObj _ i j _ hi).trans rfl

theorem inv_reprot {ml : Bool} {st : St} (h : Inv ml st) {i c : Nat} {o : Obj} {cell : Cell} (ho : st.obj i = some o)
    (hc : o.content = some c) (hcell : st.heap[c]? = some cell) (p : Prot) (l : Bool) (hp : ProtOk ml l p) :
    Inv ml (reprot st i c o cell p l) := by
  have hi := obj_lt ho
  have hcl := (List.getElem?_eq_some_iff.1 hcell).1
  have hob := obj_reprot st i c o cell p l hi
  have hfr : cell.frees = 0 := by
    obtain ⟨cell', hc', hf, _⟩ := h.own i o c ho hc
    rw [hcell] at hc'; injection hc' with hc'; subst hc'; exact hf
  constructor
  · intro j oj cj h1 h2
    rw [hob] at h1
    by_cases hij : i = j
    · rw [if_pos hij] at h1; injection h1 with h1; subst h1
      simp only at h2
      rw [hc] at h2; injection h2 with h2; subst h2
      refine ⟨{ cell with prot := p }, ?_, hfr, hp⟩
      simp only [reprot, St.setObj]
      rw [List.getElem?_set_self hcl]
    · rw [if_neg hij] at h1
      have hne : c ≠ cj := by
        intro e; subst e
        exact hij (h.uniq i j o oj c ho h1 hc h2)
      obtain ⟨cell', hc', hr⟩ := h.own j oj cj h1 h2
      refine ⟨cell', ?_, hr⟩
      simp only [reprot, St.setObj]
      rw [List.getElem?_set_ne hne]; exact hc'
  · intro j k oj ok' c' h1 h2 h3 h4
    have key : ∀ k ok', (reprot st i c o cell p l).obj k = some ok' → ok'.content = some c' →
        ∃ o', st.obj k = some o' ∧ o'.content = some c' := by
      intro k ok' hk hkc
      rw [hob] at hk
      by_cases hik : i = k
      · rw [if_pos hik] at hk; injection hk with hk; subst hk
        exact ⟨o, by rw [← hik]; exact ho, hkc⟩
      · rw [if_neg hik] at hk; exact ⟨ok', hk, hkc⟩
    obtain ⟨o1, a1, a2⟩ := key j oj h1 h3
    obtain ⟨o2, b1, b2⟩ := key k ok' h2 h4
    exact h.uniq j k o1 o2 c' a1 b1 a2 b2
  · intro j oj h1 h2
    rw [hob] at h1
    by_cases hij : i = j
    · rw [if_pos hij] at h1; injection h1 with h1; subst h1
      simp only [hc] at h2; cases h2
    · rw [if_neg hij] at h1; exact h.emp j oj h1 h2
  · intro c' cell' hc'
    simp only [reprot, St.setObj] at hc'
    by_cases hcc : c = c'
    · subst hcc
      rw [List.getElem?_set_self hcl] at hc'
      injection hc' with hc'; subst hc'
      exact h.freed c cell hcell
    · rw [List.getElem?_set_ne hcc] at hc'
      exact h.freed c' cell' hc'

theorem sim_reprot {ml : Bool} {st : St} {a : Spec.St} (_h : Inv ml st) (hs : Sim st a) {i c : Nat} {o : Obj} {cell : Cell}
    (ho : st.obj i = some o) (hcell : st.heap[c]? = some cell) (p : Prot) (l : Bool) :
    Sim (reprot st i c o cell p l) (a.set i (some { absObj st.heap o with locked := l })) := by
  have hi := obj_lt ho
  have hcl := (List.getElem?_eq_some_iff.1 hcell).1
  have hdata : ∀ c' : Nat, ((st.heap.set c { cell with prot := p })[c']?).map (·.data) = (st.heap[c']?).map (·.data) := by
    intro c'
    by_cases hcc : c = c'
    · subst hcc
      rw [List.getElem?_set_self hcl, hcell]; rfl
    · rw [List.getElem?_set_ne hcc]
  have habs : ∀ o', absObj (st.heap.set c { cell with prot := p }) o' = absObj st.heap o' := by
    intro o'
    simp only [absObj, hdata]
  constructor
  · simp [reprot, St.setObj, hs.len]
  · intro j
    rw [obj_reprot _ _ _ _ _ _ _ hi, sobj_set _ _ _ _ (by rw [hs.len]; exact hi)]
    have e : (reprot st i c o cell p l).heap = st.heap.set c { cell with prot := p } := rfl
    rw [e]
    by_cases hij : i = j
    · rw [if_pos hij, if_pos hij]
      simp only [Option.map_some, habs]; rfl
    · rw [if_neg hij, if_neg hij, hs.objs j]
      cases st.obj j with
      | none => rfl
      | some oj => simp only [Option.map_some, habs]

theorem noLeak_reprot {st : St} (hl : NoLeak st) {i c : Nat} {o : Obj} {cell : Cell} (ho : st.obj i = some o)
    (hcell : st.heap[c]? = some cell) (p : Prot) (l : Bool) :
    NoLeak (reprot st i c o cell p l) := by
  have hi := obj_lt ho
  have hcl := (List.getElem?_eq_some_iff.1 hcell).1
  have hob := obj_reprot st i c o cell p l hi
  intro c' cell' hc' hf
  have : ∃ cell'', st.heap[c']? = some cell'' ∧ cell''.frees = 0 := by
    simp only [reprot, St.setObj] at hc'
    by_cases hcc : c = c'
    · subst hcc
      rw [List.getElem?_set_self hcl] at hc'
      injection hc' with hc'; subst hc'
      exact ⟨cell, hcell, hf⟩
    · rw [List.getElem?_set_ne hcc] at hc'; exact ⟨cell', hc', hf⟩
  obtain ⟨cell'', h1, h2⟩ := this
  obtain ⟨j, oj, h3, h4⟩ := hl c' cell'' h1 h2
  by_cases hij : i = j
  · subst hij
    rw [ho] at h3; injection h3 with h3; subst h3
    exact ⟨i, { o with locked := l }, by rw [hob, if_pos rfl], h4⟩
  · exact ⟨j, oj, by rw [hob, if_neg hij]; exact h3, h4⟩

/-! ### One step -/

/-- Adding a place for an object to come. -/
def room (st : St) : St := { st with objs := st.objs ++ [none] }

theorem obj_room (st : St) (j : Nat) : (room st).obj j = st.obj j := by
  unfold St.obj room
  by_cases h2 : j < st.objs.length
  · simp only [List.getElem?_append_left h2]
  · have h4 : st.objs[j]? = none := List.getElem?_eq_none (by omega)
    simp only [h4]
    by_cases h : j = st.objs.length
    · subst h; simp
    · have h3 : (st.objs ++ [none])[j]? = none := by
        apply List.getElem?_eq_none; simp; omega
      simp only [h3]

theorem inv_room {ml : Bool} {st : St} (h : Inv ml st) : Inv ml (room st) := by
  refine ⟨?_, ?_, ?_, h.freed⟩
  · intro i o c h1; rw [obj_room] at h1; exact h.own i o c h1
  · intro i j oi oj c h1 h2; rw [obj_room] at h1 h2; exact h.uniq i j oi oj c h1 h2
  · intro i o h1; rw [obj_room] at h1; exact h.emp i o h1

theorem noLeak_room {st : St} (h : NoLeak st) : NoLeak (room st) := by
  intro c cell h1 h2
  obtain ⟨i, o, h3, h4⟩ := h c cell h1 h2
  exact ⟨i, o, by rw [obj_room]; exact h3, h4⟩

theorem sim_room {st : St} {a : Spec.St} (h : Sim st a) : Sim (room st) (a ++ [none]) := by
  refine ⟨by simp [room, h.len], fun i => ?_⟩
  rw [obj_room]
  have : Spec.obj (a ++ [none]) i = Spec.obj a i := by
    unfold Spec.obj
    by_cases h2 : i < a.length
    · rw [List.getElem?_append_left h2]
    · have h4 : a[i]? = none := List.getElem?_eq_none (by omega)
      rw [h4]
      by_cases h : i = a.length
      · subst h; simp
      · have h3 : (a ++ [none])[i]? = none := by
          apply List.getElem?_eq_none; simp; omega
        rw [h3]
  rw [this]; exact h.objs i

theorem set_room {α : Type} (l : List (Option α)) (s : Nat) (hs : s < l.length) (x y : Option α) :
    ((l ++ [none]).set l.length x).set s y = l.set s y ++ [x] := by
  rw [List.set_append_right _ _ (Nat.le_refl _), Nat.sub_self, List.set_append_left _ _ hs]
  rfl

theorem moveCtor_eq (st : St) (s : Nat) (o : Obj) (hs : s < st.objs.length) :
    (st.setObj s (some ⟨none, true⟩)).pushObj o = moved (room st) st.objs.length s o := by
  unfold moved room St.setObj St.pushObj
  simp only
  rw [set_room _ _ hs]

theorem protect_ok {ml : Bool} {st : St} (h : Inv ml st) {i : Nat} {o : Obj} {c : Nat} (ho : st.obj i = some o)
    (hc : o.content = some c) (p : Prot) (l : Bool) :
    ∃ cell, st.heap[c]? = some cell ∧ cell.frees = 0 ∧
      (fun s => St.setObj s i (some { o with locked := l })) <$> st.protect c p = .ok (reprot st i c o cell p l) := by
  obtain ⟨cell, hcell, hf, _⟩ := h.own i o c ho hc
  refine ⟨cell, hcell, hf, ?_⟩
  unfold St.protect
  simp only [hcell]
  rw [if_pos hf]
  rfl

/-- What one step guarantees. -/
structure StepOk (N : Nat) (ml : Bool) (st : St) (op : Op) (st' : St) (r : Res Bytes) : Prop where
  inv : Inv ml st'
  noLeak : op.noThrow → NoLeak st → NoLeak st'
  sim : ml = true → ∀ a, Sim st a → ∃ a', Spec.step N a op = some (a', r) ∧ Sim st' a'

theorem sobj_some {st : St} {a : Spec.St} (hs : Sim st a) {i : Nat} {o : Obj} (ho : st.obj i = some o) :
    Spec.obj a i = some (absObj st.heap o) := by
  rw [hs.objs i, ho]; rfl

theorem absObj_value {st : St} {o : Obj} {c : Nat} (hc : o.content = some c) {cell : Cell} (hcell : st.heap[c]? = some cell) :
    (absObj st.heap o).value = some cell.data := by
  simp [absObj, hc, hcell]

theorem set_same {a : Spec.St} {i : Nat} {x : Spec.Obj} (h : Spec.obj a i = some x) : a.set i (some x) = a := by
  unfold Spec.obj at h
  cases h' : a[i]? with
  | none => rw [h'] at h; cases h
  | some y =>
    rw [h'] at h
    cases y with
    | none => cases h
    | some z =>
      simp only [Option.some.injEq] at h; subst h
      apply List.ext_getElem?
      intro j
      by_cases hij : i = j
      · subst hij
        rw [List.getElem?_set_self (List.getElem?_eq_some_iff.1 h').1, h']
      · rw [List.getElem?_set_ne hij]

theorem deref_ok {ml : Bool} {st : St} (h : Inv ml st) {i : Nat} {o : Obj} {c : Nat} (ho : st.obj i = some o)
    (hc : o.content = some c) (hl : o.locked = false) :
    ∃ cell, st.heap[c]? = some cell ∧ st.deref (some c) = .ok cell.data := by
  obtain ⟨cell, hcell, hf, hp⟩ := h.own i o c ho hc
  refine ⟨cell, hcell, ?_⟩
  unfold St.deref
  simp only [hcell]
  rw [if_pos]
  refine ⟨hf, ?_⟩
  unfold ProtOk at hp
  cases ml with
  | true =>
    rw [if_pos rfl, hl] at hp
    intro e
    exact absurd (hp.2 e) (by simp)
  | false =>
    simp only [Bool.false_eq_true, if_false] at hp
    exact hp.1

theorem unlockObj_ok {ml : Bool} {st : St} (h : Inv ml st) {i : Nat} {o : Obj} {c : Nat} (ho : st.obj i = some o)
    (hc : o.content = some c) :
    ∃ st', unlockObj ml st i o = .ok st' ∧ Inv ml st' ∧ (NoLeak st → NoLeak st') ∧
      st'.obj i = some { o with locked := false } ∧
      (ml = true → ∀ a, Sim st a → Sim st' (a.set i (some { absObj st.heap o with locked := false }))) ∧
      (∃ cell, st.heap[c]? = some cell ∧ st'.deref (some c) = .ok cell.data) := by
  have hi := obj_lt ho
  have fin : ∀ st', Inv ml st' → st'.obj i = some { o with locked := false } →
      ((st'.heap[c]?).map (·.data) = (st.heap[c]?).map (·.data)) →
      ∃ cell, st.heap[c]? = some cell ∧ st'.deref (some c) = .ok cell.data := by
    intro st' h1 h2 h3
    obtain ⟨cell', hc', hd⟩ := deref_ok h1 h2 hc rfl
    obtain ⟨cell, hcell, _⟩ := h.own i o c ho hc
    refine ⟨cell, hcell, ?_⟩
    rw [hc', hcell] at h3
    simp only [Option.map_some, Option.some.injEq] at h3
    rw [hd, h3]
  cases hml : ml with
  | false =>
    subst hml
    have hl : o.locked = false := by
      obtain ⟨cell, hcell, hf, hp⟩ := h.own i o c ho hc
      unfold ProtOk at hp
      simp only [Bool.false_eq_true, if_false] at hp
      exact hp.2
    have ho' : st.obj i = some { o with locked := false } := by
      rw [ho]; cases o; simp_all
    refine ⟨st, by simp [unlockObj], h, id, ho', by simp, fin st h ho' rfl⟩
  | true =>
    subst hml
    cases hl : o.locked with
    | false =>
      have ho' : st.obj i = some { o with locked := false } := by
        rw [ho]; cases o; simp_all
      refine ⟨st, by simp [unlockObj, hc, hl], h, id, ho', ?_, fin st h ho' rfl⟩
      intro _ a hs
      have : a.set i (some { absObj st.heap o with locked := false }) = a := by
        apply set_same
        rw [hs.objs i, ho']; rfl
      rw [this]; exact hs
    | true =>
      obtain ⟨cell, hcell, hf, hp⟩ := protect_ok h ho hc .ro false
      have hinv := inv_reprot h ho hc hcell .ro false (by simp [ProtOk])
      have ho' : (reprot st i c o cell .ro false).obj i = some { o with locked := false } := by
        rw [obj_reprot _ _ _ _ _ _ _ hi, if_pos rfl]
      refine ⟨reprot st i c o cell .ro false, ?_, hinv, fun hnl => noLeak_reprot hnl ho hcell _ _, ho', ?_, ?_⟩
      · unfold unlockObj
        simp only [if_true, hc, hl]
        rw [← hc]; exact hp
      · intro _ a hs
        exact sim_reprot h hs ho hcell .ro false
      · apply fin _ hinv ho'
        have hcl := (List.getElem?_eq_some_iff.1 hcell).1
        simp only [reprot, St.setObj]
        rw [List.getElem?_set_self hcl, hcell]; rfl

theorem lockObj_ok {ml : Bool} {st : St} (h : Inv ml st) {i : Nat} {o : Obj} {c : Nat} (ho : st.obj i = some o)
    (hc : o.content = some c) :
    ∃ st', lockObj ml st i o = .ok st' ∧ Inv ml st' ∧ (NoLeak st → NoLeak st') ∧
      (ml = true → ∀ a, Sim st a → Sim st' (a.set i (some { absObj st.heap o with locked := true }))) := by
  have hi := obj_lt ho
  cases hml : ml with
  | false =>
    subst hml
    exact ⟨st, by simp [lockObj], h, id, by simp⟩
  | true =>
    subst hml
    cases hl : o.locked with
    | true =>
      have ho' : st.obj i = some { o with locked := true } := by
        rw [ho]; cases o; simp_all
      refine ⟨st, by simp [lockObj, hc, hl], h, id, ?_⟩
      intro _ a hs
      have : a.set i (some { absObj st.heap o with locked := true }) = a := by
        apply set_same
        rw [hs.objs i, ho']; rfl
      rw [this]; exact hs
    | false =>
      obtain ⟨cell, hcell, hf, hp⟩ := protect_ok h ho hc .noaccess true
      have hinv := inv_reprot h ho hc hcell .noaccess true (by simp [ProtOk])
      refine ⟨reprot st i c o cell .noaccess true, ?_, hinv, fun hnl => noLeak_reprot hnl ho hcell _ _, ?_⟩
      · unfold lockObj
        simp only [if_true, hc, hl, Bool.false_eq_true, if_false]
        rw [← hc]; exact hp
      · intro _ a hs
        exact sim_reprot h hs ho hcell .noaccess true

end Verif.Key
