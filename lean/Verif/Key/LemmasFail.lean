import Verif.Key.SpecFail
import Verif.Key.LemmasStep

/-! Steps with failures are steps without, or leave all objects as they are. -/

namespace Verif.Key.Fail

open Verif Verif.Key

theorem ctor_good (st : St) (d : Bytes) : ctor true true true st d = ((st.alloc d .noaccess).pushObj ⟨some st.heap.length, true⟩, .ok []) := by
  have h : protect true true (st.alloc d .rw) st.heap.length .noaccess = .ok (st.alloc d .noaccess) := by
    unfold protect St.protect
    have : (st.alloc d .rw).heap[st.heap.length]? = some ⟨d, .rw, 0⟩ := by simp [St.alloc]
    simp only [if_true, this]
    congr 1
    unfold St.alloc
    simp only [St.mk.injEq, and_true]
    rw [List.set_append_right _ _ (Nat.le_refl _), Nat.sub_self]
    rfl
  unfold ctor
  simp only [if_true, h]

theorem ctor_bad (st : St) (d : Bytes) : ctor true true false st d = (st.alloc d .rw, .exc .runtimeError) := rfl

/-- What a step guarantees. -/
structure FStep (N : Nat) (l : Luck) (st : St) (op : Op) (st' : St) (out : Outcome) (buf : Bytes) : Prop where
  inv : Inv true st'
  sim : ∀ a, Sim st a → ∃ a', Spec.step N l.alloc l.prot a op = some (a', out, buf) ∧ Sim st' a'
  noLeak : ¬ Lost l op → NoLeak st → NoLeak st'

/-- A step that works. -/
theorem good {N : Nat} {l : Luck} {st : St} (h : Inv true st) {op : Op} (hpre : op.pre N) {st' : St} {r : Res Bytes}
    (hstep : Key.step N true st op = some (st', r)) {out : Outcome} {buf : Bytes}
    (ha : (Spec.allocates op && !l.alloc) = false) (hp : ∀ a, Sim st a → (Spec.protects a op && !l.prot) = false)
    (ho : Outcome.ret (Spec.result r op) = out) (hbuf : Spec.buffer N l.alloc op = buf)
    (hn : ¬ Lost l op → op.noThrow) : FStep N l st op st' out buf := by
  have hok := step_ok h hpre hstep
  refine ⟨hok.inv, ?_, fun hl => hok.noLeak (hn hl)⟩
  intro a hs
  obtain ⟨a', h1, h2⟩ := hok.sim rfl a hs
  refine ⟨a', ?_, h2⟩
  unfold Spec.step
  simp only [h1, ha, hp a hs, Bool.false_eq_true, if_false]
  rw [ho, hbuf]

/-- A step that throws and changes nothing but, perhaps, the memory that nobody owns. -/
theorem bad {N : Nat} {l : Luck} {st : St} {op : Op} {st' : St} {out : Outcome} {buf : Bytes} (hinv : Inv true st') (hsim : ∀ a, Sim st a → Sim st' a)
    (hsp : ∀ a, Sim st a → Spec.step N l.alloc l.prot a op = some (a, out, buf)) (hn : ¬ Lost l op → NoLeak st → NoLeak st') :
    FStep N l st op st' out buf :=
  ⟨hinv, fun a hs => ⟨a, hsp a hs, hsim a hs⟩, hn⟩

theorem sim_obj {st : St} {a : Key.Spec.St} (hs : Sim st a) {i : Nat} {o : Obj} (ho : st.obj i = some o) : Key.Spec.obj a i = some (absObj st.heap o) :=
  sobj_some hs ho

theorem value_isSome {st : St} (h : Inv true st) {i : Nat} {o : Obj} (ho : st.obj i = some o) : (absObj st.heap o).value.isSome = o.content.isSome := by
  cases hc : o.content with
  | none => simp [absObj, hc]
  | some c =>
    obtain ⟨cell, hcell, _⟩ := h.own i o c ho hc
    rw [absObj_value hc hcell]
    rfl

theorem fstep_ok {N : Nat} {l : Luck} {st : St} (h : Inv true st) {op : Op} (hpre : op.pre N) {st' : St} {out : Outcome} {buf : Bytes}
    (hstep : step N true true l st op = some (st', out, buf)) : FStep N l st op st' out buf := by
  obtain ⟨al, pr⟩ := l
  cases op with
  | newRandom r junk =>
    simp only [step] at hstep
    cases al with
    | false =>
      simp only [Bool.false_eq_true, if_false, Option.some.injEq, Prod.mk.injEq] at hstep
      obtain ⟨rfl, rfl, rfl⟩ := hstep
      exact bad h (fun a hs => hs) (fun a hs => rfl) fun _ hn => hn
    | true =>
      cases pr with
      | true =>
        simp only [if_true, ctor_good, plain, Option.some.injEq, Prod.mk.injEq] at hstep
        obtain ⟨rfl, rfl, rfl⟩ := hstep
        exact good h hpre (op := .newRandom r junk) rfl rfl (fun a hs => rfl) rfl rfl fun _ => trivial
      | false =>
        simp only [if_true, ctor_bad, plain, Option.some.injEq, Prod.mk.injEq] at hstep
        obtain ⟨rfl, rfl, rfl⟩ := hstep
        exact bad (inv_alloc h _ _) (fun a hs => sim_alloc h hs _ _) (fun a hs => rfl) fun hl _ => absurd ⟨rfl, rfl⟩ hl
  | newFrom b =>
    cases b with
    | none =>
      simp only [step, Option.some.injEq, Prod.mk.injEq] at hstep
      obtain ⟨rfl, rfl, rfl⟩ := hstep
      exact bad h (fun a hs => hs) (fun a hs => rfl) fun _ hn => hn
    | some b =>
      have hb : N ≤ b.length := hpre
      simp only [step] at hstep
      cases al with
      | false =>
        simp only [Bool.false_eq_true, if_false, Option.some.injEq, Prod.mk.injEq] at hstep
        obtain ⟨rfl, rfl, rfl⟩ := hstep
        exact bad h (fun a hs => hs) (fun a hs => rfl) fun _ hn => hn
      | true =>
        rw [if_pos rfl, if_neg (by omega)] at hstep
        cases pr with
        | true =>
          simp only [ctor_good, Option.some.injEq, Prod.mk.injEq] at hstep
          obtain ⟨rfl, rfl, rfl⟩ := hstep
          refine good h hpre (op := .newFrom (some b)) (r := .ok (List.replicate N 0 ++ b.drop N)) ?_ rfl (fun a hs => rfl) rfl rfl fun _ => trivial
          simp only [Key.step]
          rw [if_neg (by omega)]
          rfl
        | false =>
          simp only [ctor_bad, Option.some.injEq, Prod.mk.injEq] at hstep
          obtain ⟨rfl, rfl, rfl⟩ := hstep
          exact bad (inv_alloc h _ _) (fun a hs => sim_alloc h hs _ _) (fun a hs => rfl) fun hl _ => absurd ⟨rfl, rfl, rfl⟩ hl
  | newCallback fill junk =>
    simp only [step] at hstep
    cases al with
    | false =>
      simp only [Bool.false_eq_true, if_false, Option.some.injEq, Prod.mk.injEq] at hstep
      obtain ⟨rfl, rfl, rfl⟩ := hstep
      refine bad h (fun a hs => hs) (fun a hs => ?_) fun _ hn => hn
      cases fill <;> rfl
    | true =>
      cases fill with
      | none =>
        simp only [if_true, Option.some.injEq, Prod.mk.injEq] at hstep
        obtain ⟨rfl, rfl, rfl⟩ := hstep
        exact bad (inv_alloc h _ _) (fun a hs => sim_alloc h hs _ _) (fun a hs => rfl) fun hl _ => absurd ⟨rfl, .inl rfl⟩ hl
      | some d =>
        cases pr with
        | true =>
          simp only [if_true, ctor_good, plain, Option.some.injEq, Prod.mk.injEq] at hstep
          obtain ⟨rfl, rfl, rfl⟩ := hstep
          exact good h hpre (op := .newCallback (some d) junk) rfl rfl (fun a hs => rfl) rfl rfl fun _ => trivial
        | false =>
          simp only [if_true, ctor_bad, plain, Option.some.injEq, Prod.mk.injEq] at hstep
          obtain ⟨rfl, rfl, rfl⟩ := hstep
          exact bad (inv_alloc h _ _) (fun a hs => sim_alloc h hs _ _) (fun a hs => rfl) fun hl _ => absurd ⟨rfl, .inr rfl⟩ hl
  | lock i =>
    simp only [step] at hstep
    cases ho : st.obj i with
    | none => rw [ho] at hstep; cases hstep
    | some o =>
      rw [ho] at hstep
      simp only [Option.map_some, plain, Option.some.injEq, Prod.mk.injEq] at hstep
      obtain ⟨h1, h2, rfl⟩ := hstep
      by_cases hw : o.content.isSome = true ∧ o.locked = false ∧ pr = false
      · obtain ⟨hc, hl, rfl⟩ := hw
        obtain ⟨c, hc⟩ := Option.isSome_iff_exists.1 hc
        have e : fin st (lockObj true true false st i o) = (st, .exc .runtimeError) := by
          unfold lockObj
          simp only [if_true, hc, hl, Bool.false_eq_true, if_false]
          rfl
        rw [e] at h1 h2
        subst h1 h2
        refine bad h (fun a hs => hs) (fun a hs => ?_) fun _ hn => hn
        have hv := value_isSome h ho
        have hob := sim_obj hs ho
        have hab : (absObj st.heap o).locked = false := hl
        unfold Spec.step
        simp only [Key.Spec.step, hob, Option.map_some, Spec.allocates, Spec.protects, hv, hc, hab]
        rfl
      · have e : lockObj true true pr st i o = Key.lockObj true st i o := by
          unfold lockObj Key.lockObj
          simp only [if_true]
          cases hc : o.content with
          | none => rfl
          | some c =>
            simp only
            cases hl : o.locked with
            | true => rfl
            | false =>
              cases pr with
              | true => rfl
              | false => exact absurd ⟨by rw [hc]; rfl, hl, rfl⟩ hw
        rw [e] at h1 h2
        subst h1 h2
        refine good h hpre (op := .lock i) (by simp only [Key.step, ho, Option.map_some]) rfl (fun a hs => ?_) rfl rfl fun _ => trivial
        have hab : (absObj st.heap o).locked = o.locked := rfl
        simp only [Spec.protects, sim_obj hs ho, value_isSome h ho, hab]
        cases hc : o.content.isSome <;> cases hl : o.locked <;> cases pr <;> first | rfl | exact absurd ⟨hc, hl, rfl⟩ hw
  | unlock i =>
    simp only [step] at hstep
    cases ho : st.obj i with
    | none => rw [ho] at hstep; cases hstep
    | some o =>
      rw [ho] at hstep
      simp only [Option.map_some, plain, Option.some.injEq, Prod.mk.injEq] at hstep
      obtain ⟨h1, h2, rfl⟩ := hstep
      by_cases hw : o.content.isSome = true ∧ o.locked = true ∧ pr = false
      · obtain ⟨hc, hl, rfl⟩ := hw
        obtain ⟨c, hc⟩ := Option.isSome_iff_exists.1 hc
        have e : fin st (unlockObj true true false st i o) = (st, .exc .runtimeError) := by
          unfold unlockObj
          simp only [if_true, hc, hl]
          rfl
        rw [e] at h1 h2
        subst h1 h2
        refine bad h (fun a hs => hs) (fun a hs => ?_) fun _ hn => hn
        have hv := value_isSome h ho
        have hob := sim_obj hs ho
        have hab : (absObj st.heap o).locked = true := hl
        unfold Spec.step
        simp only [Key.Spec.step, hob, Option.map_some, Spec.allocates, Spec.protects, hv, hc, hab]
        rfl
      · have e : unlockObj true true pr st i o = Key.unlockObj true st i o := by
          unfold unlockObj Key.unlockObj
          simp only [if_true]
          cases hc : o.content with
          | none => rfl
          | some c =>
            simp only
            cases hl : o.locked with
            | false => rfl
            | true =>
              cases pr with
              | true => rfl
              | false => exact absurd ⟨by rw [hc]; rfl, hl, rfl⟩ hw
        rw [e] at h1 h2
        subst h1 h2
        refine good h hpre (op := .unlock i) (by simp only [Key.step, ho, Option.map_some]) rfl (fun a hs => ?_) rfl rfl fun _ => trivial
        have hab : (absObj st.heap o).locked = o.locked := rfl
        simp only [Spec.protects, sim_obj hs ho, value_isSome h ho, hab]
        cases hc : o.content.isSome <;> cases hl : o.locked <;> cases pr <;> first | rfl | exact absurd ⟨hc, hl, rfl⟩ hw
  | readUnlock i =>
    simp only [step] at hstep
    cases ho : st.obj i with
    | none => rw [ho] at hstep; cases hstep
    | some o =>
      rw [ho] at hstep
      simp only [Option.map_some, plain, Option.some.injEq, Prod.mk.injEq] at hstep
      obtain ⟨h1, h2, rfl⟩ := hstep
      by_cases hw : o.content.isSome = true ∧ o.locked = true ∧ pr = false
      · obtain ⟨hc, hl, rfl⟩ := hw
        obtain ⟨c, hc⟩ := Option.isSome_iff_exists.1 hc
        have e : unlockObj true true false st i o = .exc .runtimeError := by
          unfold unlockObj
          simp only [if_true, hc, hl]
          rfl
        simp only [hc, e, fin] at h1 h2
        subst h1 h2
        refine bad h (fun a hs => hs) (fun a hs => ?_) fun _ hn => hn
        have hv := value_isSome h ho
        have hob := sim_obj hs ho
        have hab : (absObj st.heap o).locked = true := hl
        unfold Spec.step
        simp only [Key.Spec.step, hob, Option.map_some, Spec.allocates, Spec.protects, hv, hc, hab]
        rfl
      · have e : unlockObj true true pr st i o = Key.unlockObj true st i o := by
          unfold unlockObj Key.unlockObj
          simp only [if_true]
          cases hc : o.content with
          | none => rfl
          | some c =>
            simp only
            cases hl : o.locked with
            | false => rfl
            | true =>
              cases pr with
              | true => rfl
              | false => exact absurd ⟨by rw [hc]; rfl, hl, rfl⟩ hw
        rw [e] at h1 h2
        subst h1 h2
        refine good h hpre (op := .readUnlock i) (by simp only [Key.step, ho, Option.map_some]; rfl) rfl (fun a hs => ?_) rfl rfl fun _ => trivial
        have hab : (absObj st.heap o).locked = o.locked := rfl
        simp only [Spec.protects, sim_obj hs ho, value_isSome h ho, hab]
        cases hc : o.content.isSome <;> cases hl : o.locked <;> cases pr <;> first | rfl | exact absurd ⟨hc, hl, rfl⟩ hw
  | _ =>
    simp only [step] at hstep
    rename_i x
    rw [Option.map_eq_some_iff] at hstep
    obtain ⟨⟨s1, r1⟩, h1, h2⟩ := hstep
    simp only [plain, Prod.mk.injEq] at h2
    obtain ⟨rfl, rfl, rfl⟩ := h2
    exact good h hpre h1 rfl (fun a hs => rfl) rfl rfl fun _ => trivial

/-! ## A system that cannot protect pages -/

/-- A buffer when nothing is ever protected. -/
def bare (cell : Cell) : Cell := if cell.frees = 0 then { cell with prot := .rw } else cell

/-- The state when nothing is ever protected. -/
def blur (st : St) : St := { st with heap := st.heap.map bare }

theorem obj_blur (st : St) (i : Nat) : (blur st).obj i = st.obj i := rfl

theorem setObj_blur (st : St) (i : Nat) (o : Option Obj) : (blur st).setObj i o = blur (st.setObj i o) := rfl

theorem pushObj_blur (st : St) (o : Obj) : (blur st).pushObj o = blur (st.pushObj o) := rfl

theorem alloc_blur (st : St) (d : Bytes) (p : Prot) : (blur st).alloc d .rw = blur (st.alloc d p) := by
  unfold St.alloc blur
  simp [bare]

theorem length_blur (st : St) : (blur st).heap.length = st.heap.length := by simp [blur]

/-- The same outcome, and the state blurred. -/
def blurRes : Res St → Res St
  | .ok s => .ok (blur s)
  | .exc e => .exc e
  | .ub => .ub

theorem free_blur (st : St) (c : Nat) : (blur st).free c = blurRes (st.free c) := by
  unfold St.free
  simp only [blur, List.getElem?_map]
  cases h : st.heap[c]? with
  | none => rfl
  | some cell =>
    simp only [Option.map_some]
    by_cases hf : cell.frees = 0
    · have : (bare cell).frees = 0 := by unfold bare; rw [if_pos hf]; exact hf
      have hd : (bare cell).data = cell.data := by unfold bare; rw [if_pos hf]
      rw [if_pos this, if_pos hf, hd]
      simp only [blurRes, blur, Res.ok.injEq, St.mk.injEq, and_true, List.map_set]
      rfl
    · have : (bare cell) = cell := by unfold bare; rw [if_neg hf]
      rw [this, if_neg hf, if_neg hf]
      rfl

theorem deref_blur {st : St} {c : Nat} {d : Bytes} (h : st.deref (some c) = .ok d) : (blur st).deref (some c) = .ok d := by
  unfold St.deref at h ⊢
  simp only [blur, List.getElem?_map] at h ⊢
  cases hc : st.heap[c]? with
  | none => rw [hc] at h; cases h
  | some cell =>
    rw [hc] at h
    simp only at h
    split at h
    · rename_i hp
      simp only [Option.map_some]
      have hb : bare cell = { cell with prot := .rw } := by unfold bare; rw [if_pos hp.1]
      rw [hb, if_pos ⟨hp.1, by simp⟩]
      exact h
    · cases h

theorem protect_blur (st : St) {c : Nat} {p : Prot} {s : St} (h : st.protect c p = .ok s) : blur s = blur st := by
  unfold St.protect at h
  cases hc : st.heap[c]? with
  | none => rw [hc] at h; cases h
  | some cell =>
    rw [hc] at h
    simp only at h
    split at h
    · rename_i hf
      injection h with h
      subst h
      unfold blur
      simp only [St.mk.injEq, and_true, List.map_set]
      apply List.ext_getElem?
      intro j
      by_cases hj : c = j
      · subst hj
        have hl := (List.getElem?_eq_some_iff.1 hc).1
        rw [List.getElem?_set_self (by simpa using hl), List.getElem?_map, hc]
        simp [bare, hf]
      · rw [List.getElem?_set_ne hj]
    · cases h

theorem fin_blur (st : St) (r : Res St) : fin (blur st) (blurRes r) = (blur (fin st r).1, (fin st r).2) := by
  cases r <;> rfl

theorem ctor_blur (ok : Bool) (st : St) (d : Bytes) : ctor true false ok (blur st) d = (blur (ctor true true true st d).1, (ctor true true true st d).2) := by
  rw [ctor_good]
  unfold ctor protect
  simp only [if_true, Bool.false_eq_true, if_false, length_blur, alloc_blur st d .noaccess, pushObj_blur]

theorem lockObj_blur {st : St} (h : Inv true st) (ok : Bool) {i : Nat} {o : Obj} (ho : st.obj i = some o) :
    lockObj true false ok (blur st) i o = blurRes (lockObj true true true st i o) := by
  unfold lockObj
  simp only [if_true]
  cases hc : o.content with
  | none => rfl
  | some c =>
    simp only
    cases hl : o.locked with
    | true => rfl
    | false =>
      simp only [Bool.false_eq_true, if_false]
      obtain ⟨cell, hcell, hf, _⟩ := h.own i o c ho hc
      have hp : st.protect c .noaccess = .ok { st with heap := st.heap.set c { cell with prot := .noaccess } } := by
        unfold St.protect
        rw [hcell]
        simp only [hf, if_true]
      simp only [protect, if_true, Bool.false_eq_true, if_false, hp, Res.map_ok, blurRes, setObj_blur, ← protect_blur st hp]

theorem unlockObj_blur {st : St} (h : Inv true st) (ok : Bool) {i : Nat} {o : Obj} (ho : st.obj i = some o) :
    unlockObj true false ok (blur st) i o = blurRes (unlockObj true true true st i o) := by
  unfold unlockObj
  simp only [if_true]
  cases hc : o.content with
  | none => rfl
  | some c =>
    simp only
    cases hl : o.locked with
    | false => rfl
    | true =>
      simp only [if_true]
      obtain ⟨cell, hcell, hf, _⟩ := h.own i o c ho hc
      have hp : st.protect c .ro = .ok { st with heap := st.heap.set c { cell with prot := .ro } } := by
        unfold St.protect
        rw [hcell]
        simp only [hf, if_true]
      simp only [protect, if_true, Bool.false_eq_true, if_false, hp, Res.map_ok, blurRes, setObj_blur, ← protect_blur st hp]

/-- The same outcome in the blurred state. -/
def blurOut (x : Out) : Out := (blur x.1, x.2)

/-- On a system that cannot protect pages, operations do the same as on one that never refuses to. -/
theorem step_blur {N : Nat} (al pr : Bool) {st : St} (h : Inv true st) (op : Op) :
    step N true false ⟨al, pr⟩ (blur st) op = (step N true true ⟨al, true⟩ st op).map blurOut := by
  cases op with
  | newRandom r junk =>
    cases al with
    | false => rfl
    | true => simp only [step, if_true, ctor_blur]; rfl
  | newFrom b =>
    cases b with
    | none => rfl
    | some b =>
      cases al with
      | false => rfl
      | true =>
        simp only [step, if_true, ctor_blur]
        split <;> rfl
  | newCallback fill junk =>
    cases al with
    | false => rfl
    | true =>
      cases fill with
      | none =>
        simp only [step, if_true, alloc_blur st junk .rw]
        rfl
      | some d => simp only [step, if_true, ctor_blur]; rfl
  | lock i =>
    simp only [step, obj_blur]
    cases ho : st.obj i with
    | none => rfl
    | some o =>
      simp only [Option.map_some, lockObj_blur h pr ho, fin_blur]
      rfl
  | unlock i =>
    simp only [step, obj_blur]
    cases ho : st.obj i with
    | none => rfl
    | some o =>
      simp only [Option.map_some, unlockObj_blur h pr ho, fin_blur]
      rfl
  | readUnlock i =>
    simp only [step, obj_blur]
    cases ho : st.obj i with
    | none => rfl
    | some o =>
      simp only [Option.map_some]
      cases hc : o.content with
      | none => rfl
      | some c =>
        simp only [unlockObj_blur h pr ho]
        obtain ⟨s', h1, _, _, _, _, cell, _, hd⟩ := unlockObj_ok h ho hc
        have e : unlockObj true true true st i o = .ok s' := h1
        simp only [e, blurRes, plain, blurOut, hd, deref_blur hd]
  | moveCtor s =>
    simp only [step, Key.step, obj_blur]
    cases ho : st.obj s <;> rfl
  | moveAssign d s =>
    simp only [step, Key.step, obj_blur]
    cases hd : st.obj d with
    | none => rfl
    | some od =>
      cases hs : st.obj s with
      | none => rfl
      | some os =>
        simp only
        split
        · rfl
        · cases hc : od.content with
          | none => rfl
          | some c =>
            simp only [free_blur]
            cases st.free c <;> rfl
  | erase i =>
    simp only [step, Key.step, obj_blur]
    cases ho : st.obj i with
    | none => rfl
    | some o =>
      obtain ⟨content, lk⟩ := o
      cases content with
      | none => rfl
      | some c =>
        simp only [free_blur]
        cases st.free c <;> rfl
  | destroy i =>
    simp only [step, Key.step, obj_blur]
    cases ho : st.obj i with
    | none => rfl
    | some o =>
      obtain ⟨content, lk⟩ := o
      cases content with
      | none => rfl
      | some c =>
        simp only [free_blur]
        cases st.free c <;> rfl
  | readData i =>
    simp only [step, Key.step, obj_blur]
    cases ho : st.obj i with
    | none => rfl
    | some o =>
      simp only [Option.map_some, isLocked, if_true]
      cases hl : o.locked with
      | true => rfl
      | false =>
        cases hc : o.content with
        | none => exact absurd (h.emp i o ho hc) (by rw [hl]; decide)
        | some c =>
          obtain ⟨cell, _, hd⟩ := deref_ok h ho hc hl
          simp only [Bool.false_eq_true, if_false, plain, blurOut, hd, deref_blur hd]
  | serialize i =>
    simp only [step, Key.step, obj_blur]
    cases ho : st.obj i with
    | none => rfl
    | some o =>
      simp only [Option.map_some, isLocked, if_true]
      cases hc : o.content with
      | none => rfl
      | some c =>
        cases hl : o.locked with
        | true => rfl
        | false =>
          obtain ⟨cell, _, hd⟩ := deref_ok h ho hc hl
          simp only [Bool.false_eq_true, if_false, plain, blurOut, hd, deref_blur hd]

/-! ## Memory that nobody owns -/

/-- A buffer that holds `d`, is readable and writable, and belongs to no object. -/
def Stray (st : St) (c : Nat) (d : Bytes) : Prop :=
  st.heap[c]? = some ⟨d, .rw, 0⟩ ∧ ∀ i o, st.obj i = some o → o.content ≠ some c

theorem stray_alloc {st : St} (d : Bytes) (h : Inv true st) : Stray (st.alloc d .rw) st.heap.length d := by
  refine ⟨by simp [St.alloc], ?_⟩
  intro i o ho hc
  obtain ⟨cell, hcell, _⟩ := h.own i o _ ho hc
  have := (List.getElem?_eq_some_iff.1 hcell).1
  omega

theorem stray_of {st st' : St} {c : Nat} {d : Bytes} (h : Stray st c d) (hh : st'.heap[c]? = st.heap[c]?)
    (ho : ∀ i o, st'.obj i = some o → o.content = some c → ∃ j o', st.obj j = some o' ∧ o'.content = some c) : Stray st' c d := by
  refine ⟨hh.trans h.1, fun i o h1 h2 => ?_⟩
  obtain ⟨j, o', h3, h4⟩ := ho i o h1 h2
  exact h.2 j o' h3 h4

theorem stray_set {st : St} {c c2 : Nat} {d : Bytes} (h : Stray st c d) {i : Nat} {o : Obj} (ho : st.obj i = some o) (hc : o.content = some c2) (x : Cell) :
    (st.heap.set c2 x)[c]? = st.heap[c]? := by
  rw [List.getElem?_set_ne]
  rintro rfl
  exact h.2 i o ho hc

theorem stray_setObj {st : St} {c : Nat} {d : Bytes} (h : Stray st c d) {i : Nat} (hi : i < st.objs.length) {x : Option Obj}
    (hx : ∀ o, x = some o → o.content ≠ some c) : Stray (st.setObj i x) c d := by
  refine stray_of h rfl fun j o h1 h2 => ?_
  rw [obj_setObj _ _ _ _ hi] at h1
  split at h1
  · exact absurd h2 (hx o h1)
  · exact ⟨j, o, h1, h2⟩

theorem stray_free {st : St} {c c2 : Nat} {d : Bytes} (h : Stray st c d) {i : Nat} {o : Obj} (ho : st.obj i = some o) (hc : o.content = some c2) {s : St}
    (hf : st.free c2 = .ok s) : Stray s c d := by
  unfold St.free at hf
  split at hf
  · split at hf
    · injection hf with hf
      subst hf
      exact stray_of h (stray_set h ho hc _) fun i o h1 h2 => ⟨i, o, h1, h2⟩
    · cases hf
  · cases hf

theorem objs_free {st : St} {c : Nat} {s : St} (hf : st.free c = .ok s) : s.objs = st.objs := by
  unfold St.free at hf
  split at hf
  · split at hf
    · injection hf with hf
      subst hf
      rfl
    · cases hf
  · cases hf

theorem stray_protect {st : St} {c c2 : Nat} {d : Bytes} (h : Stray st c d) {i : Nat} {o : Obj} (ho : st.obj i = some o) (hc : o.content = some c2) {p : Prot}
    {s : St} (hf : st.protect c2 p = .ok s) : Stray s c d ∧ s.objs = st.objs := by
  unfold St.protect at hf
  split at hf
  · split at hf
    · injection hf with hf
      subst hf
      exact ⟨stray_of h (stray_set h ho hc _) fun i o h1 h2 => ⟨i, o, h1, h2⟩, rfl⟩
    · cases hf
  · cases hf

theorem stray_more {st : St} {c : Nat} {d : Bytes} (h : Stray st c d) (d2 : Bytes) (p : Prot) : Stray (st.alloc d2 p) c d := by
  refine stray_of h ?_ fun i o h1 h2 => ⟨i, o, h1, h2⟩
  unfold St.alloc
  exact List.getElem?_append_left (List.getElem?_eq_some_iff.1 h.1).1

theorem stray_push {st : St} {c : Nat} {d : Bytes} (h : Stray st c d) {o : Obj} (ho : o.content ≠ some c) : Stray (st.pushObj o) c d := by
  refine stray_of h rfl fun i o' h1 h2 => ?_
  rw [obj_pushObj] at h1
  split at h1
  · injection h1 with h1
    subst h1
    exact absurd h2 ho
  · exact ⟨i, o', h1, h2⟩

theorem stray_fresh {st : St} {c : Nat} {d : Bytes} (h : Stray st c d) (d2 : Bytes) (p : Prot) (l : Bool) :
    Stray ((st.alloc d2 p).pushObj ⟨some st.heap.length, l⟩) c d := by
  refine stray_push (stray_more h _ _) ?_
  have := (List.getElem?_eq_some_iff.1 h.1).1
  simp only [ne_eq, Option.some.injEq]
  omega

theorem stray_fin {st : St} {c : Nat} {d : Bytes} (h : Stray st c d) {r : Res St} (hr : ∀ s, r = .ok s → Stray s c d) : Stray (fin st r).1 c d := by
  cases r with
  | ok s => exact hr s rfl
  | exc e => exact h
  | ub => exact h

theorem stray_relock {st : St} {c : Nat} {d : Bytes} (h : Stray st c d) {i : Nat} {o : Obj} (ho : st.obj i = some o) {c2 : Nat} (hc : o.content = some c2)
    (p : Prot) (l pr : Bool) : ∀ s, ((fun s => s.setObj i (some { o with locked := l })) <$> protect true pr st c2 p) = Res.ok s → Stray s c d := by
  intro s hs
  cases pr with
  | false => cases hs
  | true =>
    cases hp : st.protect c2 p with
    | ok s1 =>
      simp only [protect, if_true, hp, Res.map_ok, Res.ok.injEq] at hs
      subst hs
      obtain ⟨h1, h2⟩ := stray_protect h ho hc hp
      refine stray_setObj h1 (by rw [h2]; exact obj_lt ho) ?_
      rintro o' h3
      injection h3 with h3
      subst h3
      exact h.2 i o ho
    | exc e => simp only [protect, if_true, hp] at hs; cases hs
    | ub => simp only [protect, if_true, hp] at hs; cases hs

theorem stray_unlock {st : St} {c : Nat} {d : Bytes} (h : Stray st c d) {i : Nat} {o : Obj} (ho : st.obj i = some o) (pr : Bool) :
    ∀ s, unlockObj true true pr st i o = .ok s → Stray s c d := by
  intro s hs
  unfold unlockObj at hs
  simp only [if_true] at hs
  cases hc : o.content with
  | none =>
    rw [hc] at hs
    injection hs with hs
    subst hs
    exact h
  | some c2 =>
    rw [hc] at hs
    simp only at hs
    split at hs
    · rw [← hc] at hs
      exact stray_relock h ho hc _ _ _ s hs
    · injection hs with hs
      subst hs
      exact h

theorem stray_lock {st : St} {c : Nat} {d : Bytes} (h : Stray st c d) {i : Nat} {o : Obj} (ho : st.obj i = some o) (pr : Bool) :
    ∀ s, lockObj true true pr st i o = .ok s → Stray s c d := by
  intro s hs
  unfold lockObj at hs
  simp only [if_true] at hs
  cases hc : o.content with
  | none =>
    rw [hc] at hs
    injection hs with hs
    subst hs
    exact h
  | some c2 =>
    rw [hc] at hs
    simp only at hs
    split at hs
    · injection hs with hs
      subst hs
      exact h
    · rw [← hc] at hs
      exact stray_relock h ho hc _ _ _ s hs

theorem stray_ctor {st : St} {c : Nat} {d : Bytes} (h : Stray st c d) (pr : Bool) (d2 : Bytes) : Stray (ctor true true pr st d2).1 c d := by
  cases pr with
  | true => rw [ctor_good]; exact stray_fresh h _ _ _
  | false => exact stray_more h _ _

/-- Nothing touches it any more. -/
theorem stray_step {N : Nat} {l : Luck} {st : St} {c : Nat} {d : Bytes} (h : Stray st c d) {op : Op} {x : Out} (hs : step N true true l st op = some x) :
    Stray x.1 c d := by
  obtain ⟨al, pr⟩ := l
  cases op with
  | newRandom r junk =>
    simp only [step] at hs
    cases al with
    | true => injection hs with hs; subst hs; exact stray_ctor h _ _
    | false => injection hs with hs; subst hs; exact h
  | newFrom b =>
    cases b with
    | none => injection hs with hs; subst hs; exact h
    | some b =>
      simp only [step] at hs
      cases al with
      | true =>
        simp only [if_true] at hs
        split at hs
        · injection hs with hs; subst hs; exact h
        · injection hs with hs; subst hs; exact stray_ctor h _ _
      | false => injection hs with hs; subst hs; exact h
  | newCallback fill junk =>
    simp only [step] at hs
    cases al with
    | true =>
      cases fill with
      | none => injection hs with hs; subst hs; exact stray_more h _ _
      | some d2 => injection hs with hs; subst hs; exact stray_ctor h _ _
    | false => injection hs with hs; subst hs; exact h
  | lock i =>
    simp only [step] at hs
    cases ho : st.obj i with
    | none => rw [ho] at hs; cases hs
    | some o =>
      rw [ho] at hs
      injection hs with hs
      subst hs
      exact stray_fin h (stray_lock h ho pr)
  | unlock i =>
    simp only [step] at hs
    cases ho : st.obj i with
    | none => rw [ho] at hs; cases hs
    | some o =>
      rw [ho] at hs
      injection hs with hs
      subst hs
      exact stray_fin h (stray_unlock h ho pr)
  | readUnlock i =>
    simp only [step] at hs
    cases ho : st.obj i with
    | none => rw [ho] at hs; cases hs
    | some o =>
      rw [ho] at hs
      simp only [Option.map_some, Option.some.injEq] at hs
      subst hs
      simp only [plain]
      cases hc : o.content with
      | none => exact h
      | some c2 =>
        simp only
        cases hu : unlockObj true true pr st i o with
        | ok s => exact stray_unlock h ho pr s hu
        | exc e => exact h
        | ub => exact h
  | moveCtor s =>
    simp only [step, Key.step] at hs
    cases ho : st.obj s with
    | none => rw [ho] at hs; cases hs
    | some o =>
      rw [ho] at hs
      injection hs with hs
      subst hs
      exact stray_push (stray_setObj h (obj_lt ho) fun o' h' => by injection h' with h'; subst h'; simp) (h.2 s o ho)
  | moveAssign d2 s =>
    simp only [step, Key.step] at hs
    cases hod : st.obj d2 with
    | none => rw [hod] at hs; cases hs
    | some od =>
      cases hos : st.obj s with
      | none => rw [hod, hos] at hs; cases hs
      | some os =>
        rw [hod, hos] at hs
        simp only at hs
        split at hs
        · injection hs with hs; subst hs; exact h
        · simp only [Option.map_some, Option.some.injEq] at hs
          subst hs
          simp only [plain]
          have fin' : ∀ s1 : St, Stray s1 c d → s1.objs = st.objs → Stray ((s1.setObj d2 (some os)).setObj s (some ⟨none, true⟩)) c d := by
            intro s1 h1 h2
            refine stray_setObj (stray_setObj h1 (by rw [h2]; exact obj_lt hod) ?_) ?_ ?_
            · intro o' h'; injection h' with h'; subst h'; exact h.2 s _ hos
            · simp only [St.setObj, List.length_set, h2]; exact obj_lt hos
            · intro o' h'; injection h' with h'; subst h'; simp
          refine stray_fin h fun s' hs' => ?_
          cases hc : od.content with
          | none =>
            rw [hc] at hs'
            simp only [Res.bind_ok, Res.ok.injEq] at hs'
            subst hs'
            exact fin' st h rfl
          | some c2 =>
            rw [hc] at hs'
            simp only at hs'
            cases hf : st.free c2 with
            | ok s1 =>
              simp only [hf, Res.bind_ok, Res.ok.injEq] at hs'
              subst hs'
              exact fin' s1 (stray_free h hod hc hf) (objs_free hf)
            | exc e => rw [hf] at hs'; cases hs'
            | ub => rw [hf] at hs'; cases hs'
  | erase i =>
    simp only [step, Key.step] at hs
    cases ho : st.obj i with
    | none => rw [ho] at hs; cases hs
    | some o =>
      rw [ho] at hs
      simp only at hs
      cases hc : o.content with
      | none => rw [hc] at hs; injection hs with hs; subst hs; exact h
      | some c2 =>
        rw [hc] at hs
        simp only [Option.map_some, Option.some.injEq] at hs
        subst hs
        refine stray_fin h fun s' hs' => ?_
        cases hf : st.free c2 with
        | ok s1 =>
          simp only [hf, Res.map_ok, Res.ok.injEq] at hs'
          subst hs'
          exact stray_setObj (stray_free h ho hc hf) (by rw [objs_free hf]; exact obj_lt ho) fun o' h' => by injection h' with h'; subst h'; simp
        | exc e => rw [hf] at hs'; cases hs'
        | ub => rw [hf] at hs'; cases hs'
  | destroy i =>
    simp only [step, Key.step] at hs
    cases ho : st.obj i with
    | none => rw [ho] at hs; cases hs
    | some o =>
      rw [ho] at hs
      simp only at hs
      cases hc : o.content with
      | none =>
        rw [hc] at hs
        injection hs with hs
        subst hs
        exact stray_setObj h (obj_lt ho) fun o' h' => by cases h'
      | some c2 =>
        rw [hc] at hs
        simp only [Option.map_some, Option.some.injEq] at hs
        subst hs
        refine stray_fin h fun s' hs' => ?_
        cases hf : st.free c2 with
        | ok s1 =>
          simp only [hf, Res.map_ok, Res.ok.injEq] at hs'
          subst hs'
          exact stray_setObj (stray_free h ho hc hf) (by rw [objs_free hf]; exact obj_lt ho) fun o' h' => by cases h'
        | exc e => rw [hf] at hs'; cases hs'
        | ub => rw [hf] at hs'; cases hs'
  | readData i =>
    simp only [step, Key.step] at hs
    cases ho : st.obj i with
    | none => rw [ho] at hs; cases hs
    | some o => rw [ho] at hs; injection hs with hs; subst hs; exact h
  | serialize i =>
    simp only [step, Key.step] at hs
    cases ho : st.obj i with
    | none => rw [ho] at hs; cases hs
    | some o => rw [ho] at hs; injection hs with hs; subst hs; exact h

end Verif.Key.Fail
