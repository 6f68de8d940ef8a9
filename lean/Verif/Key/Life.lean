import Verif.Key.ModelLife
import Verif.Key.AtRest

/-! Programs over key objects on the value semantics of `Verif/Key/Spec.lean`. -/

namespace Verif.Key.Life

open Verif

/-- The operation loses a buffer: a callback throws in `Key(callback)`. -/
def lost : Op → Nat
  | .newCallback none _ => 1
  | _ => 0

/-- A program on values: the objects afterwards, the outcome, and the number of lost buffers. -/
def P.runS {α : Type} : P α → Spec.St → Spec.St × Res α × Nat
  | .ret r, a => (a, r, 0)
  | .empty i k, a =>
    match Spec.obj a i with
    | some o => (k o.value.isNone).runS a
    | none => (a, .ub, 0)
  | .op N o k, a =>
    match Spec.step N a o with
    | some (a', r) => ((k a.length r).runS a').map id (·.map id (· + lost o))
    | none => (a, .ub, 0)

/-- The obligations of callers of `Key(uint8_t*)` are met. -/
def P.Pre {α : Type} : P α → Prop
  | .ret _ => True
  | .empty _ k => ∀ b, (k b).Pre
  | .op N o k => o.pre N ∧ ∀ n r, (k n r).Pre

theorem pre_then {α β : Type} {p : P α} {f : Res α → P β} (hp : p.Pre) (hf : ∀ r, (f r).Pre) : (p.thenRes f).Pre := by
  induction p with
  | ret r => exact hf r
  | empty i k ih => exact fun b => ih b (hp b)
  | op N o k ih => exact ⟨hp.1, fun n r => ih n r (hp.2 n r)⟩

theorem step_none {N : Nat} {st : St} {a : Spec.St} (hs : Sim st a) {o : Op} (hpre : o.pre N) : step N true st o = none → Spec.step N a o = none := by
  have h := hs.objs
  cases o with
  | newRandom r j => intro hn; simp [step] at hn
  | newFrom b =>
    cases b with
    | none => intro hn; simp [step] at hn
    | some b => intro hn; simp only [step] at hn; split at hn <;> simp at hn
  | newCallback f j => cases f <;> intro hn <;> simp [step] at hn
  | moveCtor s => intro hn; cases ho : st.obj s <;> simp_all [step, Spec.step]
  | moveAssign d s =>
    intro hn
    cases hd : st.obj d with
    | none => simp [Spec.step, h, hd]
    | some od =>
      cases ho : st.obj s with
      | none => simp [Spec.step, h, hd, ho]
      | some os => simp only [step, hd, ho] at hn; split at hn <;> simp at hn
  | erase i =>
    intro hn
    cases ho : st.obj i with
    | none => simp [Spec.step, h, ho]
    | some o => simp only [step, ho] at hn; split at hn <;> simp at hn
  | destroy i =>
    intro hn
    cases ho : st.obj i with
    | none => simp [Spec.step, h, ho]
    | some o => simp only [step, ho] at hn; split at hn <;> simp at hn
  | lock i => intro hn; cases ho : st.obj i <;> simp_all [step, Spec.step]
  | unlock i => intro hn; cases ho : st.obj i <;> simp_all [step, Spec.step]
  | readData i => intro hn; cases ho : st.obj i <;> simp_all [step, Spec.step]
  | readUnlock i => intro hn; cases ho : st.obj i <;> simp_all [step, Spec.step]
  | serialize i => intro hn; cases ho : st.obj i <;> simp_all [step, Spec.step]

theorem noThrow_of_lost {o : Op} (h : lost o = 0) : o.noThrow := by
  cases o with
  | newCallback f j => cases f with
    | none => simp [lost] at h
    | some d => exact trivial
  | _ => exact trivial

/-- Programs do on the heap what they do on values. -/
theorem run_refines {α : Type} (p : P α) : ∀ {st : St} {a : Spec.St}, p.Pre → Inv true st → Sim st a →
    (p.run true st).2 = (p.runS a).2.1 ∧ Sim (p.run true st).1 (p.runS a).1 ∧ Inv true (p.run true st).1 ∧
      (NoLeak st → (p.runS a).2.2 = 0 → NoLeak (p.run true st).1) := by
  induction p with
  | ret r => intro st a _ hi hs; exact ⟨rfl, hs, hi, fun h _ => h⟩
  | empty i k ih =>
    intro st a hp hi hs
    have ho := hs.objs i
    cases h : st.obj i with
    | none =>
      rw [h] at ho
      simp only [Option.map_none] at ho
      simp only [P.run, P.runS, h, ho]
      exact ⟨trivial, hs, hi, fun h _ => h⟩
    | some o =>
      rw [h] at ho
      simp only [Option.map_some] at ho
      simp only [P.run, P.runS, h, ho]
      have : (absObj st.heap o).value.isNone = o.content.isNone := by
        cases hc : o.content with
        | none => simp [absObj, hc]
        | some c =>
          obtain ⟨cell, hcell, -⟩ := hi.own i o c h hc
          simp [absObj, hc, hcell]
      rw [this]
      exact ih _ (hp _) hi hs
  | op N o k ih =>
    intro st a hp hi hs
    cases h : step N true st o with
    | none =>
      have h' := step_none hs hp.1 h
      simp only [P.run, P.runS, h, h']
      exact ⟨trivial, hs, hi, fun h _ => h⟩
    | some x =>
      obtain ⟨st1, r⟩ := x
      have hok := step_ok hi hp.1 h
      obtain ⟨a1, ha1, hs1⟩ := hok.sim rfl a hs
      simp only [P.run, P.runS, h, ha1, Prod.map]
      rw [hs.len]
      obtain ⟨h1, h2, h3, h4⟩ := ih st.objs.length r (hp.2 _ _) hok.inv hs1
      exact ⟨h1, h2, h3, fun hl h0 => h4 (hok.noLeak (noThrow_of_lost (Nat.eq_zero_of_add_eq_zero_left h0)) hl) (Nat.eq_zero_of_add_eq_zero_right h0)⟩

/-! ## Composition on values -/

theorem seq {α β : Type} {p : P α} {f : Res α → P β} {r : Res α} (hr : r ≠ .ub) : ∀ {a a1 : Spec.St} {n : Nat} {z : Spec.St × Res β × Nat},
    p.runS a = (a1, r, n) → (f r).runS a1 = z → (p.thenRes f).runS a = (z.1, z.2.1, n + z.2.2) := by
  induction p with
  | ret r' =>
    intro a a1 n z h1 h2
    simp only [P.runS, Prod.mk.injEq] at h1
    obtain ⟨rfl, rfl, rfl⟩ := h1
    simp only [P.thenRes, h2, Nat.zero_add]
  | empty i k ih =>
    intro a a1 n z h1 h2
    simp only [P.runS] at h1
    simp only [P.thenRes, P.runS]
    cases h : Spec.obj a i with
    | none =>
      rw [h] at h1
      simp only [Prod.mk.injEq] at h1
      exact absurd h1.2.1.symm hr
    | some o =>
      rw [h] at h1
      exact ih _ h1 h2
  | op N o k ih =>
    intro a a1 n z h1 h2
    simp only [P.runS] at h1
    simp only [P.thenRes, P.runS]
    cases h : Spec.step N a o with
    | none =>
      rw [h] at h1
      simp only [Prod.mk.injEq] at h1
      exact absurd h1.2.1.symm hr
    | some x =>
      rw [h] at h1
      simp only at h1 ⊢
      cases h3 : (k a.length x.2).runS x.1 with
      | mk b y =>
        rw [h3] at h1
        simp only [Prod.map, id, Prod.mk.injEq] at h1
        obtain ⟨rfl, h4, rfl⟩ := h1
        rw [ih _ _ (a1 := b) (n := y.2) (z := z) (by rw [h3, ← h4]) h2]
        simp only [Prod.map, id, Nat.add_right_comm]

/-- Sequence without exception and without loss. -/
theorem bind_ok {α β : Type} {p : P α} {f : α → P β} {x : α} {a a1 : Spec.St} {z : Spec.St × Res β × Nat} (h1 : p.runS a = (a1, .ok x, 0))
    (h2 : (f x).runS a1 = z) : (p >>= f).runS a = z := by
  have := seq (f := onOk f) (r := .ok x) (by simp) h1 h2
  simp only [Nat.zero_add, Nat.add_zero] at this
  exact this

theorem bind_exc {α β : Type} {p : P α} {f : α → P β} {e : Exc} {a a1 : Spec.St} {n : Nat} (h1 : p.runS a = (a1, .exc e, n)) :
    (p >>= f).runS a = (a1, .exc e, n) := by
  have := seq (f := onOk f) (r := .exc e) (by simp) h1 (z := (a1, .exc e, 0)) rfl
  simp only [Nat.zero_add, Nat.add_zero] at this
  exact this

/-! ## Places in a list of objects -/

theorem obj_old {a : Spec.St} {t : Spec.St} {i : Nat} (h : i < a.length) : Spec.obj (a ++ t) i = Spec.obj a i := by
  unfold Spec.obj
  rw [List.getElem?_append_left h]

theorem obj_new (a t : Spec.St) (c : Nat) : Spec.obj (a ++ t) (a.length + c) = Spec.obj t c := by
  unfold Spec.obj
  rw [List.getElem?_append_right (by omega), Nat.add_sub_cancel_left]

theorem set_old {a t : Spec.St} {i : Nat} (h : i < a.length) (x : Option Spec.Obj) : (a ++ t).set i x = a.set i x ++ t := List.set_append_left _ _ h

theorem set_new (a t : Spec.St) (c : Nat) (x : Option Spec.Obj) : (a ++ t).set (a.length + c) x = a ++ t.set c x := by
  rw [List.set_append_right _ _ (by omega), Nat.add_sub_cancel_left]

theorem obj_set {a : Spec.St} {i : Nat} {o : Spec.Obj} (h : i < a.length) : Spec.obj (a.set i (some o)) i = some o := by
  rw [sobj_set _ _ _ _ h, if_pos rfl]

/-! ## The operations on values -/

variable {a : Spec.St} {i : Nat} {v : Bytes} {l : Bool} {o : Spec.Obj}

theorem mk_move (N : Nat) (h : Spec.obj a i = some o) : (mk N (.moveCtor i)).runS a = (a.set i (some .empty) ++ [some o], .ok a.length, 0) := by
  simp [mk, P.runS, Spec.step, h, onOk, lost]

theorem mk_from (N : Nat) (b : Bytes) : (mk N (.newFrom (some b))).runS a = (a ++ [some ⟨some (b.take N), true⟩], .ok a.length, 0) := by
  simp [mk, P.runS, Spec.step, onOk, lost]

theorem mk_random (N : Nat) (r junk : Bytes) : (mk N (.newRandom r junk)).runS a = (a ++ [some ⟨some r, true⟩], .ok a.length, 0) := by
  simp [mk, P.runS, Spec.step, onOk, lost]

theorem mk_filled (N : Nat) (d junk : Bytes) : (mk N (.newCallback (some d) junk)).runS a = (a ++ [some ⟨some d, true⟩], .ok a.length, 0) := by
  simp [mk, P.runS, Spec.step, onOk, lost]

theorem act_destroy (N : Nat) (h : Spec.obj a i = some o) : (act N (.destroy i)).runS a = (a.set i none, .ok [], 0) := by
  simp [act, P.runS, Spec.step, h, lost]

theorem act_unlock (N : Nat) (h : Spec.obj a i = some ⟨some v, l⟩) : (act N (.unlock i)).runS a = (a.set i (some ⟨some v, false⟩), .ok [], 0) := by
  simp [act, P.runS, Spec.step, h, lost]

theorem act_lock (N : Nat) (h : Spec.obj a i = some ⟨some v, l⟩) : (act N (.lock i)).runS a = (a.set i (some ⟨some v, true⟩), .ok [], 0) := by
  simp [act, P.runS, Spec.step, h, lost]

theorem act_readData (N : Nat) (h : Spec.obj a i = some ⟨some v, false⟩) : (act N (.readData i)).runS a = (a, .ok v, 0) := by
  simp [act, P.runS, Spec.step, h, lost, Spec.read]

theorem act_readUnlock (N : Nat) (h : Spec.obj a i = some ⟨some v, l⟩) :
    (act N (.readUnlock i)).runS a = (a.set i (some ⟨some v, false⟩), .ok v, 0) := by
  simp [act, P.runS, Spec.step, h, lost, Spec.read]

theorem act_readUnlock_empty (N : Nat) (h : Spec.obj a i = some ⟨none, l⟩) : (act N (.readUnlock i)).runS a = (a, .exc .runtimeError, 0) := by
  simp [act, P.runS, Spec.step, h, lost, Spec.read]

theorem act_erase (N : Nat) (h : Spec.obj a i = some ⟨some v, l⟩) : (act N (.erase i)).runS a = (a.set i (some .empty), .ok [], 0) := by
  simp [act, P.runS, Spec.step, h, lost]

theorem act_assign (N : Nat) {d s : Nat} {od os : Spec.Obj} (hd : Spec.obj a d = some od) (hs : Spec.obj a s = some os) (hne : d ≠ s) :
    (act N (.moveAssign d s)).runS a = ((a.set d (some os)).set s (some .empty), .ok [], 0) := by
  simp [act, P.runS, Spec.step, hd, hs, hne, lost]

theorem leave_runS {α : Type} {r : Res α} (hr : r ≠ .ub) (h : Spec.obj a i = some o) : (leave i r).runS a = (a.set i none, r, 0) := by
  have h1 : ((act 0 (.destroy i)).thenRes (after r)).runS a = (a.set i none, r, 0) := by
    have := seq (f := after r) (r := .ok []) (by simp) (act_destroy 0 h) (z := (a.set i none, r, 0)) rfl
    simp only [Nat.add_zero] at this
    exact this
  cases r with
  | ok x => exact h1
  | exc e => exact h1
  | ub => exact absurd rfl hr

theorem within_runS {α : Type} {new : P Nat} {body : Nat → P α} {a1 a2 : Spec.St} {j n : Nat} {r : Res α} (h1 : new.runS a = (a1, .ok j, 0))
    (h2 : (body j).runS a1 = (a2, r, n)) (hr : r ≠ .ub) (h3 : Spec.obj a2 j = some o) : (within new body).runS a = (a2.set j none, r, n) := by
  refine bind_ok h1 ?_
  have := seq (f := leave j) hr h2 (leave_runS hr h3)
  simp only [Nat.zero_add, Nat.add_zero] at this
  exact this

theorem within_exc {α : Type} {new : P Nat} {body : Nat → P α} {a1 : Spec.St} {n : Nat} {e : Exc} (h1 : new.runS a = (a1, .exc e, n)) :
    (within new body).runS a = (a1, .exc e, n) := bind_exc h1

theorem newFilled_runS {N : Nat} {junk d : Bytes} {cb : P Bytes} {a1 : Spec.St} (h : cb.runS a = (a1, .ok d, 0)) :
    (newFilled N junk cb).runS a = (a1 ++ [some ⟨some d, true⟩], .ok a1.length, 0) := by
  have := seq (f := filled N junk) (r := .ok d) (by simp) h (mk_filled N d junk)
  simp only [Nat.zero_add, Nat.add_zero] at this
  exact this

theorem newFilled_exc {N : Nat} {junk : Bytes} {cb : P Bytes} {a1 : Spec.St} {e : Exc} {n : Nat} (h : cb.runS a = (a1, .exc e, n)) :
    (newFilled N junk cb).runS a = (a1, .exc e, n + 1) := by
  have := seq (f := filled N junk) (r := .exc e) (by simp) h (z := (a1, .exc e, 1)) rfl
  simp only [Nat.zero_add, Nat.add_zero] at this
  exact this

theorem derive_runS (g : Bytes → Bytes) (h : Spec.obj a i = some ⟨some v, true⟩) : (derive g i).runS a = (a, .ok (g v), 0) := by
  have hi := sobj_lt h
  refine bind_ok (act_readUnlock 32 h) ?_
  refine bind_ok (act_lock 32 (obj_set hi)) ?_
  rw [List.set_set, set_same h]
  rfl

theorem derive_empty (g : Bytes → Bytes) (h : Spec.obj a i = some ⟨none, l⟩) : (derive g i).runS a = (a, .exc .runtimeError, 0) :=
  bind_exc (act_readUnlock_empty 32 h)

theorem hmac_runS (f : Bytes → Bytes) (h : Spec.obj a i = some ⟨some v, l⟩) : (hmac f i).runS a = (a.set i (some ⟨some v, true⟩), .ok (f v), 0) := by
  have hi := sobj_lt h
  refine bind_ok (act_unlock 32 h) ?_
  refine bind_ok (act_readData 32 (obj_set hi)) ?_
  refine bind_ok (act_readData 32 (obj_set hi)) ?_
  refine bind_ok (act_lock 32 (obj_set hi)) ?_
  rw [List.set_set]
  rfl

/-- The place behind `a`. -/
theorem obj_last (a : Spec.St) (t : Spec.St) (x : Spec.Obj) {j : Nat} (h : j = a.length) : Spec.obj (a ++ some x :: t) j = some x := by
  rw [h, show a.length = a.length + 0 from rfl, obj_new]; rfl

theorem set_last (a t : Spec.St) (x y : Option Spec.Obj) {j : Nat} (h : j = a.length) : (a ++ x :: t).set j y = a ++ y :: t := by
  rw [h, show a.length = a.length + 0 from rfl, set_new]; rfl

theorem deriveLocal_runS (outNull : Bool) (g : Bytes → Bytes) {j : Nat} (hj : j = a.length) :
    (deriveLocal outNull g j).runS (a ++ [some ⟨some v, l⟩])
      = (a ++ [some ⟨some v, !outNull⟩], if outNull then .exc .invalidArgument else .ok (g v), 0) := by
  refine bind_ok (act_readUnlock 32 (obj_last _ _ _ hj)) ?_
  rw [set_last _ _ _ _ hj]
  cases outNull with
  | true => rfl
  | false =>
    refine bind_ok (act_lock 32 (obj_last _ _ _ hj)) ?_
    rw [set_last _ _ _ _ hj]; rfl

theorem deriveStatic_runS (outNull : Bool) (g : Bytes → Bytes) (h : Spec.obj a i = some ⟨some v, l⟩) :
    (deriveStatic outNull g i).runS a = (a.set i (some .empty) ++ [none], if outNull then .exc .invalidArgument else .ok (g v), 0) := by
  have hl : a.length = (a.set i (some .empty)).length := by simp
  have h2 : (deriveStatic outNull g i).runS a = (within (mk 32 (.moveCtor i)) (deriveLocal outNull g)).runS a := by
    simp [deriveStatic, P.runS, h]
  have := within_runS (mk_move 32 h) (deriveLocal_runS outNull g hl) (by cases outNull <;> simp) (obj_last _ _ _ hl)
  rw [set_last _ _ _ _ hl] at this
  exact h2.trans this

theorem deriveStatic_empty (outNull : Bool) (g : Bytes → Bytes) (h : Spec.obj a i = some ⟨none, l⟩) :
    (deriveStatic outNull g i).runS a = (a, .exc .invalidArgument, 0) := by
  simp [deriveStatic, P.runS, h, throw]

/-! ## Constructors on values -/

theorem hmacCtor_runS (h : Spec.obj a i = some ⟨some v, l⟩) :
    (hmacCtor i).runS a = (a.set i (some .empty) ++ [some ⟨some v, l⟩], .ok a.length, 0) := by
  have hl : a.length = (a.set i (some .empty)).length := by simp
  refine bind_ok (mk_move 32 h) ?_
  simp only [P.runS, obj_last _ [] _ hl, Option.isNone_some, Bool.false_eq_true, if_false]
  rfl

theorem hmacCtor_empty (h : Spec.obj a i = some ⟨none, l⟩) : (hmacCtor i).runS a = (a.set i (some .empty) ++ [none], .exc .invalidArgument, 0) := by
  have hl : a.length = (a.set i (some .empty)).length := by simp
  refine bind_ok (mk_move 32 h) ?_
  simp only [P.runS, obj_last _ [] _ hl, Option.isNone_none, if_true]
  refine bind_ok (act_destroy 32 (obj_last _ _ _ hl)) ?_
  rw [set_last _ _ _ _ hl]
  rfl

theorem rcprfCtor_runS {n : Nat} (h : Spec.obj a i = some o) (h0 : n ≠ 0) (h1 : n ≤ 64) :
    (rcprfCtor i n).runS a = (a.set i (some .empty) ++ [some o], .ok a.length, 0) := by
  refine bind_ok (mk_move 32 h) ?_
  rw [if_neg h0, if_neg (by omega)]
  rfl

theorem rcprfCtor_refused {n : Nat} (h : Spec.obj a i = some o) (h0 : n = 0 ∨ n > 64) :
    (rcprfCtor i n).runS a = (a.set i (some .empty) ++ [none], .exc .invalidArgument, 0) := by
  have hl : a.length = (a.set i (some .empty)).length := by simp
  refine bind_ok (mk_move 32 h) ?_
  have hd : (do let _ ← act 32 (.destroy a.length); throw .invalidArgument : P Nat).runS (a.set i (some .empty) ++ [some o])
      = (a.set i (some .empty) ++ [none], .exc .invalidArgument, 0) := by
    refine bind_ok (act_destroy 32 (obj_last _ _ _ hl)) ?_
    rw [set_last _ _ _ _ hl]
    rfl
  split
  · exact hd
  · rw [if_pos (by omega)]
    exact hd

theorem elemCtor_runS {n : Nat} (h : Spec.obj a i = some o) (h1 : 1 < n) :
    (elemCtor false i n).runS a = (a.set i (some .empty) ++ [some o], .ok a.length, 0) := by
  refine bind_ok (mk_move 32 h) ?_
  rw [if_neg (by omega)]
  rfl

theorem elemCtor_low {n : Nat} (h : Spec.obj a i = some o) (h1 : n ≤ 1) :
    (elemCtor false i n).runS a = (a.set i (some .empty) ++ [none], .exc .invalidArgument, 0) := by
  have hl : a.length = (a.set i (some .empty)).length := by simp
  refine bind_ok (mk_move 32 h) ?_
  rw [if_pos h1]
  refine bind_ok (act_destroy 32 (obj_last _ _ _ hl)) ?_
  rw [set_last _ _ _ _ hl]
  rfl

theorem prpCtor_runS (setup : Bytes → Bytes) (junk : Bytes) (h : Spec.obj a i = some ⟨some v, l⟩) :
    (prpCtor setup junk i).runS a = (a.set i (some .empty) ++ [some ⟨some (setup v), true⟩], .ok a.length, 0) := by
  have hi := sobj_lt h
  have h1 : (do let v ← act 48 (.readUnlock i); pure (setup v) : P Bytes).runS a = (a.set i (some ⟨some v, false⟩), .ok (setup v), 0) :=
    bind_ok (act_readUnlock 48 h) rfl
  refine bind_ok (newFilled_runS h1) ?_
  have h2 : Spec.obj (a.set i (some ⟨some v, false⟩) ++ [some ⟨some (setup v), true⟩]) i = some ⟨some v, false⟩ := by
    rw [obj_old (by simpa using hi), obj_set hi]
  refine bind_ok (act_erase 48 h2) ?_
  rw [set_old (by simpa using hi), List.set_set, List.length_set]
  rfl

theorem prpCtor_empty (setup : Bytes → Bytes) (junk : Bytes) (h : Spec.obj a i = some ⟨none, l⟩) :
    (prpCtor setup junk i).runS a = (a, .exc .runtimeError, 1) := by
  have h1 : (do let v ← act 48 (.readUnlock i); pure (setup v) : P Bytes).runS a = (a, .exc .runtimeError, 0) := bind_exc (act_readUnlock_empty 48 h)
  exact bind_exc (newFilled_exc h1)

theorem prpNew_runS (setup : Bytes → Bytes) (junk r : Bytes) :
    (prpNew setup junk r).runS a = (a ++ [none, some ⟨some (setup r), true⟩], .ok (a.length + 1), 0) := by
  have h1 : (do let v ← act 48 (.readUnlock a.length); pure (setup v) : P Bytes).runS (a ++ [some ⟨some r, true⟩])
      = (a ++ [some ⟨some r, false⟩], .ok (setup r), 0) := by
    refine bind_ok (act_readUnlock 48 (obj_last _ _ _ rfl)) ?_
    rw [set_last _ _ _ _ rfl]
    rfl
  have h2 := within_runS (body := fun t => (do let v ← act 48 (.readUnlock t); pure (setup v) : P Bytes)) (mk_random 48 r junk) h1 (by simp) (obj_last _ _ _ rfl)
  rw [set_last _ _ _ _ rfl] at h2
  have h3 := newFilled_runS (N := 112) (junk := junk) h2
  rw [List.append_assoc, List.length_append] at h3
  exact h3

theorem deriveKey_runS (K : Nat) (junk : Bytes) (g : Bytes → Bytes) (h : Spec.obj a i = some ⟨some v, true⟩) :
    (deriveKey K junk g i).runS a = (a ++ [some ⟨some (g v), true⟩], .ok a.length, 0) := newFilled_runS (derive_runS g h)

theorem deriveKey_empty (K : Nat) (junk : Bytes) (g : Bytes → Bytes) (h : Spec.obj a i = some ⟨none, l⟩) :
    (deriveKey K junk g i).runS a = (a, .exc .runtimeError, 1) := newFilled_exc (derive_empty g h)

theorem deriveKeyStatic_runS (K : Nat) (junk : Bytes) (g : Bytes → Bytes) (h : Spec.obj a i = some ⟨some v, l⟩) :
    (deriveKeyStatic K junk g i).runS a = (a.set i (some .empty) ++ [none, some ⟨some (g v), true⟩], .ok (a.length + 1), 0) := by
  have := newFilled_runS (N := K) (junk := junk) (deriveStatic_runS false g h)
  rw [List.append_assoc, List.length_append, List.length_set] at this
  exact this

theorem deriveKeyStatic_empty (K : Nat) (junk : Bytes) (g : Bytes → Bytes) (h : Spec.obj a i = some ⟨none, l⟩) :
    (deriveKeyStatic K junk g i).runS a = (a, .exc .invalidArgument, 1) := newFilled_exc (deriveStatic_empty false g h)

theorem readPlain_runS (N : Nat) (b : Bytes) : (readPlain N b).runS a = (a ++ [none, some ⟨some (b.take N), true⟩], .ok (a.length + 1), 0) := by
  have h1 := mk_move (i := a.length) N (obj_last a [] ⟨some (b.take N), true⟩ rfl)
  rw [set_last _ _ _ _ rfl, List.append_assoc] at h1
  have := within_runS (body := fun t => mk N (.moveCtor t)) (mk_from N b) h1 (by simp) (obj_last a [_] .empty rfl)
  rw [List.singleton_append, set_last _ _ _ _ rfl, List.length_append] at this
  exact this

theorem readPrf_runS (b : Bytes) : (readPrf b).runS a = (a ++ [none, some ⟨some (b.take 32), true⟩], .ok (a.length + 1), 0) := by
  have h1 := hmacCtor_runS (i := a.length) (obj_last a [] ⟨some (b.take 32), true⟩ rfl)
  rw [set_last _ _ _ _ rfl, List.append_assoc] at h1
  have := within_runS (body := fun t => hmacCtor t) (mk_from 32 b) h1 (by simp) (obj_last a [_] .empty rfl)
  rw [List.singleton_append, set_last _ _ _ _ rfl, List.length_append] at this
  exact this

theorem duplicate_runS (h : Spec.obj a i = some ⟨some v, true⟩) (hv : v.length = 32) :
    (duplicate i).runS a = (a ++ [none, some ⟨some v, true⟩], .ok (a.length + 1), 0) := by
  have hi := sobj_lt h
  refine bind_ok (act_readUnlock 32 h) ?_
  refine bind_ok (act_lock 32 (obj_set hi)) ?_
  have ht : v.take 32 = v := List.take_of_length_le (by omega)
  have := readPlain_runS (a := a) 32 v
  rw [List.set_set, set_same h, if_neg (by omega), ht]
  rw [ht] at this
  exact this

theorem hmacs_runS (fs : List (Bytes → Bytes)) (h : Spec.obj a i = some ⟨some v, true⟩) : (hmacs i fs).runS a = (a, .ok (fs.map fun f => f v), 0) := by
  induction fs with
  | nil => rfl
  | cons f fs ih =>
    have h1 := hmac_runS f h
    rw [set_same h] at h1
    refine bind_ok h1 ?_
    refine bind_ok ih ?_
    rfl

theorem tdpGenerate_runS (fs : List (Bytes → Bytes)) (h : Spec.obj a i = some ⟨some v, true⟩) :
    (tdpGenerate fs i).runS a = (a.set i (some .empty) ++ [none], .ok (fs.map fun f => f v), 0) := by
  have hl : a.length = (a.set i (some .empty)).length := by simp
  have ho := obj_last (a.set i (some .empty)) [] ⟨some v, true⟩ hl
  have := within_runS (body := fun j => hmacs j fs) (hmacCtor_runS h) (hmacs_runS fs ho) (by simp) ho
  rw [set_last _ _ _ _ hl] at this
  exact this

theorem prfKey_runS {N : Nat} (f : Bytes → Bytes) (h : Spec.obj a i = some ⟨some v, true⟩) :
    (prfKey N f i).runS a = (a ++ [some ⟨some ((f v).take N), true⟩], .ok a.length, 0) := by
  have h1 := hmac_runS f h
  rw [set_same h] at h1
  exact bind_ok h1 (mk_from N _)

theorem wrapperBody_runS (f1 f2 : Bytes → Bytes) (A : Spec.St) (x1 x2 : Spec.Obj) (hi : i < A.length) (h : Spec.obj A i = some ⟨some v, true⟩) :
    (wrapperBody f1 f2 i A.length (A.length + 1)).runS (A ++ [some x1, some x2]) =
      (A.set i (some .empty) ++ [some ⟨some ((f1 v).take 32), true⟩, some ⟨some ((f2 v).take 32), true⟩, none, none, none, none], .ok (), 0) := by
  obtain ⟨B, hB⟩ : ∃ B, B = A.set i (some .empty) := ⟨_, rfl⟩
  have hl : A.length = B.length := by simp [hB]
  have hn : ∀ (t : Spec.St) (c n : Nat), n = c → Spec.obj (B ++ t) (B.length + n) = Spec.obj t c := fun t c n h => by rw [h, obj_new]
  have h0 : (hmacCtor i).runS (A ++ [some x1, some x2]) = (B ++ [some x1, some x2, some ⟨some v, true⟩], .ok (B.length + 2), 0) := by
    have := hmacCtor_runS (a := A ++ [some x1, some x2]) (i := i) (v := v) (l := true) (by rw [obj_old hi, h])
    rw [set_old hi, List.append_assoc, List.length_append, ← hB, hl] at this
    exact this
  rw [← hB, hl]
  -- the first member
  have h1 : (within (prfKey 32 f1 (B.length + 2)) fun t => within (hmacCtor t) fun p => act 32 (.moveAssign B.length p)).runS
      (B ++ [some x1, some x2, some ⟨some v, true⟩]) =
      (B ++ [some ⟨some ((f1 v).take 32), true⟩, some x2, some ⟨some v, true⟩, none, none], .ok [], 0) := by
    have k1 := prfKey_runS (N := 32) f1 (a := B ++ [some x1, some x2, some ⟨some v, true⟩]) (i := B.length + 2) (v := v) (by rw [obj_new]; rfl)
    rw [List.append_assoc, List.length_append] at k1
    have k2 := hmacCtor_runS (a := B ++ ([some x1, some x2, some ⟨some v, true⟩] ++ [some ⟨some ((f1 v).take 32), true⟩])) (i := B.length + 3) (v := (f1 v).take 32)
      (l := true) (by rw [obj_new]; rfl)
    rw [set_new, List.append_assoc, List.length_append] at k2
    have k3 := act_assign 32 (a := B ++ ([some x1, some x2, some ⟨some v, true⟩, some .empty] ++ [some ⟨some ((f1 v).take 32), true⟩])) (d := B.length + 0)
      (s := B.length + 4) (od := x1) (os := ⟨some ((f1 v).take 32), true⟩) (by rw [obj_new]; rfl) (by rw [obj_new]; rfl) (by omega)
    rw [set_new, set_new] at k3
    have k4 := within_runS (body := fun p => act 32 (.moveAssign B.length p)) k2 k3 (by simp) (o := .empty)
      (by simp only [List.length_append, List.length_cons, List.length_nil]; rw [obj_new]; rfl)
    have e4 : (List.length (([some x1, some x2, some ⟨some v, true⟩] : Spec.St) ++ [some ⟨some ((f1 v).take 32), true⟩])) = 4 := rfl
    rw [e4, set_new] at k4
    have k5 := within_runS (body := fun t => within (hmacCtor t) fun p => act 32 (.moveAssign B.length p)) k1 k4 (by simp) (o := .empty)
      (by simp only [List.length_cons, List.length_nil]; rw [obj_new]; rfl)
    have e3 : (List.length ([some x1, some x2, some ⟨some v, true⟩] : Spec.St)) = 3 := rfl
    rw [e3, set_new] at k5
    exact k5
  -- the second member
  have h2 : (within (prfKey 32 f2 (B.length + 2)) fun t => act 32 (.moveAssign (B.length + 1) t)).runS
      (B ++ [some ⟨some ((f1 v).take 32), true⟩, some x2, some ⟨some v, true⟩, none, none]) =
      (B ++ [some ⟨some ((f1 v).take 32), true⟩, some ⟨some ((f2 v).take 32), true⟩, some ⟨some v, true⟩, none, none, none], .ok [], 0) := by
    have k1 := prfKey_runS (N := 32) f2 (a := B ++ [some ⟨some ((f1 v).take 32), true⟩, some x2, some ⟨some v, true⟩, none, none]) (i := B.length + 2) (v := v)
      (by rw [obj_new]; rfl)
    rw [List.append_assoc, List.length_append] at k1
    have k3 := act_assign 32 (a := B ++ ([some ⟨some ((f1 v).take 32), true⟩, some x2, some ⟨some v, true⟩, none, none] ++ [some ⟨some ((f2 v).take 32), true⟩]))
      (d := B.length + 1) (s := B.length + 5) (od := x2) (os := ⟨some ((f2 v).take 32), true⟩) (by rw [obj_new]; rfl) (by rw [obj_new]; rfl) (by omega)
    rw [set_new, set_new] at k3
    have k5 := within_runS (body := fun t => act 32 (.moveAssign (B.length + 1) t)) k1 k3 (by simp) (o := .empty)
      (by simp only [List.length_cons, List.length_nil]; rw [obj_new]; rfl)
    have e3 : (List.length ([some ⟨some ((f1 v).take 32), true⟩, some x2, some ⟨some v, true⟩, none, none] : Spec.St)) = 5 := rfl
    rw [e3, set_new] at k5
    exact k5
  have h3 := within_runS (body := fun kdf => (do
    let _ ← within (prfKey 32 f1 kdf) fun t => within (hmacCtor t) fun p => act 32 (.moveAssign B.length p)
    let _ ← within (prfKey 32 f2 kdf) fun t => act 32 (.moveAssign (B.length + 1) t)
    pure () : P Unit)) h0 (bind_ok h1 (bind_ok h2 (z := (_, .ok (), 0)) rfl)) (by simp) (o := ⟨some v, true⟩) (by rw [obj_new]; rfl)
  rw [set_new] at h3
  exact h3

theorem wrapperCtor_runS (f1 f2 : Bytes → Bytes) (r1 r2 junk : Bytes) (h : Spec.obj a i = some ⟨some v, true⟩) :
    (wrapperCtor f1 f2 r1 r2 junk i).runS a =
      (a.set i (some .empty) ++ [some ⟨some ((f1 v).take 32), true⟩, some ⟨some ((f2 v).take 32), true⟩, none, none, none, none],
        .ok (a.length, a.length + 1), 0) := by
  refine bind_ok (mk_random 32 r1 junk) (bind_ok (mk_random 32 r2 junk) ?_)
  rw [List.append_assoc, List.length_append]
  have := seq (f := wrapperEnd a.length (a.length + 1)) (r := .ok ()) (by simp) (wrapperBody_runS f1 f2 a ⟨some r1, true⟩ ⟨some r2, true⟩ (sobj_lt h) h)
    (z := (_, .ok (a.length, a.length + 1), 0)) rfl
  exact this

theorem wrapperCtor_empty (f1 f2 : Bytes → Bytes) (r1 r2 junk : Bytes) (h : Spec.obj a i = some ⟨none, l⟩) :
    (wrapperCtor f1 f2 r1 r2 junk i).runS a = (a.set i (some .empty) ++ [none, none, none], .exc .invalidArgument, 0) := by
  have hi := sobj_lt h
  refine bind_ok (mk_random 32 r1 junk) (bind_ok (mk_random 32 r2 junk) ?_)
  rw [List.append_assoc, List.length_append]
  have h1 : (wrapperBody f1 f2 i a.length (a.length + 1)).runS (a ++ [some ⟨some r1, true⟩, some ⟨some r2, true⟩]) =
      (a.set i (some .empty) ++ [some ⟨some r1, true⟩, some ⟨some r2, true⟩, none], .exc .invalidArgument, 0) := by
    have := hmacCtor_empty (a := a ++ [some ⟨some r1, true⟩, some ⟨some r2, true⟩]) (i := i) (l := l) (by rw [obj_old hi, h])
    rw [set_old hi, List.append_assoc] at this
    exact within_exc this
  have hl : a.length = (a.set i (some .empty)).length := by simp
  have h2 : (wrapperEnd a.length (a.length + 1) (.exc .invalidArgument)).runS (a.set i (some .empty) ++ [some ⟨some r1, true⟩, some ⟨some r2, true⟩, none]) =
      (a.set i (some .empty) ++ [none, none, none], .exc .invalidArgument, 0) := by
    rw [hl]
    refine bind_ok (act_destroy 32 (by rw [obj_new]; rfl)) ?_
    rw [set_new]
    refine bind_ok (act_destroy 32 (by rw [← Nat.add_zero (List.length _), obj_new]; rfl)) ?_
    rw [← Nat.add_zero (List.length (a.set i (some .empty))), set_new]
    rfl
  have := seq (f := wrapperEnd a.length (a.length + 1)) (r := .exc .invalidArgument) (by simp) h1 h2
  exact this

/-! ## Many keys -/

/-- The part of number `m` of a buffer, as a key. -/
def part (K : Nat) (buf : Bytes) (m : Nat) : Option Spec.Obj := some ⟨some ((buf.drop (m * K)).take K), true⟩

theorem cutKeys_runS (K : Nat) (buf : Bytes) : ∀ (n t : Nat) {a : Spec.St}, (t + n) * K ≤ buf.length →
    (cutKeys K buf n t).runS a = (a ++ (List.range' t n).map (part K buf), .ok (List.range' a.length n), 0) := by
  intro n
  induction n with
  | zero => intro t a _; simp [cutKeys, P.runS, pure]
  | succ n ih =>
    intro t a h
    have hlt : ¬ (buf.drop (t * K)).length < K := by
      rw [List.length_drop]
      have : (t + 1) * K ≤ (t + (n + 1)) * K := Nat.mul_le_mul_right _ (by omega)
      rw [Nat.add_mul, Nat.one_mul] at this
      omega
    unfold cutKeys
    rw [if_neg hlt]
    refine bind_ok (mk_from K _) ?_
    refine bind_ok (ih (t + 1) (by rw [Nat.add_assoc, Nat.add_comm 1]; exact h)) ?_
    rw [List.append_assoc, List.length_append]
    rfl

theorem cutAll_runS (K : Nat) (junk : Bytes) {n : Nat} {buf : Bytes} (h : n * K ≤ buf.length) :
    (cutAll K junk n (.ok buf)).runS a = (a ++ none :: (List.range n).map (part K buf), .ok (List.range' (a.length + 1) n), 0) := by
  have h1 := cutKeys_runS K buf n 0 (a := a ++ [some ⟨some buf, true⟩]) (by simpa using h)
  rw [List.append_assoc, List.length_append] at h1
  have := within_runS (body := fun _ => cutKeys K buf n 0) (mk_filled (n * K) buf junk) h1 (by simp) (obj_last a _ _ rfl)
  rw [List.singleton_append, set_last _ _ _ _ rfl, List.range_eq_range'.symm] at this
  exact this

theorem deriveKeys_runS (K : Nat) (junk : Bytes) (g : Bytes → Bytes) {n : Nat} (hn : n ≠ 0) (hg : n * K ≤ (g v).length) (h : Spec.obj a i = some ⟨some v, true⟩) :
    (deriveKeys K junk g n i).runS a = (a ++ none :: (List.range n).map (part K (g v)), .ok (List.range' (a.length + 1) n), 0) := by
  have := seq (f := cutAll K junk n) (r := .ok (g v)) (by simp) (derive_runS g h) (cutAll_runS K junk hg)
  simp only [Nat.add_zero] at this
  rw [deriveKeys, if_neg hn]
  exact this

theorem deriveKeys_empty (K : Nat) (junk : Bytes) (g : Bytes → Bytes) {n : Nat} (hn : n ≠ 0) (h : Spec.obj a i = some ⟨none, l⟩) :
    (deriveKeys K junk g n i).runS a = (a, .exc .runtimeError, 1) := by
  have := seq (f := cutAll K junk n) (r := .exc .runtimeError) (by simp) (derive_empty g h) (z := (a, .exc .runtimeError, 1)) rfl
  rw [deriveKeys, if_neg hn]
  exact this

theorem deriveKeysStatic_runS (K : Nat) (junk : Bytes) (g : Bytes → Bytes) {n : Nat} (hn : n ≠ 0) (hg : n * K ≤ (g v).length)
    (h : Spec.obj a i = some ⟨some v, l⟩) :
    (deriveKeysStatic K junk g n i).runS a =
      (a.set i (some .empty) ++ none :: none :: (List.range n).map (part K (g v)), .ok (List.range' (a.length + 2) n), 0) := by
  have := seq (f := cutAll K junk n) (r := .ok (g v)) (by simp) (deriveStatic_runS false g h) (cutAll_runS K junk hg)
  simp only [Nat.add_zero, List.append_assoc, List.length_append, List.length_set, List.length_singleton] at this
  simp only [deriveKeysStatic, P.runS, h, Option.isNone_some, Bool.false_eq_true, if_false, if_neg hn]
  exact this

theorem deriveKeysStatic_zero (K : Nat) (junk : Bytes) (g : Bytes → Bytes) (h : Spec.obj a i = some ⟨some v, l⟩) :
    (deriveKeysStatic K junk g 0 i).runS a = (a, .ok [], 0) := by
  simp only [deriveKeysStatic, P.runS, h, Option.isNone_some, Bool.false_eq_true, if_false, if_true]
  rfl

theorem deriveKeysStatic_empty (K : Nat) (junk : Bytes) (g : Bytes → Bytes) (n : Nat) (h : Spec.obj a i = some ⟨none, l⟩) :
    (deriveKeysStatic K junk g n i).runS a = (a, .exc .invalidArgument, 0) := by
  simp only [deriveKeysStatic, P.runS, h, Option.isNone_none, if_true]
  rfl

/-! ## Walks -/

theorem chain_runS (junk : Bytes) : ∀ (gs : List (Bytes → Bytes)) {a t : Spec.St} {v : Bytes}, (∀ x ∈ t, x = none) →
    ∃ t', (∀ x ∈ t', x = none) ∧ (chain junk a.length gs).runS (a ++ some ⟨some v, true⟩ :: t) =
      (a ++ some ⟨some (gs.foldl (fun v g => g v) v), true⟩ :: t', .ok (), 0) := by
  intro gs
  induction gs with
  | nil => intro a t v ht; exact ⟨t, ht, rfl⟩
  | cons g gs ih =>
    intro a t v ht
    have h1 := deriveKeyStatic_runS 32 junk g (obj_last a t ⟨some v, true⟩ rfl)
    rw [set_last _ _ _ _ rfl, List.append_assoc, List.length_append, List.cons_append, List.length_cons] at h1
    have e : t ++ [none, some ⟨some (g v), true⟩] = (t ++ [none]) ++ [some ⟨some (g v), true⟩] := by simp
    rw [e] at h1
    have h2 : Spec.obj (a ++ some Spec.Obj.empty :: (t ++ [none] ++ [some ⟨some (g v), true⟩])) (a.length + (t.length + 1) + 1) = some ⟨some (g v), true⟩ := by
      rw [Nat.add_assoc, obj_new]
      have := obj_last (some Spec.Obj.empty :: (t ++ [none])) [] ⟨some (g v), true⟩ (j := t.length + 1 + 1) (by simp)
      exact this
    have h3 := act_assign 32 (obj_last a (t ++ [none] ++ [some ⟨some (g v), true⟩]) .empty rfl) h2 (by omega)
    rw [set_last _ _ _ _ rfl, Nat.add_assoc, set_new] at h3
    have e2 : ∀ x, (some (⟨some (g v), true⟩ : Spec.Obj) :: (t ++ [none] ++ [some ⟨some (g v), true⟩])).set (t.length + 1 + 1) x
        = some ⟨some (g v), true⟩ :: (t ++ [none] ++ [x]) := fun x => by
      have := set_last (some (⟨some (g v), true⟩ : Spec.Obj) :: (t ++ [none])) [] (some ⟨some (g v), true⟩) x (j := t.length + 1 + 1) (by simp)
      exact this
    rw [e2] at h3
    have h5 : Spec.obj (a ++ some (⟨some (g v), true⟩ : Spec.Obj) :: (t ++ [none] ++ [some .empty])) (a.length + (t.length + 1 + 1)) = some .empty := by
      rw [obj_new]
      have := obj_last (some (⟨some (g v), true⟩ : Spec.Obj) :: (t ++ [none])) [] .empty (j := t.length + 1 + 1) (by simp)
      exact this
    have h4 := within_runS (body := fun t => act 32 (.moveAssign a.length t)) h1 h3 (by simp) h5
    rw [Nat.add_assoc a.length, set_new] at h4
    have e3 : (some (⟨some (g v), true⟩ : Spec.Obj) :: (t ++ [none] ++ [some .empty])).set (t.length + 1 + 1) none
        = some ⟨some (g v), true⟩ :: (t ++ [none] ++ [none]) := by
      have := set_last (some (⟨some (g v), true⟩ : Spec.Obj) :: (t ++ [none])) [] (some .empty) none (j := t.length + 1 + 1) (by simp)
      exact this
    rw [e3] at h4
    obtain ⟨t', ht', h5⟩ := ih (a := a) (t := t ++ [none] ++ [none]) (v := g v) (by
      intro x hx
      simp only [List.mem_append, List.mem_singleton] at hx
      rcases hx with (hx | hx) | hx
      · exact ht x hx
      · exact hx
      · exact hx)
    exact ⟨t', ht', bind_ok h4 h5⟩

theorem leaf_runS (junk : Bytes) (last : Bytes → Bytes) (gs : List (Bytes → Bytes)) (h : Spec.obj a i = some ⟨some v, true⟩) :
    ∃ t, (∀ x ∈ t, x = none) ∧ (leaf junk last i gs).runS a = (a ++ t, .ok (last (gs.foldl (fun v g => g v) v)), 0) := by
  cases gs with
  | nil => exact ⟨[], by simp, by rw [List.append_nil]; exact derive_runS last h⟩
  | cons g gs =>
    obtain ⟨t, ht, h1⟩ := chain_runS junk gs (a := a) (t := []) (v := g v) (by simp)
    have h2 := deriveStatic_runS false last (obj_last a t ⟨some (gs.foldl (fun v g => g v) (g v)), true⟩ rfl)
    rw [set_last _ _ _ _ rfl, List.append_assoc, List.cons_append] at h2
    have h3 := within_runS (body := fun s => (do
      chain junk s gs
      deriveStatic false last s : P Bytes)) (deriveKey_runS 32 junk g h) (bind_ok h1 h2) (by simp) (obj_last a (t ++ [none]) .empty rfl)
    rw [set_last _ _ _ _ rfl] at h3
    exact ⟨none :: (t ++ [none]), by simpa [or_imp, forall_and] using ht, h3⟩

/-- A child of a node, used and dropped. -/
theorem child_runS {α : Type} {junk : Bytes} {g : Bytes → Bytes} {body : Nat → P α} {r : Res α} (hr : r ≠ .ub) (h : Spec.obj a i = some ⟨some v, true⟩)
    {t : Spec.St} (hb : (body (a.length + 1)).runS (a ++ [some .empty, some ⟨some (g v), true⟩]) = (a ++ [some .empty, some ⟨some (g v), true⟩] ++ t, r, 0)) :
    (within (deriveKey 32 junk g i) fun s => within (plainCtor s) body).runS a = (a ++ none :: none :: t, r, 0) := by
  have h1 := mk_move 32 (obj_last a [] ⟨some (g v), true⟩ rfl)
  rw [set_last _ _ _ _ rfl, List.append_assoc, List.length_append] at h1
  have h2 := within_runS (body := body) h1 hb hr (o := ⟨some (g v), true⟩) (by rw [List.append_assoc, List.length_singleton, obj_new]; rfl)
  rw [List.append_assoc, List.length_singleton, set_new] at h2
  have h3 := within_runS (body := fun s => within (plainCtor s) body) (deriveKey_runS 32 junk g h) h2 hr (o := .empty) (obj_last a _ _ rfl)
  have e : ([some Spec.Obj.empty, some (⟨some (g v), true⟩ : Spec.Obj)] ++ t).set 1 none = some .empty :: none :: t := rfl
  rw [e, set_last _ _ _ _ rfl] at h3
  exact h3

/-- The outcome of a walk that calls `call`. -/
def Outcome (call : Nat → Bytes → Option Exc) (r : Res Unit) : Prop := r = .ok () ∨ ∃ x b e, call x b = some e ∧ r = .exc e

/-- Objects that have all been destroyed. -/
def Gone (t : Spec.St) : Prop := ∀ x ∈ t, x = none

theorem gone_append {t u : Spec.St} (ht : Gone t) (hu : Gone u) : Gone (t ++ u) := fun x hx => (List.mem_append.1 hx).elim (ht x) (hu x)

theorem gone_cons {t : Spec.St} (ht : Gone t) : Gone (none :: t) := gone_append (t := [none]) (by simp [Gone]) ht

/-- Two walks in sequence. -/
theorem walk_seq {call : Nat → Bytes → Option Exc} {p : P Unit} {q : Unit → P Unit}
    (hp : ∃ t r, Gone t ∧ Outcome call r ∧ p.runS a = (a ++ t, r, 0))
    (hq : ∀ t, Gone t → ∃ u r, Gone u ∧ Outcome call r ∧ (q ()).runS (a ++ t) = (a ++ t ++ u, r, 0)) :
    ∃ t r, Gone t ∧ Outcome call r ∧ (p >>= q).runS a = (a ++ t, r, 0) := by
  obtain ⟨t, r, ht, hr, h⟩ := hp
  rcases hr with rfl | ⟨x, b, e, he, rfl⟩
  · obtain ⟨u, r, hu, hr, h'⟩ := hq t ht
    exact ⟨t ++ u, r, gone_append ht hu, hr, bind_ok h (by rw [h', List.append_assoc])⟩
  · exact ⟨t, .exc e, ht, .inr ⟨x, b, e, he, rfl⟩, bind_exc h⟩

theorem walk_none {call : Nat → Bytes → Option Exc} : ∃ t r, Gone t ∧ Outcome call r ∧ (pure () : P Unit).runS a = (a ++ t, r, 0) :=
  ⟨[], .ok (), by simp [Gone], .inl rfl, by rw [List.append_nil]; rfl⟩

theorem walk_call {call : Nat → Bytes → Option Exc} {x : Nat} {b : Bytes} {q : P Unit}
    (hq : ∃ t r, Gone t ∧ Outcome call r ∧ q.runS a = (a ++ t, r, 0)) :
    ∃ t r, Gone t ∧ Outcome call r ∧ (match call x b with | some e => throw e | none => q).runS a = (a ++ t, r, 0) := by
  cases hc : call x b with
  | none => exact hq
  | some e => exact ⟨[], .exc e, by simp [Gone], .inr ⟨x, b, e, hc, rfl⟩, by rw [List.append_nil]; rfl⟩

theorem range_runS (T : Tree) (junk : Bytes) (call : Nat → Bytes → Option Exc) : ∀ (h : Nat) {a : Spec.St} {i : Nat} {v : Bytes} (off min max : Nat),
    Spec.obj a i = some ⟨some v, true⟩ → ∃ t r, Gone t ∧ Outcome call r ∧ (range T junk call h i off min max).runS a = (a ++ t, r, 0) := by
  intro h
  induction h with
  | zero =>
    intro a i v off min max ho
    have h1 : ∀ {q : P Unit}, (∃ t r, Gone t ∧ Outcome call r ∧ q.runS a = (a ++ t, r, 0)) → ∀ (g : Bytes → Bytes) (x : Nat), ∃ t r, Gone t ∧ Outcome call r ∧
        (do let b ← derive g i
            match call x b with
            | some e => throw e
            | none => q : P Unit).runS a = (a ++ t, r, 0) := fun hq g x => by
      obtain ⟨t, r, ht, hr, h'⟩ := walk_call (x := x) (b := g v) hq
      exact ⟨t, r, ht, hr, bind_ok (derive_runS g ho) h'⟩
    unfold range
    refine h1 ?_ _ _
    split
    · exact h1 walk_none _ _
    · exact walk_none
  | succ h ih =>
    intro a i v off min max ho
    have hi := sobj_lt ho
    have side : ∀ (t : Spec.St) (g : Bytes → Bytes) (o mn mx : Nat), ∃ u r, Gone u ∧ Outcome call r ∧
        (within (deriveKey 32 junk g i) fun s => within (plainCtor s) fun p => range T junk call h p o mn mx).runS (a ++ t) = (a ++ t ++ u, r, 0) := by
      intro t g o mn mx
      have ho' : Spec.obj (a ++ t) i = some ⟨some v, true⟩ := by rw [obj_old hi, ho]
      obtain ⟨u, r, hu, hr, h'⟩ := ih (a := a ++ t ++ [some .empty, some ⟨some (g v), true⟩]) (i := (a ++ t).length + 1) (v := g v) o mn mx (by rw [obj_new]; rfl)
      refine ⟨none :: none :: u, r, gone_cons (gone_cons hu), hr, child_runS (body := fun p => range T junk call h p o mn mx) ?_ ho' h'⟩
      rcases hr with rfl | ⟨x, b, e, -, rfl⟩ <;> simp
    unfold range
    refine walk_seq ?_ fun t ht => ?_
    · split
      · have := side [] (T.node false) off min (Nat.min max (2 ^ (h + 1) - 1))
        rw [List.append_nil] at this
        exact this
      · exact walk_none
    · split
      · exact side t _ _ _ _
      · exact walk_none

/-- The living objects of a list that begins at number `n`. -/
def lives : Nat → Spec.St → List (Nat × Spec.Obj)
  | _, [] => []
  | n, none :: t => lives (n + 1) t
  | n, some o :: t => (n, o) :: lives (n + 1) t

theorem lives_append (t u : Spec.St) : ∀ n, lives n (t ++ u) = lives n t ++ lives (n + t.length) u := by
  induction t with
  | nil => intro n; rfl
  | cons x t ih =>
    intro n
    cases x with
    | none => simp only [List.cons_append, lives, ih, List.length_cons, Nat.add_assoc, Nat.add_comm 1]
    | some o => simp only [List.cons_append, lives, ih, List.length_cons, Nat.add_assoc, Nat.add_comm 1]

theorem lives_gone {t : Spec.St} (h : Gone t) : ∀ n, lives n t = [] := by
  induction t with
  | nil => intro n; rfl
  | cons x t ih =>
    intro n
    obtain rfl := h x (by simp)
    exact ih (fun y hy => h y (by simp [hy])) _

theorem mem_lives {t : Spec.St} : ∀ {n j : Nat} {o : Spec.Obj}, (j, o) ∈ lives n t ↔ n ≤ j ∧ Spec.obj t (j - n) = some o := by
  induction t with
  | nil => intro n j o; simp [lives, Spec.obj]
  | cons x t ih =>
    intro n j o
    have step : ∀ {y : Option Spec.Obj}, j ≠ n → (n + 1 ≤ j ∧ Spec.obj t (j - (n + 1)) = some o ↔ n ≤ j ∧ Spec.obj (y :: t) (j - n) = some o) := by
      intro y hne
      constructor
      · rintro ⟨h1, h2⟩
        refine ⟨by omega, ?_⟩
        rw [show j - n = (j - (n + 1)) + 1 by omega]
        exact h2
      · rintro ⟨h1, h2⟩
        refine ⟨by omega, ?_⟩
        rw [show j - n = (j - (n + 1)) + 1 by omega] at h2
        exact h2
    by_cases hjn : j = n
    · subst hjn
      cases x with
      | none =>
        simp only [lives, ih, Nat.sub_self]
        constructor
        · rintro ⟨h, -⟩; omega
        · rintro ⟨-, h⟩; simp [Spec.obj] at h
      | some y =>
        simp only [lives, List.mem_cons, ih, Nat.sub_self, Prod.mk.injEq, true_and]
        constructor
        · rintro (rfl | ⟨h, -⟩)
          · exact ⟨Nat.le_refl _, rfl⟩
          · omega
        · rintro ⟨-, h⟩
          left
          simpa [Spec.obj] using h.symm
    · cases x with
      | none => simp only [lives, ih]; exact step hjn
      | some y => simp only [lives, List.mem_cons, ih, Prod.mk.injEq, hjn, false_and, false_or]; exact step hjn

/-- New keys: exactly those with the numbers `js` are alive, in this order; each has a value and is locked. -/
structure Made (n : Nat) (t : Spec.St) (js : List Nat) : Prop where
  nums : (lives n t).map Prod.fst = js
  full : ∀ x ∈ lives n t, ∃ w, x.2 = ⟨some w, true⟩

theorem made_append {n : Nat} {t u : Spec.St} {js ks : List Nat} (ht : Made n t js) (hu : Made (n + t.length) u ks) : Made n (t ++ u) (js ++ ks) := by
  constructor
  · rw [lives_append, List.map_append, ht.nums, hu.nums]
  · intro x hx
    rw [lives_append] at hx
    exact (List.mem_append.1 hx).elim (ht.full x) (hu.full x)

theorem genSide_runS {junk : Bytes} {g : Bytes → Bytes} {whole : Bool} {height : Nat} {below : Nat → P (List Nat)} (h : Spec.obj a i = some ⟨some v, true⟩)
    (hh : 1 < height)
    (hb : ∀ {b : Spec.St} {p : Nat}, Spec.obj b p = some ⟨some (g v), true⟩ → ∃ t js, Made b.length t js ∧ (below p).runS b = (b ++ t, .ok js, 0)) :
    ∃ t js, Made a.length t js ∧ (genSide junk g whole height i below).runS a = (a ++ t, .ok js, 0) := by
  cases whole with
  | true =>
    have h1 := elemCtor_runS (obj_last a [] ⟨some (g v), true⟩ rfl) hh
    rw [set_last _ _ _ _ rfl, List.append_assoc, List.length_append] at h1
    have h2 := within_runS (body := fun s => (do
      let j ← elemCtor false s height
      pure [j] : P (List Nat))) (deriveKey_runS 32 junk g h) (bind_ok h1 (z := (_, .ok [a.length + 1], 0)) rfl) (by simp) (obj_last a [_] .empty rfl)
    rw [List.singleton_append, set_last _ _ _ _ rfl] at h2
    exact ⟨[none, some ⟨some (g v), true⟩], [a.length + 1], ⟨rfl, by simp [lives]⟩, h2⟩
  | false =>
    obtain ⟨t, js, hm, h'⟩ := hb (b := a ++ [some .empty, some ⟨some (g v), true⟩]) (p := a.length + 1) (by rw [obj_new]; rfl)
    refine ⟨none :: none :: t, js, ⟨?_, ?_⟩, child_runS (by simp) h h'⟩
    · have := hm.nums
      rw [List.length_append] at this
      exact this
    · have := hm.full
      rw [List.length_append] at this
      exact this

theorem gen_seq {p : P (List Nat)} {q : List Nat → P (List Nat)}
    (hp : ∃ t js, Made a.length t js ∧ p.runS a = (a ++ t, .ok js, 0))
    (hq : ∀ t js, Made a.length t js → ∃ u ks, Made (a ++ t).length u ks ∧ (q js).runS (a ++ t) = (a ++ t ++ u, .ok (js ++ ks), 0)) :
    ∃ t js, Made a.length t js ∧ (p >>= q).runS a = (a ++ t, .ok js, 0) := by
  obtain ⟨t, js, hm, h⟩ := hp
  obtain ⟨u, ks, hm', h'⟩ := hq t js hm
  rw [List.length_append] at hm'
  exact ⟨t ++ u, js ++ ks, made_append hm hm', bind_ok h (by rw [h', List.append_assoc])⟩

theorem gen_none : ∃ t js, Made a.length t js ∧ (pure [] : P (List Nat)).runS a = (a ++ t, .ok js, 0) :=
  ⟨[], [], ⟨rfl, by simp [lives]⟩, by rw [List.append_nil]; rfl⟩

theorem gen_runS (T : Tree) (junk : Bytes) : ∀ (h : Nat) {a : Spec.St} {i : Nat} {v : Bytes} (smin smax min max : Nat),
    Spec.obj a i = some ⟨some v, true⟩ → ∃ t js, Made a.length t js ∧ (gen T junk h i smin smax min max).runS a = (a ++ t, .ok js, 0) := by
  intro h
  induction h with
  | zero =>
    intro a i v smin smax min max ho
    exact ⟨[], [], ⟨rfl, by simp [lives]⟩, bind_ok (derive_runS _ ho) (by rw [List.append_nil]; rfl)⟩
  | succ h ih =>
    intro a i v smin smax min max ho
    have hi := sobj_lt ho
    have side : ∀ (t : Spec.St) (g : Bytes → Bytes) (w : Bool) (s1 s2 mn mx : Nat), ∃ u js, Made (a ++ t).length u js ∧
        (genSide junk g w (h + 2) i fun p => gen T junk h p s1 s2 mn mx).runS (a ++ t) = (a ++ t ++ u, .ok js, 0) := by
      intro t g w s1 s2 mn mx
      exact genSide_runS (by rw [obj_old hi, ho]) (by omega) fun ho' => ih s1 s2 mn mx ho'
    unfold gen
    refine gen_seq ?_ fun t js _ => ?_
    · split
      · have := side [] (T.node false) (min == smin && decide ((smax + smin) / 2 ≤ max)) smin ((smax + smin) / 2) min (Nat.min max ((smax + smin) / 2))
        rw [List.append_nil] at this
        exact this
      · exact gen_none
    · have : ∃ u ks, Made (a ++ t).length u ks ∧ (if max > (smax + smin) / 2 then
          genSide junk (T.node true) (decide (min ≤ (smax + smin) / 2 + 1) && max == smax) (h + 2) i
            fun p => gen T junk h p ((smax + smin) / 2 + 1) smax (Nat.max min ((smax + smin) / 2 + 1)) max
          else pure [] : P (List Nat)).runS (a ++ t) = (a ++ t ++ u, .ok ks, 0) := by
        split
        · exact side t _ _ _ _ _ _
        · exact gen_none
      obtain ⟨u, ks, hm, h'⟩ := this
      exact ⟨u, ks, hm, bind_ok h' rfl⟩

end Verif.Key.Life
