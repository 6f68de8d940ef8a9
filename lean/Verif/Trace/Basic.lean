import Verif.Basic

/-!
# What an observer of the execution sees

The usual model of "constant time": an observer (a neighbour on the same machine) sees every conditional branch that is taken or not, and the address and
width of every access to memory, but not the data.  A computation is a list of such events together with its result.  Addresses are pairs of a region (a
buffer or a local variable; the type `A`) and an offset.
-/

namespace Verif.Trace

open Verif

/-- An event. -/
inductive Ev (A : Type) where
  /-- A conditional branch and its condition. -/
  | br (c : Bool)
  /-- A load. -/
  | rd (r : A) (off len : Nat)
  /-- A store. -/
  | wr (r : A) (off len : Nat)
deriving DecidableEq

/-- A computation: what is seen and what results. -/
structure T (A α : Type) where
  evs : List (Ev A)
  res : Res α

namespace T

variable {A α β γ : Type}

def bind (x : T A α) (f : α → T A β) : T A β :=
  match x.res with
  | .ok a => ⟨x.evs ++ (f a).evs, (f a).res⟩
  | .exc e => ⟨x.evs, .exc e⟩
  | .ub => ⟨x.evs, .ub⟩

instance : Monad (T A) where
  pure a := ⟨[], .ok a⟩
  bind := bind

@[simp] theorem pure_res (a : α) : (pure a : T A α).res = .ok a := rfl
@[simp] theorem pure_evs (a : α) : (pure a : T A α).evs = [] := rfl

theorem bind_res (x : T A α) (f : α → T A β) : (x >>= f).res = (x.res >>= fun a => (f a).res) := by
  show (bind x f).res = _
  unfold bind
  cases x.res <;> rfl

theorem map_res (x : T A α) (f : α → β) : (f <$> x).res = f <$> x.res := by
  show (bind x _).res = _
  unfold bind
  cases x.res <;> rfl

/-- Undefined behaviour without an event. -/
def bad : T A α := ⟨[], .ub⟩

/-- A conditional branch. -/
def ifT (c : Prop) [Decidable c] (a b : T A α) : T A α := ⟨.br (decide c) :: if c then a.evs else b.evs, if c then a.res else b.res⟩

/-- Straight-line code repeated for `k = 0, …, n - 1` (no branches). -/
def loopT (f : Nat → α → T A α) : Nat → α → T A α
  | 0, s => pure s
  | n + 1, s => loopT f n s >>= f n

/-- The iterations of `for (i = 0; i < n; i++)`, each after the test `i < n`. -/
def iterT (f : Nat → α → T A α) : Nat → α → T A α
  | 0, s => pure s
  | n + 1, s => iterT f n s >>= fun s => ⟨.br true :: (f n s).evs, (f n s).res⟩

/-- `for (i = 0; i < n; i++) s = f(i, s)` with its tests. -/
def forT (f : Nat → α → T A α) (n : Nat) (s : α) : T A α := iterT f n s >>= fun s => ⟨[.br false], .ok s⟩

end T

/-! ## Two executions that look the same -/

/-- Results of the same kind, related by `P`. -/
def ResRel {α β : Type} (P : α → β → Prop) : Res α → Res β → Prop
  | .ok a, .ok b => P a b
  | .exc e, .exc f => e = f
  | .ub, .ub => True
  | _, _ => False

/-- The same events, and related results. -/
def Rel {A α β : Type} (P : α → β → Prop) (x : T A α) (y : T A β) : Prop := x.evs = y.evs ∧ ResRel P x.res y.res

namespace Rel

open T

variable {A α β γ δ : Type} {P : α → β → Prop} {Q : γ → δ → Prop}

theorem evs {x : T A α} {y : T A β} (h : Rel P x y) : x.evs = y.evs := h.1

theorem mono {P' : α → β → Prop} {x : T A α} {y : T A β} (h : Rel P x y) (hi : ∀ a b, P a b → P' a b) : Rel P' x y := by
  refine ⟨h.1, ?_⟩
  have := h.2
  revert this
  cases x.res <;> cases y.res <;> simp only [ResRel, imp_self]
  exact hi _ _

theorem pure {a : α} {b : β} (h : P a b) : Rel P (pure a : T A α) (pure b) := ⟨rfl, h⟩

theorem bind {x : T A α} {y : T A β} {f : α → T A γ} {g : β → T A δ} (h : Rel P x y) (hf : ∀ a b, P a b → Rel Q (f a) (g b)) :
    Rel Q (x >>= f) (y >>= g) := by
  obtain ⟨xe, xr⟩ := x
  obtain ⟨ye, yr⟩ := y
  obtain ⟨he, hr⟩ := h
  simp only at he
  subst he
  cases xr <;> cases yr <;> simp only [ResRel] at hr
  · rename_i a b
    have := hf a b hr
    exact ⟨by show xe ++ _ = xe ++ _; rw [this.1], this.2⟩
  · exact ⟨rfl, hr⟩
  · exact ⟨rfl, trivial⟩

theorem ifT {c d : Prop} [Decidable c] [Decidable d] {a b : T A α} {a' b' : T A β} (hc : c ↔ d) (ha : c → Rel P a a') (hb : ¬c → Rel P b b') :
    Rel P (T.ifT c a b) (T.ifT d a' b') := by
  by_cases h : c
  · have hd := hc.1 h
    simp only [Rel, T.ifT, h, hd, if_true, decide_true]
    exact ⟨by rw [(ha h).1], (ha h).2⟩
  · have hd : ¬d := fun x => h (hc.2 x)
    simp only [Rel, T.ifT, h, hd, if_false, decide_false]
    exact ⟨by rw [(hb h).1], (hb h).2⟩

theorem iff {c d : Prop} [Decidable c] [Decidable d] {a b : T A α} {a' b' : T A β} (hc : c ↔ d) (ha : c → Rel P a a') (hb : ¬c → Rel P b b') :
    Rel P (if c then a else b) (if d then a' else b') := by
  by_cases h : c
  · rw [if_pos h, if_pos (hc.1 h)]; exact ha h
  · rw [if_neg h, if_neg fun x => h (hc.2 x)]; exact hb h

theorem loopT {f : Nat → α → T A α} {g : Nat → β → T A β} (h : ∀ k a b, P a b → Rel P (f k a) (g k b)) (n : Nat) {a : α} {b : β} (hab : P a b) :
    Rel P (T.loopT f n a) (T.loopT g n b) := by
  induction n with
  | zero => exact Rel.pure hab
  | succ n ih => exact Rel.bind ih (h n)

theorem iterT {f : Nat → α → T A α} {g : Nat → β → T A β} (h : ∀ k a b, P a b → Rel P (f k a) (g k b)) (n : Nat) {a : α} {b : β} (hab : P a b) :
    Rel P (T.iterT f n a) (T.iterT g n b) := by
  induction n with
  | zero => exact Rel.pure hab
  | succ n ih => exact Rel.bind ih fun a b hab => ⟨by rw [(h n a b hab).1], (h n a b hab).2⟩

theorem forT {f : Nat → α → T A α} {g : Nat → β → T A β} (h : ∀ k a b, P a b → Rel P (f k a) (g k b)) (n : Nat) {a : α} {b : β} (hab : P a b) :
    Rel P (T.forT f n a) (T.forT g n b) :=
  Rel.bind (Rel.iterT h n hab) fun _ _ h => ⟨rfl, h⟩

end Rel

end Verif.Trace
