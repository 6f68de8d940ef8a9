import Verif.Oracle

/-!
# Tables that are drawn beforehand and values that are drawn when they are asked for

Nothing in this file speaks of the code.
-/

namespace Verif.Oracle

open Verif.Avg

variable {ι : Type}

/-- Every point the attack may ask for satisfies `P`. -/
inductive Asks {γ : Type} (P : ι → Prop) : Att ι γ → Prop
  | done (b : Bool) : Asks P (.done b)
  | ask {s : ι} {c : γ → Att ι γ} : P s → (∀ y, Asks P (c y)) → Asks P (.ask s c)

theorem AtMost.succ {γ : Type} {q : Nat} {A : Att ι γ} (h : AtMost q A) : AtMost (q + 1) A := by
  induction h with
  | done b => exact .done b
  | ask _ ih => exact .ask ih

theorem AtMost.mono {γ : Type} {q : Nat} {A : Att ι γ} (h : AtMost q A) {q' : Nat} (hq : q ≤ q') : AtMost q' A := by
  induction hq with
  | refl => exact h
  | step _ ih => exact ih.succ

/-- Two functions that agree at the points that are asked for. -/
theorem play_congr {γ : Type} {P : ι → Prop} {F F' : ι → γ} (hF : ∀ s, P s → F s = F' s) {A : Att ι γ} (hA : Asks P A) :
    play F A = play F' A := by
  induction hA with
  | done b => rfl
  | @ask s c hs _ ih =>
    rw [play, play, hF s hs]
    exact ih _

/-- A table that is put together from two. -/
def merge {β : Type} (b : ι → Bool) (S R : ι → β) (i : ι) : β := if b i then S i else R i

/-- Putting together two uniform tables gives a uniform table. -/
theorem E_merge {β : Type} [Fintype ι] [DecidableEq ι] [Fintype β] [Nonempty β] (b : ι → Bool) (f : (ι → β) → ℚ) :
    E f = E (fun S => E (fun R => f (merge b S R))) := by
  let e : (ι → β) × (ι → β) ≃ (ι → β) × (ι → β) :=
    { toFun := fun x => (merge b x.1 x.2, merge b x.2 x.1)
      invFun := fun x => (merge b x.1 x.2, merge b x.2 x.1)
      left_inv := fun x => by
        refine Prod.ext (funext fun i => ?_) (funext fun i => ?_) <;> by_cases c : b i = true <;> simp [merge, c]
      right_inv := fun x => by
        refine Prod.ext (funext fun i => ?_) (funext fun i => ?_) <;> by_cases c : b i = true <;> simp [merge, c] }
  have h1 := E_equiv e (fun x => f x.1)
  rw [E_prod (fun x : (ι → β) × (ι → β) => f x.1)] at h1
  simp only [E_const] at h1
  rw [← h1, E_prod]
  rfl

/-- The entry of a finite table, `a` outside. -/
def entry {α : Type} {D : Nat} (a : α) (R : Fin D → α) (p : Nat) : α := if h : p < D then R ⟨p, h⟩ else a

theorem entry_lt {α : Type} {D : Nat} (a : α) (R : Fin D → α) {p : Nat} (h : p < D) : entry a R p = R ⟨p, h⟩ := dif_pos h

/-- The values in `L`, and those of the table elsewhere. -/
def over {γ : Type} (L : List (Nat × γ)) (F : Nat → γ) (p : Nat) : γ := (L.lookup p).getD (F p)

/-- A table that is drawn beforehand and values that are drawn when they are asked for are the same to an attack. -/
theorem table_fresh {α γ : Type} [Fintype α] [Nonempty α] (u : α → γ) (a : α) {D : Nat} {B : Att Nat γ} (hB : Asks (· < D) B) :
    ∀ L, E (fun R : Fin D → α => play (over L fun p => u (entry a R p)) B) = fresh u L B := by
  induction hB with
  | done b =>
    intro L
    simp only [play, fresh]
    exact E_const _
  | @ask p c hp _ ih =>
    intro L
    simp only [play, fresh]
    cases hl : L.lookup p with
    | some y =>
      have e : ∀ F : Nat → γ, over L F p = y := fun F => by rw [over, hl, Option.getD_some]
      simp only [e]
      exact ih y L
    | none =>
      have e : ∀ F : Nat → γ, over L F p = F p := fun F => by rw [over, hl, Option.getD_none]
      simp only [e]
      rw [E_update ⟨p, hp⟩ (fun R : Fin D → α => play (over L fun p => u (entry a R p)) (c (u (entry a R p)))), E_comm]
      refine congrArg E (funext fun k => ?_)
      rw [← ih (u k) ((p, u k) :: L)]
      refine congrArg E (funext fun R => ?_)
      have e1 : entry a (Function.update R ⟨p, hp⟩ k) p = k := by rw [entry_lt _ _ hp, Function.update_self]
      rw [e1]
      congr 1
      funext p'
      unfold over
      by_cases c' : p' = p
      · subst c'
        rw [hl, List.lookup_cons_self, Option.getD_none, Option.getD_some]
        exact congrArg u e1
      · rw [List.lookup_cons, show (p' == p) = false by simpa using c']
        simp only
        congr 2
        unfold entry
        by_cases h : p' < D
        · rw [dif_pos h, dif_pos h, Function.update_of_ne]
          simpa using c'
        · rw [dif_neg h, dif_neg h]

/-- A table of `2 D` values is a table of `D` pairs. -/
theorem E_pairs {α : Type} [Fintype α] {d : Nat} (f : (Fin (2 ^ d) → α × α) → ℚ) :
    E f = E (fun S : Fin (2 ^ (d + 1)) → α =>
      f fun p => (S ⟨2 * p, by have := p.isLt; rw [Nat.pow_succ]; omega⟩,
        S ⟨2 * p + 1, by have := p.isLt; rw [Nat.pow_succ]; omega⟩)) := by
  have hp : 2 ^ (d + 1) = 2 ^ d * 2 := Nat.pow_succ 2 d
  let e : (Fin (2 ^ (d + 1)) → α) ≃ (Fin (2 ^ d) → α × α) :=
    { toFun := fun S p => (S ⟨2 * p, by have := p.isLt; omega⟩, S ⟨2 * p + 1, by have := p.isLt; omega⟩)
      invFun := fun P c => if c.val % 2 = 0 then (P ⟨c / 2, by have := c.isLt; omega⟩).1 else (P ⟨c / 2, by have := c.isLt; omega⟩).2
      left_inv := fun S => by
        funext c
        by_cases h : c.val % 2 = 0
        · simp only [h, if_true]
          congr 1
          ext
          simp only
          omega
        · simp only [h, if_false]
          congr 1
          ext
          simp only
          omega
      right_inv := fun P => by
        funext p
        have h1 : (2 * p.val) / 2 = p.val := by omega
        have h2 : (2 * p.val + 1) / 2 = p.val := by omega
        have h3 : (2 * p.val) % 2 = 0 := by omega
        have h4 : ¬ (2 * p.val + 1) % 2 = 0 := by omega
        simp only [h1, h2, h3, h4, if_true, if_false, Fin.eta] }
  exact (E_equiv e f).symm

/-- A table with one entry. -/
theorem E_single {α : Type} [Fintype α] (f : (Fin (2 ^ 0) → α) → ℚ) : E f = E (fun a => f fun _ => a) := by
  let e : α ≃ (Fin (2 ^ 0) → α) :=
    { toFun := fun a _ => a
      invFun := fun R => R ⟨0, by decide⟩
      left_inv := fun _ => rfl
      right_inv := fun R => by
        funext p
        refine congrArg R (Fin.ext ?_)
        have := p.isLt
        simp only [Nat.pow_zero] at this
        simp only
        omega }
  exact (E_equiv e f).symm

end Verif.Oracle
