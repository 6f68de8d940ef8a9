import Mathlib.Algebra.BigOperators.Ring.Finset
import Mathlib.Algebra.Order.BigOperators.Group.Finset
import Mathlib.Algebra.Order.BigOperators.Ring.Finset
import Mathlib.Data.Fintype.BigOperators
import Mathlib.Data.Rat.Cast.Order
import Mathlib.Tactic.Ring
import Mathlib.Tactic.Linarith
import Mathlib.Tactic.FieldSimp
import Mathlib.Algebra.Order.Ring.Rat
import Mathlib.Algebra.BigOperators.Field
import Mathlib.Algebra.Order.Field.Basic

import Mathlib.Data.Fintype.Pi
import Mathlib.Logic.Equiv.Basic
import Mathlib.Data.Fintype.Card
import Mathlib.Data.Finset.Dedup
import Mathlib.Logic.Equiv.Prod
import Mathlib.Logic.Equiv.Fin.Basic
import Verif.Basic

/-!
# Averages over finite types, and strings of a fixed number of uniform bytes
-/

namespace Verif.Avg

open Verif

/-- The average of `f` over a finite type: the expectation of `f` at a uniformly chosen point. -/
def E {α : Type} [Fintype α] (f : α → ℚ) : ℚ := (∑ a, f a) / (Fintype.card α : ℚ)

section average
variable {α β : Type} [Fintype α] [Fintype β]

theorem card_ne [Nonempty α] : (Fintype.card α : ℚ) ≠ 0 := by
  exact_mod_cast Fintype.card_ne_zero

theorem E_const [Nonempty α] (c : ℚ) : E (fun _ : α => c) = c := by
  unfold E
  rw [Finset.sum_const, Finset.card_univ, nsmul_eq_mul, mul_div_assoc, mul_comm, div_mul_cancel₀ _ card_ne]

theorem E_sub (f g : α → ℚ) : E f - E g = E (fun a => f a - g a) := by
  unfold E
  rw [Finset.sum_sub_distrib, sub_div]

theorem E_prod (f : α × β → ℚ) : E f = E (fun a => E (fun b => f (a, b))) := by
  unfold E
  rw [Fintype.sum_prod_type, Fintype.card_prod, ← Finset.sum_div, Nat.cast_mul, div_div, mul_comm]

theorem E_comm (f : α → β → ℚ) : E (fun a => E (fun b => f a b)) = E (fun b => E (fun a => f a b)) := by
  unfold E
  simp only [← Finset.sum_div]
  rw [Finset.sum_comm, div_div, div_div, mul_comm]

theorem E_equiv (e : α ≃ β) (f : β → ℚ) : E (fun a => f (e a)) = E f := by
  unfold E
  rw [Fintype.card_congr e, e.sum_comp f]

theorem abs_E_le [Nonempty α] {f : α → ℚ} {c : ℚ} (h : ∀ a, |f a| ≤ c) : |E f| ≤ c := by
  unfold E
  have hc : (0 : ℚ) < (Fintype.card α : ℚ) := by exact_mod_cast Fintype.card_pos
  rw [abs_div, abs_of_pos hc, div_le_iff₀ hc]
  calc |∑ a, f a| ≤ ∑ a, |f a| := Finset.abs_sum_le_sum_abs _ _
    _ ≤ ∑ _a : α, c := Finset.sum_le_sum fun a _ => h a
    _ = c * (Fintype.card α : ℚ) := by rw [Finset.sum_const, Finset.card_univ, nsmul_eq_mul, mul_comm]

theorem abs_E_sub_le [Nonempty α] (f g : α → ℚ) {c : ℚ} (h : ∀ a, |f a - g a| ≤ c) : |E f - E g| ≤ c := by
  rw [E_sub]
  exact abs_E_le h

theorem E_add (f g : α → ℚ) : E (fun a => f a + g a) = E f + E g := by
  unfold E
  rw [Finset.sum_add_distrib, add_div]

theorem E_mono {f g : α → ℚ} (h : ∀ a, f a ≤ g a) : E f ≤ E g := by
  unfold E
  exact div_le_div_of_nonneg_right (Finset.sum_le_sum fun a _ => h a) (Nat.cast_nonneg _)

theorem E_nonneg {f : α → ℚ} (h : ∀ a, 0 ≤ f a) : 0 ≤ E f := by
  unfold E
  exact div_nonneg (Finset.sum_nonneg fun a _ => h a) (Nat.cast_nonneg _)

theorem E_le_one [Nonempty α] {f : α → ℚ} (h : ∀ a, f a ≤ 1) : E f ≤ 1 := by
  have := E_mono (g := fun _ => (1 : ℚ)) h
  rwa [E_const] at this

theorem abs_E_sub_le_E (f g h : α → ℚ) (hh : ∀ a, |f a - g a| ≤ h a) : |E f - E g| ≤ E h := by
  rw [E_sub]
  unfold E
  rw [abs_div, abs_of_nonneg (Nat.cast_nonneg (α := ℚ) (Fintype.card α))]
  exact div_le_div_of_nonneg_right (le_trans (Finset.abs_sum_le_sum_abs _ _) (Finset.sum_le_sum fun a _ => hh a))
    (Nat.cast_nonneg _)

/-- The probability to hit a list. -/
theorem E_mem_le [DecidableEq α] (U : List α) :
    E (fun a : α => if U.contains a then (1 : ℚ) else 0) ≤ U.length / (Fintype.card α : ℚ) := by
  unfold E
  refine div_le_div_of_nonneg_right ?_ (Nat.cast_nonneg _)
  rw [Finset.sum_boole]
  have : (Finset.univ.filter fun a : α => U.contains a = true) ⊆ U.toFinset := by
    intro a ha
    simpa using ha
  exact_mod_cast le_trans (Finset.card_le_card this) (List.toFinset_card_le U)

/-- A uniform function at one point is uniform and independent of the rest. -/
theorem E_update {ι : Type} [Fintype ι] [DecidableEq ι] [Nonempty β] (i : ι) (F : (ι → β) → ℚ) :
    E F = E (fun R : ι → β => E (fun K : β => F (Function.update R i K))) := by
  let e := (Equiv.funSplitAt i β).symm
  have hu : ∀ (b K : β) (g : { j // j ≠ i } → β), Function.update (e (b, g)) i K = e (K, g) := by
    intro b K g
    funext j
    by_cases h : j = i
    · subst h
      simp [e, Equiv.funSplitAt, Equiv.piSplitAt]
    · simp [e, Equiv.funSplitAt, Equiv.piSplitAt, h]
  rw [← E_equiv e F, ← E_equiv e (fun R => E (fun K : β => F (Function.update R i K))), E_prod, E_prod]
  simp only [hu]
  rw [E_const, E_comm]

end average

instance : Fintype UInt8 := Fintype.ofEquiv (Fin 256) ⟨UInt8.ofFin, UInt8.toFin, fun _ => rfl, fun _ => rfl⟩

/-- `m` bytes. -/
abbrev Block (m : Nat) : Type := Fin m → UInt8

theorem card_block (m : Nat) : Fintype.card (Block m) = 256 ^ m := by
  have : Fintype.card UInt8 = 256 := by
    rw [Fintype.card_congr (⟨UInt8.toFin, UInt8.ofFin, fun _ => rfl, fun _ => rfl⟩ : UInt8 ≃ Fin 256), Fintype.card_fin]
  rw [Fintype.card_fun, this, Fintype.card_fin]

def toBytes {m : Nat} (b : Block m) : Bytes := List.ofFn b

end Verif.Avg
