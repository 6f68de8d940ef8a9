import Verif.Average
import Mathlib.Algebra.BigOperators.Intervals
import Mathlib.Algebra.BigOperators.Fin
import Mathlib.Tactic.Positivity
import Mathlib.Tactic.NormNum

/-!
# The distribution of a number reduced modulo `N`

`lift M N f` is the average of `f (x % N)` when `x` is uniform below `M`, `flat N f` the average of `f y` when `y` is uniform
below `N`.  The two are at distance exactly `r (N - r) / (M N)`, where `r = M % N`.
-/

namespace Verif.Avg

open Verif

/-- The average of `f` over the numbers below `N`. -/
def flat (N : Nat) (f : Nat → ℚ) : ℚ := (∑ y ∈ Finset.range N, f y) / N

/-- A test: its values are probabilities. -/
def Test {α : Type} (f : α → ℚ) : Prop := ∀ a, 0 ≤ f a ∧ f a ≤ 1

theorem sum_mod (N r : Nat) (f : Nat → ℚ) (hr : r ≤ N) : ∀ q : Nat,
    (∑ x ∈ Finset.range (N * q + r), f (x % N)) = q * (∑ y ∈ Finset.range N, f y) + ∑ y ∈ Finset.range r, f y
  | 0 => by
    rw [Nat.mul_zero, Nat.zero_add, Nat.cast_zero, zero_mul, zero_add]
    rcases Nat.lt_or_ge r N with h | h
    · exact Finset.sum_congr rfl fun x hx => by
        rw [Finset.mem_range] at hx; rw [Nat.mod_eq_of_lt (by omega)]
    · exact Finset.sum_congr rfl fun x hx => by
        rw [Finset.mem_range] at hx; rw [Nat.mod_eq_of_lt (by omega)]
  | q + 1 => by
    have e : N * (q + 1) + r = N + (N * q + r) := by ring
    rw [e, Finset.sum_range_add]
    have h1 : (∑ x ∈ Finset.range (N * q + r), f ((N + x) % N)) = ∑ x ∈ Finset.range (N * q + r), f (x % N) :=
      Finset.sum_congr rfl fun x _ => by rw [Nat.add_mod_left]
    have h2 : (∑ x ∈ Finset.range N, f (x % N)) = ∑ x ∈ Finset.range N, f x :=
      Finset.sum_congr rfl fun x hx => by rw [Finset.mem_range] at hx; rw [Nat.mod_eq_of_lt hx]
    rw [h1, h2, sum_mod N r f hr q]
    push_cast
    ring

/-- The difference of the two averages. -/
theorem lift_sub_flat {M N : Nat} (hN : 0 < N) (hM : 0 < M) (f : Nat → ℚ) :
    flat M (fun x => f (x % N)) - flat N f =
      ((N - (M % N : Nat)) * (∑ y ∈ Finset.range (M % N), f y)
        - (M % N : Nat) * (∑ y ∈ Finset.range (N - M % N), f (M % N + y))) / (M * N) := by
  have hr := Nat.mod_lt M hN
  have hs := sum_mod N (M % N) f hr.le (M / N)
  rw [Nat.div_add_mod] at hs
  have ht : (∑ y ∈ Finset.range N, f y) = (∑ y ∈ Finset.range (M % N), f y) + ∑ y ∈ Finset.range (N - M % N), f (M % N + y) := by
    rw [← Finset.sum_range_add, Nat.add_sub_cancel' hr.le]
  have hq : (M : ℚ) = N * (M / N : Nat) + (M % N : Nat) := by
    exact_mod_cast (Nat.div_add_mod M N).symm
  unfold flat
  rw [hs, ht]
  have hN' : (N : ℚ) ≠ 0 := by exact_mod_cast hN.ne'
  have hM' : (M : ℚ) ≠ 0 := by exact_mod_cast hM.ne'
  rw [div_sub_div _ _ hM' hN']
  congr 1
  generalize (∑ y ∈ Finset.range (M % N), f y) = a
  generalize (∑ y ∈ Finset.range (N - M % N), f (M % N + y)) = b
  generalize ((M / N : Nat) : ℚ) = q at *
  generalize ((M % N : Nat) : ℚ) = r at *
  rw [hq]
  ring

theorem sum_test {f : Nat → ℚ} (hf : Test f) (g : Nat → Nat) (n : Nat) :
    0 ≤ (∑ y ∈ Finset.range n, f (g y)) ∧ (∑ y ∈ Finset.range n, f (g y)) ≤ n := by
  refine ⟨Finset.sum_nonneg fun y _ => (hf _).1, ?_⟩
  calc (∑ y ∈ Finset.range n, f (g y)) ≤ ∑ _y ∈ Finset.range n, (1 : ℚ) := Finset.sum_le_sum fun y _ => (hf _).2
    _ = n := by simp

/-- The distance is at most `r (N - r) / (M N)`. -/
theorem mod_close {M N : Nat} (hN : 0 < N) (hM : 0 < M) {f : Nat → ℚ} (hf : Test f) :
    |flat M (fun x => f (x % N)) - flat N f| ≤ (M % N : Nat) * (N - (M % N : Nat)) / (M * N) := by
  rw [lift_sub_flat hN hM]
  have hr := Nat.mod_lt M hN
  obtain ⟨a1, a2⟩ := sum_test hf id (M % N)
  obtain ⟨b1, b2⟩ := sum_test hf (fun y => M % N + y) (N - M % N)
  rw [Nat.cast_sub hr.le] at b2
  have hN' : (0 : ℚ) < N := by exact_mod_cast hN
  have hM' : (0 : ℚ) < M := by exact_mod_cast hM
  have hr' : ((M % N : Nat) : ℚ) ≤ N := by exact_mod_cast hr.le
  have hr0 : (0 : ℚ) ≤ (M % N : Nat) := Nat.cast_nonneg _
  rw [abs_div, abs_of_pos (mul_pos hM' hN')]
  refine div_le_div_of_nonneg_right ?_ (mul_pos hM' hN').le
  simp only [id] at a1 a2
  generalize (∑ y ∈ Finset.range (M % N), f y) = a at *
  generalize (∑ y ∈ Finset.range (N - M % N), f (M % N + y)) = b at *
  generalize ((M % N : Nat) : ℚ) = r at *
  rw [abs_le]
  constructor <;> nlinarith [mul_nonneg hr0 b1, mul_nonneg (sub_nonneg.2 hr') a1, mul_le_mul_of_nonneg_left b2 hr0,
    mul_le_mul_of_nonneg_left a2 (sub_nonneg.2 hr')]

/-- The test that reaches the distance. -/
def low (r : Nat) (y : Nat) : ℚ := if y < r then 1 else 0

theorem low_test (r : Nat) : Test (low r) := fun y => by unfold low; split <;> norm_num

theorem mod_far {M N : Nat} (hN : 0 < N) (hM : 0 < M) :
    flat M (fun x => low (M % N) (x % N)) - flat N (low (M % N)) = (M % N : Nat) * (N - (M % N : Nat)) / (M * N) := by
  rw [lift_sub_flat hN hM]
  have h1 : (∑ y ∈ Finset.range (M % N), low (M % N) y) = (M % N : Nat) := by
    rw [Finset.sum_congr rfl (g := fun _ => (1 : ℚ)) (fun y hy => by rw [Finset.mem_range] at hy; exact if_pos hy)]
    simp
  have h2 : (∑ y ∈ Finset.range (N - M % N), low (M % N) (M % N + y)) = 0 :=
    Finset.sum_eq_zero fun y _ => if_neg (by omega)
  rw [h1, h2]
  ring

/-- A bound without the remainder. -/
theorem dist_le {M N : Nat} (hN : 0 < N) (hM : 0 < M) :
    ((M % N : Nat) * (N - (M % N : Nat)) / (M * N) : ℚ) ≤ N / (4 * M) := by
  have hN' : (0 : ℚ) < N := by exact_mod_cast hN
  have hM' : (0 : ℚ) < M := by exact_mod_cast hM
  rw [div_le_div_iff₀ (mul_pos hM' hN') (by positivity)]
  generalize ((M % N : Nat) : ℚ) = r
  nlinarith [sq_nonneg ((N : ℚ) - 2 * r), mul_nonneg hM'.le (sq_nonneg ((N : ℚ) - 2 * r))]

/-! ## Uniform bytes as a number -/

theorem toBytes_length {m : Nat} (b : Block m) : (toBytes b).length = m := by simp [toBytes]

/-- The number that uniform bytes write in base 256 is uniform below `256 ^ m`. -/
def number (m : Nat) : Block m ≃ Fin (256 ^ m) where
  toFun b := ⟨beNat (toBytes b), by have := beNat_lt (toBytes b); rwa [toBytes_length] at this⟩
  invFun x := fun i => (beBytes m x).getD i 0
  left_inv b := by
    funext i
    have h := beBytes_beNat (toBytes b)
    rw [toBytes_length] at h
    show (beBytes m (beNat (toBytes b))).getD i 0 = b i
    rw [h]
    simp [toBytes]
  right_inv x := by
    apply Fin.ext
    show beNat (toBytes fun i : Fin m => (beBytes m x).getD i 0) = x
    have h : toBytes (fun i : Fin m => (beBytes m x).getD i 0) = beBytes m x := by
      refine List.ext_getElem (by simp [toBytes]) fun i h1 h2 => ?_
      simp only [toBytes, List.getElem_ofFn]
      rw [List.getD_eq_getElem?_getD, List.getElem?_eq_getElem h2, Option.getD_some]
    rw [h, beNat_beBytes_of_lt x.2]

theorem E_fin (N : Nat) (f : Nat → ℚ) : E (fun x : Fin N => f x) = flat N f := by
  unfold E flat
  rw [Fintype.card_fin, Finset.sum_range]

theorem E_number (m : Nat) (f : Nat → ℚ) : E (fun b : Block m => f (beNat (toBytes b))) = flat (256 ^ m) f := by
  rw [← E_fin, ← E_equiv (number m)]
  rfl

/-! ## Several values -/

/-- Many independent values, each replaced at the cost `ε`. -/
theorem hybrid {α β γ : Type} [Fintype α] [Fintype β] [Nonempty α] [Nonempty β] {u : α → γ} {v : β → γ} {ε : ℚ}
    (h : ∀ f : γ → ℚ, Test f → |E (fun a => f (u a)) - E (fun b => f (v b))| ≤ ε) : ∀ (n : Nat) (D : (Fin n → γ) → ℚ), Test D →
    |E (fun a : Fin n → α => D fun i => u (a i)) - E (fun b : Fin n → β => D fun i => v (b i))| ≤ n * ε
  | 0, D, _ => by
    have h1 : (fun a : Fin 0 → α => D fun i => u (a i)) = fun _ => D Fin.elim0 := funext fun a => congrArg D (funext fun i => i.elim0)
    have h2 : (fun a : Fin 0 → β => D fun i => v (a i)) = fun _ => D Fin.elim0 := funext fun a => congrArg D (funext fun i => i.elim0)
    rw [h1, h2, E_const, E_const]
    simp
  | n + 1, D, hD => by
    have hc : ∀ {δ : Type} (w : δ → γ) (x : δ × (Fin n → δ)),
        (fun i => w (Fin.consEquiv (fun _ : Fin (n + 1) => δ) x i)) = Fin.cons (w x.1) (fun i => w (x.2 i)) := by
      intro δ w x
      funext i
      refine Fin.cases ?_ (fun j => ?_) i
      · rfl
      · rfl
    have e1 : E (fun a : Fin (n + 1) → α => D fun i => u (a i)) =
        E fun a : α => E fun t : Fin n → α => D (Fin.cons (u a) fun i => u (t i)) := by
      rw [← E_equiv (Fin.consEquiv fun _ : Fin (n + 1) => α), E_prod]
      exact congrArg E (funext fun a => congrArg E (funext fun t => congrArg D (hc u (a, t))))
    have e2 : E (fun a : Fin (n + 1) → β => D fun i => v (a i)) =
        E fun a : β => E fun t : Fin n → β => D (Fin.cons (v a) fun i => v (t i)) := by
      rw [← E_equiv (Fin.consEquiv fun _ : Fin (n + 1) => β), E_prod]
      exact congrArg E (funext fun a => congrArg E (funext fun t => congrArg D (hc v (a, t))))
    have h1 : |E (fun a : α => E fun t : Fin n → α => D (Fin.cons (u a) fun i => u (t i)))
        - E (fun a : α => E fun t : Fin n → β => D (Fin.cons (u a) fun i => v (t i)))| ≤ n * ε :=
      abs_E_sub_le _ _ fun a => hybrid h n (fun t => D (Fin.cons (u a) t)) fun t => hD _
    have h2 : |E (fun a : α => E fun t : Fin n → β => D (Fin.cons (u a) fun i => v (t i)))
        - E (fun a : β => E fun t : Fin n → β => D (Fin.cons (v a) fun i => v (t i)))| ≤ ε :=
      h (fun g => E fun t : Fin n → β => D (Fin.cons g fun i => v (t i)))
        fun g => ⟨E_nonneg fun t => (hD _).1, E_le_one fun t => (hD _).2⟩
    rw [e1, e2]
    have := abs_sub_le (E (fun a : α => E fun t : Fin n → α => D (Fin.cons (u a) fun i => u (t i))))
      (E (fun a : α => E fun t : Fin n → β => D (Fin.cons (u a) fun i => v (t i))))
      (E (fun a : β => E fun t : Fin n → β => D (Fin.cons (v a) fun i => v (t i))))
    push_cast
    linarith

end Verif.Avg
