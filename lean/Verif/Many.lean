import Verif.Lazy

/-!
# Attacks on several objects at once

Nothing in this file speaks of the code.
-/

namespace Verif.Many

open Verif.Avg Verif.Oracle

variable {n : Nat} {ι γ K W : Type}

/-- The attack asks object `i` at most `q` times. -/
inductive AtMostFor (i : Fin n) : Nat → Att (Fin n × ι) γ → Prop
  | done {q : Nat} (b : Bool) : AtMostFor i q (.done b)
  | here {q : Nat} {a : ι} {c : γ → Att (Fin n × ι) γ} : (∀ y, AtMostFor i q (c y)) → AtMostFor i (q + 1) (.ask (i, a) c)
  | there {q : Nat} {j : Fin n} {a : ι} {c : γ → Att (Fin n × ι) γ} : j ≠ i → (∀ y, AtMostFor i q (c y)) → AtMostFor i q (.ask (j, a) c)

/-- The attack on object `i` alone when `H` answers for the others. -/
def only (i : Fin n) (H : Fin n × ι → γ) : Att (Fin n × ι) γ → Att ι γ
  | .done b => .done b
  | .ask p c => if p.1 = i then .ask p.2 fun y => only i H (c y) else only i H (c (H p))

/-- Several objects with keys. -/
def several (F : Fin n → K → ι → γ) (k : Fin n → K) (p : Fin n × ι) : γ := F p.1 (k p.1) p.2

/-- The objects below `t` are ideal, the others are real. -/
def mixed (F : Fin n → K → ι → γ) (G : Fin n → W → ι → γ) (t : Nat) (k : Fin n → K) (w : Fin n → W) (p : Fin n × ι) : γ :=
  if p.1.1 < t then G p.1 (w p.1) p.2 else F p.1 (k p.1) p.2

theorem play_only (i : Fin n) (H : Fin n × ι → γ) (f : ι → γ) (H' : Fin n × ι → γ) (h1 : ∀ a, H' (i, a) = f a) (h2 : ∀ p, p.1 ≠ i → H' p = H p) :
    ∀ A : Att (Fin n × ι) γ, play f (only i H A) = play H' A
  | .done _ => rfl
  | .ask p c => by
    unfold only
    by_cases h : p.1 = i
    · rw [if_pos h, play, play]
      have : H' p = f p.2 := by rw [← h1, ← h]
      rw [this]
      exact play_only i H f H' h1 h2 _
    · rw [if_neg h, play, h2 p h]
      exact play_only i H f H' h1 h2 _

theorem atMost_only {i : Fin n} (H : Fin n × ι → γ) {q : Nat} {A : Att (Fin n × ι) γ} (hA : AtMostFor i q A) : AtMost q (only i H A) := by
  induction hA with
  | done b => exact .done b
  | here _ ih =>
    unfold only
    rw [if_pos rfl]
    exact .ask ih
  | there h _ ih =>
    unfold only
    rw [if_neg h]
    exact ih _

theorem asks_only (i : Fin n) (H : Fin n × ι → γ) {P : Fin n × ι → Prop} {A : Att (Fin n × ι) γ} (hA : Asks P A) : Asks (fun a => P (i, a)) (only i H A) := by
  induction hA with
  | done b => exact .done b
  | @ask p c hp _ ih =>
    unfold only
    by_cases h : p.1 = i
    · rw [if_pos h]
      refine .ask ?_ ih
      rw [← h]
      exact hp
    · rw [if_neg h]
      exact ih _

variable [Fintype K] [Nonempty K] [Fintype W] [Nonempty W]

/-- How well `A` tells real objects from ideal ones. -/
noncomputable def adv (F : K → ι → γ) (G : W → ι → γ) (A : Att ι γ) : ℚ := |E (fun k => play (F k) A) - E (fun w => play (G w) A)|

/-- Several objects are told from ideal ones at most as well as, one after the other, one of them is. -/
theorem hybrid (F : Fin n → K → ι → γ) (G : Fin n → W → ι → γ) (A : Att (Fin n × ι) γ) :
    |E (fun k : Fin n → K => play (several F k) A) - E (fun w : Fin n → W => play (several G w) A)| ≤
      ∑ i : Fin n, E (fun k : Fin n → K => E (fun w : Fin n → W => adv (F i) (G i) (only i (mixed F G i k w) A))) := by
  let h : Nat → ℚ := fun t => E (fun k : Fin n → K => E (fun w : Fin n → W => play (mixed F G t k w) A))
  have h0 : h 0 = E (fun k : Fin n → K => play (several F k) A) := by
    refine congrArg E (funext fun k => ?_)
    have : ∀ w : Fin n → W, mixed F G 0 k w = several F k := fun w => funext fun p => if_neg (Nat.not_lt_zero _)
    simp only [this, E_const]
  have hn : h n = E (fun w : Fin n → W => play (several G w) A) := by
    have : ∀ (k : Fin n → K) (w : Fin n → W), mixed F G n k w = several G w := fun k w => funext fun p => if_pos p.1.2
    simp only [h, this, E_const]
  have step : ∀ i : Fin n, |h i.1 - h (i.1 + 1)| ≤
      E (fun k : Fin n → K => E (fun w : Fin n → W => adv (F i) (G i) (only i (mixed F G i k w) A))) := by
    intro i
    have e1 : h i.1 = E (fun k : Fin n → K => E (fun w : Fin n → W => E (fun x => play (F i x) (only i (mixed F G i k w) A)))) := by
      show E (fun k : Fin n → K => E (fun w : Fin n → W => play (mixed F G i k w) A)) = _
      rw [E_update i]
      refine congrArg E (funext fun k => ?_)
      rw [E_comm]
      refine congrArg E (funext fun w => congrArg E (funext fun x => ?_))
      refine (play_only i _ _ _ (fun a => ?_) (fun p hp => ?_) A).symm
      · show (if i.1 < i.1 then _ else _) = _
        rw [if_neg (Nat.lt_irrefl _)]
        show F i (Function.update k i x i) a = _
        rw [Function.update_self]
      · unfold mixed
        rw [Function.update_of_ne hp]
    have e2 : h (i.1 + 1) = E (fun k : Fin n → K => E (fun w : Fin n → W => E (fun x => play (G i x) (only i (mixed F G i k w) A)))) := by
      show E (fun k : Fin n → K => E (fun w : Fin n → W => play (mixed F G (i + 1) k w) A)) = _
      refine congrArg E (funext fun k => ?_)
      rw [E_update i]
      refine congrArg E (funext fun w => congrArg E (funext fun x => ?_))
      refine (play_only i _ _ _ (fun a => ?_) (fun p hp => ?_) A).symm
      · show (if i.1 < i.1 + 1 then _ else _) = _
        rw [if_pos (Nat.lt_succ_self _)]
        show G i (Function.update w i x i) a = _
        rw [Function.update_self]
      · unfold mixed
        rw [Function.update_of_ne hp]
        have hne : p.1.1 ≠ i.1 := fun e => hp (Fin.ext e)
        by_cases c : p.1.1 < i.1
        · rw [if_pos c, if_pos (by omega)]
        · rw [if_neg c, if_neg (by omega)]
    rw [e1, e2]
    exact abs_E_sub_le_E _ _ _ fun k => abs_E_sub_le_E _ _ _ fun w => le_refl _
  have tel : ∀ t ≤ n, |h 0 - h t| ≤ ∑ i : Fin n, if i.1 < t then E (fun k : Fin n → K => E (fun w : Fin n → W => adv (F i) (G i) (only i (mixed F G i k w) A))) else 0 := by
    intro t
    induction t with
    | zero => intro _; simp
    | succ t ih =>
      intro ht
      have h1 := ih (by omega)
      have h2 := step ⟨t, by omega⟩
      have h3 : |h 0 - h (t + 1)| ≤ |h 0 - h t| + |h t - h (t + 1)| := abs_sub_le _ _ _
      refine le_trans h3 (le_trans (add_le_add h1 h2) (le_of_eq ?_))
      have hs : ∀ i : Fin n, ∀ x : ℚ, (if i.1 < t + 1 then x else 0) = (if i.1 < t then x else 0) + (if i = ⟨t, by omega⟩ then x else 0) := by
        intro i x
        by_cases c1 : i.1 < t
        · rw [if_pos c1, if_pos (by omega), if_neg (fun e => by rw [e] at c1; exact Nat.lt_irrefl _ c1), add_zero]
        · by_cases c2 : i.1 = t
          · rw [if_neg c1, if_pos (by omega), if_pos (Fin.ext c2), zero_add]
          · rw [if_neg c1, if_neg (by omega), if_neg (fun e => c2 (congrArg Fin.val e)), zero_add]
      simp only [hs]
      rw [Finset.sum_add_distrib, Finset.sum_ite_eq' Finset.univ (⟨t, by omega⟩ : Fin n), if_pos (Finset.mem_univ _)]
  have := tel n (le_refl n)
  rw [h0, hn] at this
  refine le_trans this (le_of_eq ?_)
  exact Finset.sum_congr rfl fun i _ => if_pos i.2

/-- A table for the points with `P` that is drawn beforehand. -/
def row {P : ι → Prop} [DecidablePred P] (a : γ) (R : { s // P s } → γ) (s : ι) : γ := if h : P s then R ⟨s, h⟩ else a

/-- The values in `L`, and those of the table elsewhere. -/
def overRow [BEq ι] {δ : Type} (L : List (ι × δ)) (F : ι → δ) (p : ι) : δ := (L.lookup p).getD (F p)

/-- A table that is drawn beforehand and values that are drawn when they are asked for are the same to an attack. -/
theorem row_fresh [BEq ι] [LawfulBEq ι] [DecidableEq ι] {P : ι → Prop} [DecidablePred P] [Fintype { s // P s }] {α : Type} [Fintype α] [Nonempty α] (u : α → γ) (a : α) {B : Att ι γ}
    (hB : Asks P B) : ∀ L, E (fun R : { s // P s } → α => play (overRow L fun p => u (row a R p)) B) = fresh u L B := by
  induction hB with
  | done b =>
    intro L
    simp only [play, fresh]
    exact E_const _
  | @ask p c hp _ ih =>
    intro L
    simp only [play, fresh]
    cases hl : L.lookup p with
    | some y =>
      have e : ∀ F : ι → γ, overRow L F p = y := fun F => by rw [overRow, hl, Option.getD_some]
      simp only [e]
      exact ih y L
    | none =>
      have e : ∀ F : ι → γ, overRow L F p = F p := fun F => by rw [overRow, hl, Option.getD_none]
      simp only [e]
      rw [E_update ⟨p, hp⟩ (fun R : { s // P s } → α => play (overRow L fun p => u (row a R p)) (c (u (row a R p)))), E_comm]
      refine congrArg E (funext fun k => ?_)
      rw [← ih (u k) ((p, u k) :: L)]
      refine congrArg E (funext fun R => ?_)
      have e1 : row a (Function.update R ⟨p, hp⟩ k) p = k := by rw [row, dif_pos hp, Function.update_self]
      rw [e1]
      congr 1
      funext p'
      unfold overRow
      by_cases c' : p' = p
      · subst c'
        rw [hl, List.lookup_cons_self, Option.getD_none, Option.getD_some]
        exact congrArg u e1
      · rw [List.lookup_cons, show (p' == p) = false by simpa using c']
        simp only
        congr 2
        unfold row
        by_cases h : P p'
        · rw [dif_pos h, dif_pos h, Function.update_of_ne]
          simpa using c'
        · rw [dif_neg h, dif_neg h]

end Verif.Many
