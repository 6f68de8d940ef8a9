import Verif.Oracle

/-!
# Comparing two families of functions by the probabilities of transcripts

If every list of at most `q` questions with answers is nearly as probable with the functions `F ω` as with the functions `G ω`, then no attack that
asks `q` times, each question chosen after the answers to those before, tells the two apart.
-/

namespace Verif.Oracle

open Verif Verif.Avg

open scoped Classical in
/-- The probability of an event. -/
noncomputable def prob {Ω : Type} [Fintype Ω] (p : Ω → Prop) : ℚ := E fun ω => if p ω then 1 else 0

theorem E_sum {α β : Type} [Fintype α] (S : Finset β) (f : α → β → ℚ) : E (fun a => ∑ b ∈ S, f a b) = ∑ b ∈ S, E (fun a => f a b) := by
  unfold E
  rw [Finset.sum_comm, Finset.sum_div]

theorem E_mul {α : Type} [Fintype α] (c : ℚ) (f : α → ℚ) : E (fun a => c * f a) = c * E f := by
  unfold E
  rw [← Finset.mul_sum, mul_div_assoc]

theorem prob_nonneg {Ω : Type} [Fintype Ω] (p : Ω → Prop) : 0 ≤ prob p := E_nonneg fun ω => by split <;> norm_num

theorem prob_mono {Ω : Type} [Fintype Ω] {p r : Ω → Prop} (h : ∀ ω, p ω → r ω) : prob p ≤ prob r :=
  E_mono fun ω => by
    by_cases hp : p ω
    · rw [if_pos hp, if_pos (h ω hp)]
    · rw [if_neg hp]; split <;> norm_num

theorem prob_congr {Ω : Type} [Fintype Ω] {p r : Ω → Prop} (h : ∀ ω, p ω ↔ r ω) : prob p = prob r :=
  le_antisymm (prob_mono fun ω => (h ω).1) (prob_mono fun ω => (h ω).2)

open scoped Classical in
theorem prob_union {Ω κ : Type} [Fintype Ω] (p : Ω → Prop) (C : Finset κ) (r : κ → Ω → Prop) :
    prob (fun ω => p ω ∨ ∃ c ∈ C, r c ω) ≤ prob p + ∑ c ∈ C, prob (r c) := by
  unfold prob
  rw [← E_sum, ← E_add]
  refine E_mono fun ω => ?_
  have h0 : (0 : ℚ) ≤ if p ω then 1 else 0 := by split <;> norm_num
  have nn : ∀ c ∈ C, (0 : ℚ) ≤ if r c ω then 1 else 0 := fun c _ => by split <;> norm_num
  have ns := Finset.sum_nonneg nn
  by_cases h : p ω ∨ ∃ c ∈ C, r c ω
  · rw [if_pos h]
    rcases h with h | ⟨c, hc, h⟩
    · rw [if_pos h] at h0 ⊢
      linarith
    · have := Finset.single_le_sum nn hc
      rw [if_pos h] at this
      linarith
  · rw [if_neg h]
    linarith

theorem prob_not {Ω : Type} [Fintype Ω] [Nonempty Ω] (p : Ω → Prop) : prob p = 1 - prob (fun ω => ¬ p ω) := by
  classical
  have h : prob p + prob (fun ω => ¬ p ω) = E (fun _ : Ω => (1 : ℚ)) := by
    unfold prob
    rw [← E_add]
    congr 1
    funext ω
    by_cases h : p ω
    · rw [if_pos h, if_neg (not_not.2 h), add_zero]
    · rw [if_neg h, if_pos h, zero_add]
  rw [E_const] at h
  linarith

theorem prob_mem {Ω : Type} [Fintype Ω] (S : Finset Ω) : prob (fun ω => ω ∈ S) = S.card / (Fintype.card Ω : ℚ) := by
  classical
  unfold prob E
  congr 1
  have : ∀ ω, (if ω ∈ S then (1 : ℚ) else 0) = @ite _ (ω ∈ S) (Classical.propDecidable _) 1 0 := fun ω => by congr
  simp only [← this]
  rw [Finset.sum_boole]
  congr 2
  ext ω
  simp

theorem prob_zero {Ω : Type} [Fintype Ω] {p : Ω → Prop} (h : ∀ ω, ¬ p ω) : prob p = 0 := by
  unfold prob E
  simp [h]

section
variable {Ω Ω' ι γ : Type} [Fintype Ω] [Fintype Ω'] [Fintype γ]

/-- The function gives the answers `T`. -/
def Fits (F : ι → γ) (T : Finset (ι × γ)) : Prop := ∀ p ∈ T, F p.1 = p.2

open scoped Classical in
theorem step (F : Ω → ι → γ) (v : ℚ → ℚ) (T : Finset (ι × γ)) (s : ι) (c : γ → Att ι γ) :
    E (fun ω => if Fits (F ω) T then v (play (F ω) (.ask s c)) else 0) =
      ∑ y, E (fun ω => if Fits (F ω) (insert (s, y) T) then v (play (F ω) (c y)) else 0) := by
  rw [← E_sum]
  congr 1
  funext ω
  have e : ∀ y, (if Fits (F ω) (insert (s, y) T) then v (play (F ω) (c y)) else 0) =
      if F ω s = y then (if Fits (F ω) T then v (play (F ω) (c y)) else 0) else 0 := by
    intro y
    have : Fits (F ω) (insert (s, y) T) ↔ F ω s = y ∧ Fits (F ω) T := by
      unfold Fits
      rw [Finset.forall_mem_insert]
    by_cases h1 : F ω s = y <;> by_cases h2 : Fits (F ω) T <;> simp [this, h1, h2]
  simp only [e]
  rw [Finset.sum_ite_eq]
  simp [play]

open scoped Classical in
theorem hcoef_aux {F : Ω → ι → γ} {G : Ω' → ι → γ} {ε : ℚ} {q : Nat}
    (h : ∀ T : Finset (ι × γ), T.card ≤ q → (1 - ε) * prob (fun ω => Fits (G ω) T) ≤ prob (fun ω => Fits (F ω) T))
    {v : ℚ → ℚ} (h0 : 0 ≤ v 0) (h1 : 0 ≤ v 1) {k : Nat} {A : Att ι γ} (hA : AtMost k A) : ∀ T : Finset (ι × γ), T.card + k ≤ q →
      (1 - ε) * E (fun ω => if Fits (G ω) T then v (play (G ω) A) else 0) ≤ E (fun ω => if Fits (F ω) T then v (play (F ω) A) else 0) := by
  induction hA with
  | done b =>
    intro T hT
    have e : ∀ {Ω : Type} [Fintype Ω] (F : Ω → ι → γ),
        E (fun ω => if Fits (F ω) T then v (play (F ω) (.done b)) else 0) = v (if b then 1 else 0) * prob (fun ω => Fits (F ω) T) := by
      intro Ω _ F
      unfold prob
      rw [← E_mul]
      congr 1
      funext ω
      simp only [play, mul_ite, mul_one, mul_zero]
    rw [e, e]
    have hv : 0 ≤ v (if b then 1 else 0) := by cases b <;> assumption
    calc (1 - ε) * (v (if b then 1 else 0) * prob (fun ω => Fits (G ω) T))
        = v (if b then 1 else 0) * ((1 - ε) * prob (fun ω => Fits (G ω) T)) := by ring
      _ ≤ _ := mul_le_mul_of_nonneg_left (h T (by omega)) hv
  | @ask k s c _ ih =>
    intro T hT
    rw [step, step, Finset.mul_sum]
    refine Finset.sum_le_sum fun y _ => ih y _ ?_
    have := Finset.card_insert_le (s, y) T
    omega

/-- If transcripts are nearly as probable with `F` as with `G`, attacks do not tell them apart. -/
theorem hcoef [Nonempty Ω] [Nonempty Ω'] {F : Ω → ι → γ} {G : Ω' → ι → γ} {ε : ℚ} (hε : 0 ≤ ε) {q : Nat}
    (h : ∀ T : Finset (ι × γ), T.card ≤ q → (1 - ε) * prob (fun ω => Fits (G ω) T) ≤ prob (fun ω => Fits (F ω) T))
    {A : Att ι γ} (hA : AtMost q A) : |E (fun ω => play (F ω) A) - E (fun ω => play (G ω) A)| ≤ ε := by
  classical
  have e : ∀ {Ω : Type} [Fintype Ω] (F : Ω → ι → γ) (v : ℚ → ℚ),
      E (fun ω => if Fits (F ω) ∅ then v (play (F ω) A) else 0) = E (fun ω => v (play (F ω) A)) := by
    intro Ω _ F v
    congr 1
    funext ω
    rw [if_pos (by intro p hp; simp at hp)]
  have a1 := hcoef_aux h (v := fun x => x) le_rfl zero_le_one hA ∅ (by simp)
  have a2 := hcoef_aux h (v := fun x => 1 - x) (by norm_num) (by norm_num) hA ∅ (by simp)
  have f1 := e F (fun x => x)
  have g1 := e G (fun x => x)
  have f2 := e F (fun x => 1 - x)
  have g2 := e G (fun x => 1 - x)
  rw [f1, g1] at a1
  rw [f2, g2] at a2
  rw [← E_sub, ← E_sub, E_const, E_const] at a2
  have t : ∀ {Ω : Type} [Fintype Ω] [Nonempty Ω] (F : Ω → ι → γ), 0 ≤ E (fun ω => play (F ω) A) ∧ E (fun ω => play (F ω) A) ≤ 1 := by
    intro Ω _ _ F
    have p : ∀ (f : ι → γ) (A : Att ι γ), 0 ≤ play f A ∧ play f A ≤ 1 := by
      intro f A
      induction A with
      | done b => unfold play; split <;> norm_num
      | ask s c ih => exact ih _
    exact ⟨E_nonneg fun ω => (p _ _).1, E_le_one fun ω => (p _ _).2⟩
  obtain ⟨f0, f1⟩ := t F
  obtain ⟨g0, g1⟩ := t G
  rw [abs_le]
  constructor <;> nlinarith

end

end Verif.Oracle
