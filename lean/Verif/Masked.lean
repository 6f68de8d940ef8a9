import Verif.Wide

/-!
# One random function behind masks

A function that is asked at points which depend on a secret is as good as independent functions, unless two points meet.
-/

namespace Verif.Masked

open Verif Verif.Avg Verif.Oracle

variable {Ω κ ι X : Type} [Fintype Ω] [Nonempty Ω] [Fintype κ] [DecidableEq κ] [Fintype ι] [DecidableEq ι] [Fintype X] [Nonempty X] [DecidableEq X]

/-- A random table takes given values at different points with the product of the probabilities. -/
theorem hit {β : Type} (C : Finset β) (p : β → κ) (v : β → X) (hp : Set.InjOn p C) :
    prob (fun f : κ → X => ∀ c ∈ C, f (p c) = v c) = (1 / Fintype.card X) ^ C.card := by
  classical
  let S : κ → Finset X := fun a => Finset.univ.filter fun b => ∀ c ∈ C, p c = a → b = v c
  have e1 : ∀ f : κ → X, (∀ c ∈ C, f (p c) = v c) ↔ f ∈ Fintype.piFinset S := by
    intro f
    simp only [Finset.mem_filter, Finset.mem_univ, true_and, Fintype.mem_piFinset, S]
    constructor
    · intro h a c hc e
      subst e
      exact h c hc
    · intro h c hc
      exact h (p c) c hc rfl
  have e2 : prob (fun f : κ → X => ∀ c ∈ C, f (p c) = v c) = ∏ a, ((S a).card : ℚ) / (Fintype.card X : ℚ) := by
    rw [prob_congr e1, prob_mem, Fintype.card_piFinset, Fintype.card_pi, Finset.prod_div_distrib]
    push_cast
    rfl
  rw [e2]
  have e3 : ∀ a, a ∉ C.image p → ((S a).card : ℚ) / (Fintype.card X : ℚ) = 1 := by
    intro a ha
    have : S a = Finset.univ := by
      ext b
      simp only [Finset.mem_filter, Finset.mem_univ, true_and, iff_true, S]
      intro c hc e
      exact absurd (Finset.mem_image.2 ⟨c, hc, e⟩) ha
    rw [this, Finset.card_univ]
    exact div_self card_ne
  rw [← Finset.prod_subset (Finset.subset_univ (C.image p)) (fun a _ ha => e3 a ha), Finset.prod_image hp, ← Finset.prod_const]
  refine Finset.prod_congr rfl fun c hc => ?_
  have : S (p c) = {v c} := by
    ext b
    simp only [Finset.mem_filter, Finset.mem_univ, true_and, Finset.mem_singleton, S]
    constructor
    · intro h
      exact h c hc rfl
    · rintro rfl c' hc' e
      rw [hp hc' hc e]
  rw [this, Finset.card_singleton, Nat.cast_one]

omit [DecidableEq X] in
/-- An event that one coordinate decides. -/
theorem prob_coord {p : (κ → X) → Prop} (i : κ) (h : ∀ ω b b', p (Function.update ω i b) → p (Function.update ω i b') → b = b') :
    prob p ≤ 1 / Fintype.card X := by
  classical
  unfold prob
  rw [E_update i]
  have hc : (0 : ℚ) ≤ 1 / Fintype.card X := by positivity
  refine le_trans (E_mono (g := fun _ => 1 / (Fintype.card X : ℚ)) fun ω => ?_) (le_of_eq (E_const _))
  by_cases hb : ∃ b, p (Function.update ω i b)
  · obtain ⟨b, hb⟩ := hb
    have := prob_mem ({b} : Finset X)
    rw [Finset.card_singleton, Nat.cast_one] at this
    rw [← this]
    unfold prob
    refine E_mono fun b' => ?_
    by_cases h' : p (Function.update ω i b')
    · rw [if_pos h', if_pos (Finset.mem_singleton.2 (h ω b' b h' hb))]
    · rw [if_neg h']
      split <;> norm_num
  · have e : ∀ b, ¬ p (Function.update ω i b) := fun b hp => hb ⟨b, hp⟩
    have := prob_zero e
    unfold prob at this
    rw [this]
    exact hc

theorem prob_fst {α β : Type} [Fintype α] [Fintype β] [Nonempty β] {p : α × β → Prop} {c : ℚ} (h : ∀ b, prob (fun a => p (a, b)) ≤ c) : prob p ≤ c := by
  unfold prob at *
  rw [E_prod, E_comm]
  exact le_trans (E_mono h) (le_of_eq (E_const c))

theorem prob_snd {α β : Type} [Fintype α] [Fintype β] [Nonempty α] {p : α × β → Prop} {c : ℚ} (h : ∀ a, prob (fun b => p (a, b)) ≤ c) : prob p ≤ c := by
  unfold prob at *
  rw [E_prod]
  exact le_trans (E_mono h) (le_of_eq (E_const c))

theorem half_mono {a b : Nat} (h : a ≤ b) {c : ℚ} (hc : 0 ≤ c) : (a : ℚ) * (a - 1) / 2 * c ≤ (b : ℚ) * (b - 1) / 2 * c := by
  refine mul_le_mul_of_nonneg_right ?_ hc
  rcases Nat.eq_zero_or_pos a with rfl | ha
  · rcases Nat.eq_zero_or_pos b with rfl | hb
    · exact le_rfl
    · have : (1 : ℚ) ≤ b := by exact_mod_cast hb
      push_cast
      nlinarith
  · have h1 : (1 : ℚ) ≤ a := by exact_mod_cast ha
    have h2 : (a : ℚ) ≤ b := by exact_mod_cast h
    nlinarith

theorem half_nonneg (q : Nat) {c : ℚ} (hc : 0 ≤ c) : (0 : ℚ) ≤ (q : ℚ) * (q - 1) / 2 * c := by
  have := half_mono (Nat.zero_le q) hc
  push_cast at this
  linarith

/-- No two points of the transcript meet. -/
def Good (pt : Ω → ι → κ) (bad : Ω → Prop) (out : Ω → ι → Prop) (T : Finset (ι × X)) (ω : Ω) : Prop :=
  ¬ bad ω ∧ (∀ t ∈ T, ¬ out ω t.1) ∧ Set.InjOn (fun t : ι × X => pt ω t.1) T

section
variable {pt : Ω → ι → κ} {bad : Ω → Prop} {out : Ω → ι → Prop} {T : Finset (ι × X)}

omit [Fintype Ω] [Nonempty Ω] [Fintype κ] [Fintype ι] [Fintype X] [Nonempty X] in
theorem good_cases {ω : Ω} (hg : ¬ Good pt bad out T ω) : bad ω ∨ (True ∧ ∃ t ∈ T.toList, out ω t.1) ∨
    (True ∧ ¬ T.toList.Pairwise (fun t t' => pt ω t.1 ≠ pt ω t'.1)) := by
  by_contra hn
  rw [not_or, not_or] at hn
  obtain ⟨n1, n2, n3⟩ := hn
  have n3 : T.toList.Pairwise (fun t t' => pt ω t.1 ≠ pt ω t'.1) := by
    by_contra h
    exact n3 ⟨trivial, h⟩
  refine hg ⟨n1, fun t ht ho => n2 ⟨trivial, t, Finset.mem_toList.2 ht, ho⟩, ?_⟩
  intro t ht t' ht' he
  by_contra hne
  have : Std.Symm (fun t t' : ι × X => pt ω t.1 ≠ pt ω t'.1) := ⟨fun _ _ h => h.symm⟩
  exact n3.forall (Finset.mem_toList.2 ht) (Finset.mem_toList.2 ht') hne he

omit [Fintype κ] [Fintype ι] [Fintype X] [Nonempty X] in
theorem good_ge {β δ c : ℚ} (hδ : 0 ≤ δ) (hc : 0 ≤ c)
    (hpt : ∀ a a', a ≠ a' → prob (fun ω => pt ω a = pt ω a') ≤ c) (hout : ∀ a, prob (fun ω => out ω a) ≤ δ) (hbad : prob bad ≤ β)
    {q : Nat} (hT : T.card ≤ q) (hinj : Set.InjOn (Prod.fst : ι × X → ι) T) :
    1 - (β + q * δ + (q : ℚ) * (q - 1) / 2 * c) ≤ prob (Good pt bad out T) := by
  have h1 := prob_mono (p := fun ω => ¬ Good pt bad out T ω) fun ω => good_cases
  have h2 := Wide.prob_or bad (fun ω => (True ∧ ∃ t ∈ T.toList, out ω t.1) ∨ (True ∧ ¬ T.toList.Pairwise (fun t t' => pt ω t.1 ≠ pt ω t'.1)))
  have h3 := Wide.prob_or (fun ω => True ∧ ∃ t ∈ T.toList, out ω t.1) (fun ω => True ∧ ¬ T.toList.Pairwise (fun t t' => pt ω t.1 ≠ pt ω t'.1))
  have h4 := Wide.prob_exists (p := fun _ : Ω => True) (r := fun (t : ι × X) ω => out ω t.1) (c := δ) T.toList
    (fun t _ => le_trans (prob_mono fun ω h => h.2) (hout t.1))
  have h5 := Wide.prob_pairs (p := fun _ : Ω => True) (R := fun ω (t t' : ι × X) => pt ω t.1 ≠ pt ω t'.1) (c := c) T.toList (by
    refine List.Pairwise.imp_of_mem ?_ (Finset.nodup_toList T)
    intro t t' ht ht' hne
    refine le_trans (prob_mono fun ω h => not_not.1 h.2) (hpt t.1 t'.1 fun he => hne (hinj (Finset.mem_toList.1 ht) (Finset.mem_toList.1 ht') he)))
  rw [Finset.length_toList] at h4 h5
  have h6 := half_mono hT hc
  have h7 : (T.card : ℚ) * δ ≤ q * δ := mul_le_mul_of_nonneg_right (by exact_mod_cast hT) hδ
  have h8 := prob_not (Good pt bad out T)
  linarith

omit [Nonempty Ω] in
theorem low {F : Ω × (κ → X) → ι → X} {post : Ω → ι → Equiv.Perm X}
    (hF : ∀ ω f a, ¬ bad ω → ¬ out ω a → F (ω, f) a = post ω a (f (pt ω a))) :
    prob (Good pt bad out T) * (1 / Fintype.card X) ^ T.card ≤ prob (fun p : Ω × (κ → X) => Fits (F p) T) := by
  classical
  unfold prob
  rw [E_prod, mul_comm, ← E_mul]
  refine E_mono fun ω => ?_
  by_cases hg : Good pt bad out T ω
  · rw [if_pos hg, mul_one]
    have := hit T (fun t : ι × X => pt ω t.1) (fun t => (post ω t.1).symm t.2) hg.2.2
    rw [← this]
    unfold prob
    refine E_mono fun f => ?_
    by_cases hf : ∀ t ∈ T, f (pt ω t.1) = (post ω t.1).symm t.2
    · have hfit : Fits (F (ω, f)) T := by
        intro t ht
        rw [hF ω f t.1 hg.1 (hg.2.1 t ht), hf t ht, Equiv.apply_symm_apply]
      rw [if_pos hf, if_pos hfit]
    · rw [if_neg hf]
      split <;> norm_num
  · rw [if_neg hg, mul_zero]
    exact prob_nonneg (fun f : κ → X => Fits (F (ω, f)) T)

end

/-- `F` asks one table at points that depend on `ω`, apart from questions that are `out`, and unless `ω` is `bad`. -/
theorem close {F : Ω × (κ → X) → ι → X} {pt : Ω → ι → κ} {post : Ω → ι → Equiv.Perm X} {bad : Ω → Prop} {out : Ω → ι → Prop}
    (hF : ∀ ω f a, ¬ bad ω → ¬ out ω a → F (ω, f) a = post ω a (f (pt ω a))) {β δ c : ℚ} (hβ : 0 ≤ β) (hδ : 0 ≤ δ) (hc : 0 ≤ c)
    (hpt : ∀ a a', a ≠ a' → prob (fun ω => pt ω a = pt ω a') ≤ c) (hout : ∀ a, prob (fun ω => out ω a) ≤ δ) (hbad : prob bad ≤ β)
    {q : Nat} {A : Att ι X} (hA : AtMost q A) :
    |E (fun p : Ω × (κ → X) => play (F p) A) - E (fun ρ : ι → X => play ρ A)| ≤ β + q * δ + (q : ℚ) * (q - 1) / 2 * c := by
  have hq := half_nonneg q hc
  refine hcoef (by positivity) ?_ hA
  intro T hT
  by_cases hinj : Set.InjOn (Prod.fst : ι × X → ι) T
  · have e : prob (fun ρ : ι → X => Fits ρ T) = (1 / Fintype.card X) ^ T.card := hit T Prod.fst Prod.snd hinj
    rw [e]
    exact le_trans (mul_le_mul_of_nonneg_right (good_ge hδ hc hpt hout hbad hT hinj) (by positivity)) (low hF)
  · have e : prob (fun ρ : ι → X => Fits ρ T) = 0 := by
      apply prob_zero
      intro ρ hρ
      apply hinj
      intro t ht t' ht' he
      refine Prod.ext he ?_
      rw [← hρ t ht, ← hρ t' ht', he]
    rw [e, mul_zero]
    exact prob_nonneg _

end Verif.Masked
