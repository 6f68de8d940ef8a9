import Verif.Hcoef
import Mathlib.Algebra.Group.Pi.Basic
import Mathlib.Algebra.Group.End
import Mathlib.Algebra.Group.Units.Equiv
import Mathlib.Algebra.Notation.Pi.Basic
import Mathlib.GroupTheory.Perm.Basic
import Mathlib.Data.Fintype.Perm
import Mathlib.Data.Fintype.Sigma

/-!
# Four rounds of a Feistel network with random round functions

A family of permutations, one on the pairs of elements of each `V i`.  Four rounds with independent random round functions, followed by any other
permutations, cannot be told from independent random permutations by an attack that asks `q` questions in both directions, up to
`q (q - 1) / N + q (q - 1) / (2 M)`, where each `V i` has at least `N` elements and each set of pairs at least `M`.
-/

namespace Verif.Feistel

set_option linter.unusedSectionVars false

open Verif Verif.Avg Verif.Oracle

variable {I : Type} [Fintype I] [DecidableEq I] (V : I → Type) [∀ i, Fintype (V i)] [∀ i, DecidableEq (V i)] [∀ i, Nonempty (V i)]

/-- Where round functions are evaluated. -/
abbrev Pt := Σ i, V i
/-- A round function for all `i`. -/
abbrev Fn := ∀ p : Pt V, V p.1
/-- A permutation for each `i`. -/
abbrev Fam := ∀ i, Equiv.Perm (V i × V i)
/-- A message. -/
abbrev Msg := Σ i, V i × V i
/-- A message with its image. -/
abbrev Pair := Σ i, (V i × V i) × (V i × V i)

variable {V}

/-- The answers to questions in both directions. -/
def answer (P : Fam V) : Bool × Msg V → Msg V
  | (false, s) => ⟨s.1, P s.1 s.2⟩
  | (true, s) => ⟨s.1, (P s.1).symm s.2⟩

/-- The family maps the messages of `C` to their images. -/
def Maps (P : Fam V) (C : Finset (Pair V)) : Prop := ∀ c ∈ C, P c.1 c.2.1 = c.2.2

/-! ## Transcripts as sets of pairs -/

/-- The pair that a question with its answer stands for. -/
def toPair (t : (Bool × Msg V) × Msg V) : Option (Pair V) :=
  if h : t.2.1 = t.1.2.1 then
    some (if t.1.1 then ⟨t.1.2.1, h ▸ t.2.2, t.1.2.2⟩ else ⟨t.1.2.1, t.1.2.2, h ▸ t.2.2⟩)
  else none

theorem fits_one (P : Fam V) (t : (Bool × Msg V) × Msg V) : answer P t.1 = t.2 ↔ ∃ c, toPair t = some c ∧ P c.1 c.2.1 = c.2.2 := by
  obtain ⟨⟨d, i, a⟩, j, b⟩ := t
  unfold toPair
  by_cases h : j = i
  · subst h
    simp only [dite_true]
    cases d
    · simp only [answer, Bool.false_eq_true, if_false, Option.some.injEq, exists_eq_left']
      simp
    · simp only [answer, if_true, Option.some.injEq, exists_eq_left']
      rw [Sigma.mk.inj_iff]
      simp only [heq_eq_eq, true_and]
      rw [Equiv.symm_apply_eq]
      exact eq_comm
  · simp only [h, dite_false]
    constructor
    · intro e
      cases d <;> · simp only [answer] at e; exact absurd (Sigma.mk.inj_iff.1 e).1.symm h
    · rintro ⟨c, hc, -⟩
      simp at hc

open scoped Classical in
/-- The pairs of a transcript. -/
noncomputable def pairsOf (T : Finset ((Bool × Msg V) × Msg V)) : Finset (Pair V) := Finset.univ.filter fun c => ∃ t ∈ T, toPair t = some c

theorem pairsOf_card (T : Finset ((Bool × Msg V) × Msg V)) : (pairsOf T).card ≤ T.card := by
  classical
  have h : (pairsOf T).image some ⊆ T.image toPair := by
    intro o ho
    obtain ⟨c, hc, rfl⟩ := Finset.mem_image.1 ho
    obtain ⟨t, ht, e⟩ := (Finset.mem_filter.1 hc).2
    exact Finset.mem_image.2 ⟨t, ht, e⟩
  rw [← Finset.card_image_of_injective (pairsOf T) (Option.some_injective _)]
  exact le_trans (Finset.card_le_card h) Finset.card_image_le

theorem fits_maps {P : Fam V} {T : Finset ((Bool × Msg V) × Msg V)} (h : Fits (answer P) T) : Maps P (pairsOf T) := by
  intro c hc
  obtain ⟨t, ht, e⟩ := (Finset.mem_filter.1 hc).2
  obtain ⟨c', e', h'⟩ := (fits_one P t).1 (h t ht)
  rw [e] at e'
  cases e'
  exact h'

theorem maps_fits {P P' : Fam V} {T : Finset ((Bool × Msg V) × Msg V)} (h0 : Fits (answer P') T) (h : Maps P (pairsOf T)) : Fits (answer P) T := by
  intro t ht
  obtain ⟨c, e, -⟩ := (fits_one P' t).1 (h0 t ht)
  exact (fits_one P t).2 ⟨c, e, h c (Finset.mem_filter.2 ⟨Finset.mem_univ _, t, ht, e⟩)⟩

/-! ## Random permutations -/

/-- Different messages have different images, and conversely. -/
def Inj (C : Finset (Pair V)) : Prop :=
  ∀ c ∈ C, ∀ c' ∈ C, ((⟨c.1, c.2.1⟩ : Msg V) = ⟨c'.1, c'.2.1⟩ ∨ (⟨c.1, c.2.2⟩ : Msg V) = ⟨c'.1, c'.2.2⟩) → c = c'

theorem maps_inj {P : Fam V} {C : Finset (Pair V)} (h : Maps P C) : Inj C := by
  rintro ⟨i, x, y⟩ hc ⟨j, x', y'⟩ hc' e
  have h1 := h _ hc
  have h2 := h _ hc'
  simp only at h1 h2
  rcases e with e | e
  · obtain ⟨rfl, e⟩ := Sigma.mk.inj_iff.1 e
    cases e
    rw [← h1, ← h2]
  · obtain ⟨rfl, e⟩ := Sigma.mk.inj_iff.1 e
    cases e
    rw [← h2] at h1
    rw [(P i).injective h1]

theorem maps_insert [DecidableEq (Pair V)] (P : Fam V) (c : Pair V) (C : Finset (Pair V)) : Maps P (insert c C) ↔ P c.1 c.2.1 = c.2.2 ∧ Maps P C := by
  unfold Maps
  rw [Finset.forall_mem_insert]

theorem ideal_swap {C : Finset (Pair V)} {i : I} (x y y' : V i × V i) (hy : ∀ c ∈ C, (⟨c.1, c.2.2⟩ : Msg V) ≠ ⟨i, y⟩)
    (hy' : ∀ c ∈ C, (⟨c.1, c.2.2⟩ : Msg V) ≠ ⟨i, y'⟩) :
    prob (fun P : Fam V => P i x = y ∧ Maps P C) = prob (fun P : Fam V => P i x = y' ∧ Maps P C) := by
  classical
  let g : Fam V := Pi.mulSingle i (Equiv.swap y y')
  unfold prob
  rw [← E_equiv (Equiv.mulLeft g)]
  refine prob_congr (p := fun P : Fam V => (g * P) i x = y ∧ Maps (g * P) C) fun P => ?_
  have hg : g i = Equiv.swap y y' := Pi.mulSingle_eq_same _ _
  have h1 : (g * P) i x = y ↔ P i x = y' := by
    rw [Pi.mul_apply, Equiv.Perm.mul_apply, hg, Equiv.swap_apply_eq_iff, Equiv.swap_apply_left]
  have h2 : Maps (g * P) C ↔ Maps P C := by
    refine forall_congr' fun c => forall_congr' fun hc => ?_
    obtain ⟨j, a, b⟩ := c
    rw [Pi.mul_apply, Equiv.Perm.mul_apply]
    by_cases h : j = i
    · subst h
      rw [hg, Equiv.swap_apply_eq_iff, Equiv.swap_apply_of_ne_of_ne]
      · intro e; subst e; exact hy _ hc rfl
      · intro e; subst e; exact hy' _ hc rfl
    · have : g j = 1 := Pi.mulSingle_eq_of_ne h _
      rw [this]
      rfl
  rw [h1, h2]

theorem ideal_step [DecidableEq (Pair V)] {C : Finset (Pair V)} {c : Pair V} (hc : c ∉ C) :
    ((Fintype.card (V c.1 × V c.1) : ℚ) - C.card) * prob (fun P : Fam V => Maps P (insert c C)) ≤ prob (fun P : Fam V => Maps P C) := by
  classical
  obtain ⟨i, x, y⟩ := c
  simp only
  have e : prob (fun P : Fam V => Maps P (insert ⟨i, x, y⟩ C)) = prob (fun P : Fam V => P i x = y ∧ Maps P C) :=
    prob_congr fun P => maps_insert P _ C
  rw [e]
  by_cases hy : ∀ c ∈ C, (⟨c.1, c.2.2⟩ : Msg V) ≠ ⟨i, y⟩
  · let S : Finset (V i × V i) := Finset.univ.filter fun z => ∀ c ∈ C, (⟨c.1, c.2.2⟩ : Msg V) ≠ ⟨i, z⟩
    have hS : (Fintype.card (V i × V i) : ℚ) - C.card ≤ S.card := by
      have h1 : (Finset.univ.filter fun z : V i × V i => ¬ ∀ c ∈ C, (⟨c.1, c.2.2⟩ : Msg V) ≠ ⟨i, z⟩).card ≤ C.card := by
        have : ((Finset.univ.filter fun z : V i × V i => ¬ ∀ c ∈ C, (⟨c.1, c.2.2⟩ : Msg V) ≠ ⟨i, z⟩).image fun z => (⟨i, z⟩ : Msg V)) ⊆
            C.image fun c => (⟨c.1, c.2.2⟩ : Msg V) := by
          intro m hm
          obtain ⟨z, hz, rfl⟩ := Finset.mem_image.1 hm
          have := (Finset.mem_filter.1 hz).2
          push Not at this
          obtain ⟨c, hc, e⟩ := this
          exact Finset.mem_image.2 ⟨c, hc, e⟩
        have inj : Function.Injective (fun z : V i × V i => (⟨i, z⟩ : Msg V)) := fun a b h => by simpa using h
        rw [← Finset.card_image_of_injective _ inj]
        exact le_trans (Finset.card_le_card this) Finset.card_image_le
      have h2 : S.card + (Finset.univ.filter fun z : V i × V i => ¬ ∀ c ∈ C, (⟨c.1, c.2.2⟩ : Msg V) ≠ ⟨i, z⟩).card = Fintype.card (V i × V i) := by
        have := Finset.card_filter_add_card_filter_not (s := (Finset.univ : Finset (V i × V i)))
          (fun z => ∀ c ∈ C, (⟨c.1, c.2.2⟩ : Msg V) ≠ ⟨i, z⟩)
        rw [Finset.card_univ] at this
        convert this
      have h3 : Fintype.card (V i × V i) ≤ S.card + C.card := by omega
      have h4 : (Fintype.card (V i × V i) : ℚ) ≤ S.card + C.card := by exact_mod_cast h3
      linarith
    calc ((Fintype.card (V i × V i) : ℚ) - C.card) * prob (fun P : Fam V => P i x = y ∧ Maps P C)
        ≤ S.card * prob (fun P : Fam V => P i x = y ∧ Maps P C) := mul_le_mul_of_nonneg_right hS (prob_nonneg _)
      _ = ∑ z ∈ S, prob (fun P : Fam V => P i x = z ∧ Maps P C) := by
          rw [← nsmul_eq_mul, ← Finset.sum_const]
          exact Finset.sum_congr rfl fun z hz => ideal_swap x y z hy (Finset.mem_filter.1 hz).2
      _ ≤ prob (fun P : Fam V => Maps P C) := by
          unfold prob
          rw [← E_sum]
          refine E_mono fun P => ?_
          by_cases hP : Maps P C
          · simp only [hP, and_true, if_true]
            rw [Finset.sum_ite_eq]
            split <;> norm_num
          · simp [hP]
  · push Not at hy
    obtain ⟨c, hc', e'⟩ := hy
    have : prob (fun P : Fam V => P i x = y ∧ Maps P C) = 0 := by
      refine le_antisymm ?_ (prob_nonneg _)
      have h0 : prob (fun _ : Fam V => False) = 0 := by unfold prob; simp only [if_false]; exact E_const 0
      rw [← h0]
      refine prob_mono fun P hP => ?_
      have hm := maps_inj ((maps_insert P ⟨i, x, y⟩ C).2 hP)
      have := hm c (Finset.mem_insert_of_mem hc') ⟨i, x, y⟩ (Finset.mem_insert_self _ _) (.inr e')
      exact hc (this ▸ hc')
    rw [this, mul_zero]
    exact prob_nonneg _

/-- What the pairs would have as probability if all images were independent. -/
noncomputable def weight (C : Finset (Pair V)) : ℚ := ∏ c ∈ C, 1 / (Fintype.card (V c.1 × V c.1) : ℚ)

theorem weight_nonneg (C : Finset (Pair V)) : 0 ≤ weight C := Finset.prod_nonneg fun c _ => by positivity

theorem ideal_le {M : Nat} (hM : 0 < M) (h : ∀ i, M ≤ Fintype.card (V i × V i)) (C : Finset (Pair V)) :
    (1 - (C.card : ℚ) * (C.card - 1) / (2 * M)) * prob (fun P : Fam V => Maps P C) ≤ weight C := by
  classical
  have hM' : (0 : ℚ) < M := by exact_mod_cast hM
  induction C using Finset.induction with
  | empty =>
    have : prob (fun P : Fam V => Maps P ∅) ≤ 1 := E_le_one fun P => by split <;> norm_num
    simpa [weight] using this
  | @insert c C hc ih =>
    have hs := ideal_step hc
    rw [Finset.card_insert_of_notMem hc]
    unfold weight at *
    rw [Finset.prod_insert hc]
    have hm : (M : ℚ) ≤ (Fintype.card (V c.1 × V c.1) : ℚ) := by exact_mod_cast h c.1
    generalize hm' : (Fintype.card (V c.1 × V c.1) : ℚ) = m at *
    have p0 := prob_nonneg (fun P : Fam V => Maps P (insert c C))
    generalize prob (fun P : Fam V => Maps P (insert c C)) = p' at *
    generalize prob (fun P : Fam V => Maps P C) = p at *
    have w0 : 0 ≤ ∏ c ∈ C, 1 / (Fintype.card (V c.1 × V c.1) : ℚ) := weight_nonneg C
    generalize (∏ c ∈ C, 1 / (Fintype.card (V c.1 × V c.1) : ℚ)) = w at *
    have k0 : (0 : ℚ) ≤ (C.card : ℚ) * (C.card - 1) / (2 * M) := by
      rcases Nat.eq_zero_or_pos C.card with h0 | h0
      · rw [h0]; simp
      · have : (1 : ℚ) ≤ C.card := by exact_mod_cast h0
        have : (0 : ℚ) ≤ C.card - 1 := by linarith
        positivity
    have kn : (0 : ℚ) ≤ C.card := Nat.cast_nonneg _
    push_cast
    have e : ((C.card : ℚ) + 1) * (C.card + 1 - 1) / (2 * M) = (C.card : ℚ) * (C.card - 1) / (2 * M) + C.card / M := by
      field_simp
      ring
    rw [e]
    generalize ha : (C.card : ℚ) * (C.card - 1) / (2 * M) = a at *
    generalize (C.card : ℚ) = k at *
    have m0 : 0 < m := lt_of_lt_of_le hM' hm
    have hb : k / m ≤ k / M := div_le_div_of_nonneg_left kn hM' hm
    have hb0 : 0 ≤ k / m := div_nonneg kn m0.le
    by_cases h1 : 1 - (a + k / M) ≤ 0
    · have : (1 - (a + k / M)) * p' ≤ 0 := mul_nonpos_of_nonpos_of_nonneg h1 p0
      have : 0 ≤ 1 / m * w := by positivity
      linarith
    · have h2 : 0 ≤ 1 - a := by have : 0 ≤ k / M := div_nonneg kn hM'.le; linarith
      have h3 : (1 - k / m) * p' ≤ 1 / m * p := by
        rw [one_div, ← div_eq_inv_mul, le_div_iff₀ m0]
        calc (1 - k / m) * p' * m = (m - k) * p' := by field_simp
          _ ≤ p := hs
      calc (1 - (a + k / M)) * p' ≤ (1 - a) * (1 - k / m) * p' := by
            refine mul_le_mul_of_nonneg_right ?_ p0
            nlinarith
        _ = (1 - a) * ((1 - k / m) * p') := by ring
        _ ≤ (1 - a) * (1 / m * p) := mul_le_mul_of_nonneg_left h3 h2
        _ = 1 / m * ((1 - a) * p) := by ring
        _ ≤ 1 / m * w := mul_le_mul_of_nonneg_left ih (by positivity)

/-! ## Random round functions -/

open scoped Classical in
/-- A random table takes given values at different points with the product of the probabilities. -/
theorem table_hit {κ : Type} (C : Finset κ) (p : κ → Pt V) (v : ∀ c, V (p c).1) (hp : Set.InjOn p C) :
    prob (fun f : Fn V => ∀ c ∈ C, f (p c) = v c) = ∏ c ∈ C, 1 / (Fintype.card (V (p c).1) : ℚ) := by
  let S : ∀ a : Pt V, Finset (V a.1) := fun a => Finset.univ.filter fun b => ∀ c ∈ C, ∀ h : p c = a, b = h ▸ v c
  have e1 : ∀ f : Fn V, (∀ c ∈ C, f (p c) = v c) ↔ f ∈ Fintype.piFinset S := by
    intro f
    simp only [Finset.mem_filter, Finset.mem_univ, true_and, Fintype.mem_piFinset, S]
    constructor
    · intro h a c hc e
      subst e
      exact h c hc
    · intro h c hc
      exact h (p c) c hc rfl
  have e2 : prob (fun f : Fn V => ∀ c ∈ C, f (p c) = v c) = ∏ a, ((S a).card : ℚ) / (Fintype.card (V a.1) : ℚ) := by
    rw [prob_congr e1, prob_mem, Fintype.card_piFinset, Fintype.card_pi, Finset.prod_div_distrib]
    push_cast
    rfl
  rw [e2]
  have e3 : ∀ a, a ∉ C.image p → ((S a).card : ℚ) / (Fintype.card (V a.1) : ℚ) = 1 := by
    intro a ha
    have : S a = Finset.univ := by
      ext b
      simp only [Finset.mem_filter, Finset.mem_univ, true_and, iff_true, S]
      intro c hc e
      exact absurd (Finset.mem_image.2 ⟨c, hc, e⟩) ha
    rw [this, Finset.card_univ]
    exact div_self card_ne
  rw [← Finset.prod_subset (Finset.subset_univ (C.image p)) (fun a _ ha => e3 a ha), Finset.prod_image hp]
  refine Finset.prod_congr rfl fun c hc => ?_
  have : S (p c) = {v c} := by
    ext b
    simp only [Finset.mem_filter, Finset.mem_univ, true_and, Finset.mem_singleton, S]
    constructor
    · intro h
      exact h c hc rfl
    · rintro rfl c' hc' e
      have := hp hc' hc e
      subst this
      rfl
  rw [this, Finset.card_singleton, Nat.cast_one]

section
variable (x : ∀ i, V i → V i → V i)

/-- One round. -/
def roundFn (f : Fn V) (i : I) (p : V i × V i) : V i × V i := (p.2, x i p.1 (f ⟨i, p.2⟩))

/-- The left half after adding the round function of the right half. -/
def mid (f : Fn V) (i : I) (p : V i × V i) : V i := x i p.1 (f ⟨i, p.2⟩)

/-- Four rounds. -/
def four (f₁ f₂ f₃ f₄ : Fn V) (i : I) (p : V i × V i) : V i × V i := roundFn x f₄ i (roundFn x f₃ i (roundFn x f₂ i (roundFn x f₁ i p)))

variable {x} (hx : ∀ i a b, x i a (x i a b) = b) (hc : ∀ i a b, x i a b = x i b a)

include hx hc

theorem x_inj {i : I} {a b c : V i} : x i a b = c ↔ b = x i a c := by
  constructor
  · rintro rfl; rw [hx]
  · rintro rfl; rw [hx]

theorem x_right {i : I} {a b c : V i} : x i a b = c ↔ a = x i c b := by
  rw [hc i a b, x_inj hx hc, hc i b c]

theorem roundFn_bij (f : Fn V) (i : I) : Function.Bijective (roundFn x f i) := by
  refine ⟨?_, ?_⟩
  · rintro ⟨a, b⟩ ⟨a', b'⟩ h
    simp only [roundFn, Prod.mk.injEq] at h
    obtain ⟨rfl, h⟩ := h
    rw [(x_right hx hc).1 h, hc i (x i a' _), hc i a', hx]
  · rintro ⟨a, b⟩
    exact ⟨(x i b (f ⟨i, a⟩), a), by simp only [roundFn, Prod.mk.injEq, true_and]; rw [hc i (x i b _), hc i b, hx]⟩

theorem four_iff (f₁ f₂ f₃ f₄ : Fn V) (c : Pair V) :
    four x f₁ f₂ f₃ f₄ c.1 c.2.1 = c.2.2 ↔
      f₂ ⟨c.1, mid x f₁ c.1 c.2.1⟩ = x c.1 c.2.1.2 (mid x f₄ c.1 c.2.2.swap) ∧
      f₃ ⟨c.1, mid x f₄ c.1 c.2.2.swap⟩ = x c.1 (mid x f₁ c.1 c.2.1) c.2.2.1 := by
  obtain ⟨i, ⟨l, r⟩, ⟨s, t⟩⟩ := c
  simp only [four, roundFn, mid, Prod.swap, Prod.mk.injEq]
  generalize x i l (f₁ ⟨i, r⟩) = X
  constructor
  · rintro ⟨h3, h4⟩
    rw [h3] at h4
    have hY : x i t (f₄ ⟨i, s⟩) = x i r (f₂ ⟨i, X⟩) := ((x_right hx hc).1 h4).symm
    rw [hY]
    exact ⟨(hx _ _ _).symm, (x_inj hx hc).1 h3⟩
  · rintro ⟨h2, h3⟩
    have hY : x i r (f₂ ⟨i, X⟩) = x i t (f₄ ⟨i, s⟩) := (x_inj hx hc).2 h2
    rw [hY, h3, hx]
    refine ⟨rfl, ?_⟩
    rw [hc i (x i t _), hc i t, hx]

theorem coll {N : Nat} (hN : 0 < N) (h : ∀ i, N ≤ Fintype.card (V i)) {m m' : Msg V} (hm : m ≠ m') :
    prob (fun f : Fn V => (⟨m.1, mid x f m.1 m.2⟩ : Pt V) = ⟨m'.1, mid x f m'.1 m'.2⟩) ≤ 1 / (N : ℚ) := by
  classical
  obtain ⟨i, a, b⟩ := m
  obtain ⟨j, a', b'⟩ := m'
  have hN' : (0 : ℚ) < N := by exact_mod_cast hN
  have z : ∀ p : Fn V → Prop, (∀ f, ¬ p f) → prob p ≤ 1 / (N : ℚ) := by
    intro p hp
    have : prob p = 0 := by
      unfold prob
      simp only [hp, if_false]
      exact E_const 0
    rw [this]
    positivity
  by_cases hij : i = j
  · subst hij
    by_cases hb : b = b'
    · subst hb
      refine z _ fun f e => hm ?_
      simp only [Sigma.mk.injEq, heq_eq_eq, true_and, mid] at e
      rw [(x_right hx hc).1 e, hc i (x i a' _), hc i a', hx]
    · have hn : (N : ℚ) ≤ Fintype.card (V i) := by exact_mod_cast h i
      let p : Bool → Pt V := fun k => if k then ⟨i, b⟩ else ⟨i, b'⟩
      have one : ∀ u : V i, prob (fun f : Fn V => f ⟨i, b⟩ = x i a (x i a' u) ∧ f ⟨i, b'⟩ = u) = 1 / (Fintype.card (V i) : ℚ) * (1 / (Fintype.card (V i) : ℚ)) := by
        intro u
        have := table_hit (V := V) (κ := Bool) Finset.univ (fun k => (⟨i, if k then b else b'⟩ : Pt V)) (fun k => if k then x i a (x i a' u) else u)
          (by intro k _ k' _ e; cases k <;> cases k' <;> simp_all [eq_comm])
        rw [Fintype.prod_bool] at this
        simp only at this
        rw [← this]
        exact prob_congr fun f => by simp [and_comm]
      have le : prob (fun f : Fn V => (⟨i, mid x f i (a, b)⟩ : Pt V) = ⟨i, mid x f i (a', b')⟩) ≤
          ∑ u, prob (fun f : Fn V => f ⟨i, b⟩ = x i a (x i a' u) ∧ f ⟨i, b'⟩ = u) := by
        unfold prob
        rw [← E_sum]
        refine E_mono fun f => ?_
        by_cases e : (⟨i, mid x f i (a, b)⟩ : Pt V) = ⟨i, mid x f i (a', b')⟩
        · rw [if_pos e]
          simp only [Sigma.mk.injEq, heq_eq_eq, true_and, mid] at e
          rw [Finset.sum_eq_single_of_mem (f ⟨i, b'⟩) (Finset.mem_univ _)]
          · rw [if_pos ⟨(x_inj hx hc).1 e, rfl⟩]
          · intro u _ hu
            rw [if_neg (fun h => hu h.2.symm)]
        · rw [if_neg e]
          exact Finset.sum_nonneg fun u _ => by split <;> norm_num
      refine le_trans le ?_
      simp only [one]
      rw [Finset.sum_const, Finset.card_univ, nsmul_eq_mul]
      have c0 : (0 : ℚ) < Fintype.card (V i) := lt_of_lt_of_le hN' hn
      rw [← mul_assoc, mul_one_div_cancel c0.ne', one_mul]
      exact one_div_le_one_div_of_le hN' hn
  · exact z _ fun f e => hij (Sigma.mk.inj_iff.1 e).1

/-- The points in the middle. -/
def pX (x : ∀ i, V i → V i → V i) (f : Fn V) (c : Pair V) : Pt V := ⟨c.1, mid x f c.1 c.2.1⟩
def pY (x : ∀ i, V i → V i → V i) (f : Fn V) (c : Pair V) : Pt V := ⟨c.1, mid x f c.1 c.2.2.swap⟩

theorem bad_le {N : Nat} (hN : 0 < N) (h : ∀ i, N ≤ Fintype.card (V i)) (C : Finset (Pair V)) (g : Pair V → Msg V) (hg : Set.InjOn g C) :
    prob (fun f : Fn V => ¬ Set.InjOn (fun c => (⟨(g c).1, mid x f (g c).1 (g c).2⟩ : Pt V)) C) ≤ (C.card : ℚ) * (C.card - 1) / (2 * N) := by
  classical
  have hN' : (0 : ℚ) < N := by exact_mod_cast hN
  induction C using Finset.induction with
  | empty =>
    rw [prob_zero (fun f => by simp)]
    simp
  | @insert c C hcC ih =>
    have ih := ih (hg.mono (by simp))
    have le : prob (fun f : Fn V => ¬ Set.InjOn (fun c => (⟨(g c).1, mid x f (g c).1 (g c).2⟩ : Pt V)) (insert c C : Finset (Pair V))) ≤
        prob (fun f : Fn V => ¬ Set.InjOn (fun c => (⟨(g c).1, mid x f (g c).1 (g c).2⟩ : Pt V)) C) +
          ∑ c' ∈ C, prob (fun f : Fn V => (⟨(g c).1, mid x f (g c).1 (g c).2⟩ : Pt V) = ⟨(g c').1, mid x f (g c').1 (g c').2⟩) := by
      refine le_trans (prob_mono fun f hf => ?_) (prob_union _ C fun c' f => (⟨(g c).1, mid x f (g c).1 (g c).2⟩ : Pt V) = ⟨(g c').1, mid x f (g c').1 (g c').2⟩)
      by_contra hn
      rw [not_or, not_not] at hn
      refine hf ?_
      rw [Finset.coe_insert, Set.injOn_insert (by simpa using hcC)]
      refine ⟨hn.1, ?_⟩
      rintro ⟨c', hc', e⟩
      exact hn.2 ⟨c', hc', e.symm⟩
    refine le_trans le ?_
    have hs : (∑ c' ∈ C, prob (fun f : Fn V => (⟨(g c).1, mid x f (g c).1 (g c).2⟩ : Pt V) = ⟨(g c').1, mid x f (g c').1 (g c').2⟩)) ≤ C.card * (1 / (N : ℚ)) := by
      rw [← nsmul_eq_mul]
      refine Finset.sum_le_card_nsmul _ _ _ fun c' hc' => coll hx hc hN h fun e => hcC ?_
      have : c = c' := hg (by simp) (by simp [hc']) e
      exact this ▸ hc'
    rw [Finset.card_insert_of_notMem hcC]
    push_cast
    have e : ((C.card : ℚ) + 1) * (C.card + 1 - 1) / (2 * N) = (C.card : ℚ) * (C.card - 1) / (2 * N) + C.card * (1 / N) := by
      field_simp
      ring
    rw [e]
    linarith

/-- Four tables: the outer ones and the inner ones. -/
abbrev Four (V : I → Type) := (Fn V × Fn V) × (Fn V × Fn V)

/-- Four rounds with the tables. -/
def fourOf (x : ∀ i, V i → V i → V i) (f : Four V) (i : I) : V i × V i → V i × V i := four x f.1.1 f.2.1 f.2.2 f.1.2 i

theorem fourOf_bij (f : Four V) (i : I) : Function.Bijective (fourOf x f i) :=
  ((roundFn_bij hx hc _ i).comp (roundFn_bij hx hc _ i)).comp ((roundFn_bij hx hc _ i).comp (roundFn_bij hx hc _ i))

omit hx hc in
theorem prob_prod {α β : Type} [Fintype α] [Fintype β] (p : α → Prop) (r : β → Prop) : prob (fun a : α × β => p a.1 ∧ r a.2) = prob p * prob r := by
  classical
  unfold prob
  rw [E_prod, mul_comm, ← E_mul]
  congr 1
  funext a
  by_cases h : p a
  · simp [h]
  · simp only [h, false_and, if_false, mul_zero]
    unfold E
    simp

theorem inner_eq (C : Finset (Pair V)) (g : Fn V × Fn V) (h1 : Set.InjOn (pX x g.1) C) (h2 : Set.InjOn (pY x g.2) C) :
    prob (fun k : Fn V × Fn V => ∀ c ∈ C, fourOf x (g, k) c.1 c.2.1 = c.2.2) = weight C := by
  have e : ∀ k : Fn V × Fn V, (∀ c ∈ C, fourOf x (g, k) c.1 c.2.1 = c.2.2) ↔
      (∀ c ∈ C, k.1 (pX x g.1 c) = x c.1 c.2.1.2 (mid x g.2 c.1 c.2.2.swap)) ∧ (∀ c ∈ C, k.2 (pY x g.2 c) = x c.1 (mid x g.1 c.1 c.2.1) c.2.2.1) := by
    intro k
    rw [← forall₂_and]
    exact forall₂_congr fun c _ => four_iff hx hc g.1 k.1 k.2 g.2 c
  have p1 := table_hit C (pX x g.1) (fun c => x c.1 c.2.1.2 (mid x g.2 c.1 c.2.2.swap)) h1
  have p2 := table_hit C (pY x g.2) (fun c => x c.1 (mid x g.1 c.1 c.2.1) c.2.2.1) h2
  rw [prob_congr e]
  refine (prob_prod (fun k : Fn V => ∀ c ∈ C, k (pX x g.1 c) = x c.1 c.2.1.2 (mid x g.2 c.1 c.2.2.swap))
    (fun k : Fn V => ∀ c ∈ C, k (pY x g.2 c) = x c.1 (mid x g.1 c.1 c.2.1) c.2.2.1)).trans ?_
  rw [p1, p2, ← Finset.prod_mul_distrib]
  refine Finset.prod_congr rfl fun c _ => ?_
  rw [Fintype.card_prod]
  push_cast
  simp only [pX, pY]
  rw [one_div_mul_one_div]
  rfl

theorem four_ge {N : Nat} (hN : 0 < N) (h : ∀ i, N ≤ Fintype.card (V i)) (C : Finset (Pair V)) (hC : Inj C) :
    (1 - (C.card : ℚ) * (C.card - 1) / N) * weight C ≤ prob (fun f : Four V => ∀ c ∈ C, fourOf x f c.1 c.2.1 = c.2.2) := by
  classical
  have hN' : (0 : ℚ) < N := by exact_mod_cast hN
  have b1 := bad_le hx hc hN h C (fun c => ⟨c.1, c.2.1⟩) (fun c m c' m' e => hC c m c' m' (.inl e))
  have b2 := bad_le hx hc hN h C (fun c => ⟨c.1, c.2.2.swap⟩) (fun c m c' m' e => hC c m c' m' (.inr (by
    obtain ⟨i, a, b⟩ := c
    obtain ⟨j, a', b'⟩ := c'
    simp only at e ⊢
    obtain ⟨rfl, e⟩ := Sigma.mk.inj_iff.1 e
    rw [Prod.swap_inj.1 (eq_of_heq e)])))
  have good : 1 - (C.card : ℚ) * (C.card - 1) / N ≤ prob (fun g : Fn V × Fn V => Set.InjOn (pX x g.1) C ∧ Set.InjOn (pY x g.2) C) := by
    rw [prob_prod (fun g => Set.InjOn (pX x g) C) (fun g => Set.InjOn (pY x g) C), prob_not, prob_not (fun g => Set.InjOn (pY x g) C)]
    change 1 - _ ≤ (1 - prob fun f : Fn V => ¬ Set.InjOn (fun c : Pair V => (⟨c.1, mid x f c.1 c.2.1⟩ : Pt V)) C) *
      (1 - prob fun f : Fn V => ¬ Set.InjOn (fun c : Pair V => (⟨c.1, mid x f c.1 c.2.2.swap⟩ : Pt V)) C)
    have n1 := prob_nonneg (fun f : Fn V => ¬ Set.InjOn (fun c : Pair V => (⟨c.1, mid x f c.1 c.2.1⟩ : Pt V)) C)
    have n2 := prob_nonneg (fun f : Fn V => ¬ Set.InjOn (fun c : Pair V => (⟨c.1, mid x f c.1 c.2.2.swap⟩ : Pt V)) C)
    simp only at b1 b2
    have e : (C.card : ℚ) * (C.card - 1) / N = (C.card : ℚ) * (C.card - 1) / (2 * N) + (C.card : ℚ) * (C.card - 1) / (2 * N) := by
      field_simp
      ring
    rw [e]
    nlinarith
  calc (1 - (C.card : ℚ) * (C.card - 1) / N) * weight C
      ≤ prob (fun g : Fn V × Fn V => Set.InjOn (pX x g.1) C ∧ Set.InjOn (pY x g.2) C) * weight C :=
        mul_le_mul_of_nonneg_right good (weight_nonneg C)
    _ ≤ _ := by
      conv_rhs => unfold prob
      rw [E_prod, mul_comm]
      unfold prob
      rw [← E_mul]
      refine E_mono fun g => ?_
      by_cases hg : Set.InjOn (pX x g.1) C ∧ Set.InjOn (pY x g.2) C
      · rw [if_pos hg, mul_one]
        exact (inner_eq hx hc C g hg.1 hg.2).ge
      · rw [if_neg hg, mul_zero]
        exact E_nonneg fun k => by split <;> norm_num

/-- Four rounds followed by a permutation. -/
noncomputable def before (hx : ∀ i a b, x i a (x i a b) = b) (hc : ∀ i a b, x i a b = x i b a) (Q : Fam V) (f : Four V) : Fam V :=
  fun i => (Equiv.ofBijective _ (fourOf_bij hx hc f i)).trans (Q i)

theorem before_ge {N : Nat} (hN : 0 < N) (h : ∀ i, N ≤ Fintype.card (V i)) (Q : Fam V) (C : Finset (Pair V)) (hC : Inj C) :
    (1 - (C.card : ℚ) * (C.card - 1) / N) * weight C ≤ prob (fun f : Four V => Maps (before hx hc Q f) C) := by
  classical
  let g : Pair V → Pair V := fun c => ⟨c.1, c.2.1, (Q c.1).symm c.2.2⟩
  have gi : Function.Injective g := by
    rintro ⟨i, a, b⟩ ⟨j, a', b'⟩ e
    obtain ⟨rfl, e⟩ := Sigma.mk.inj_iff.1 e
    have e := eq_of_heq e
    simp only [Prod.mk.injEq, EmbeddingLike.apply_eq_iff_eq] at e
    rw [e.1, e.2]
  have hI : Inj (C.image g) := by
    intro c hc c' hc' e
    obtain ⟨⟨i, a, b⟩, m, rfl⟩ := Finset.mem_image.1 hc
    obtain ⟨⟨j, a', b'⟩, m', rfl⟩ := Finset.mem_image.1 hc'
    rw [hC _ m _ m']
    rcases e with e | e
    · exact .inl e
    · simp only [g] at e
      obtain ⟨rfl, e⟩ := Sigma.mk.inj_iff.1 e
      rw [(Q i).symm.injective (eq_of_heq e)]
      exact .inr rfl
  have hw : weight (C.image g) = weight C := Finset.prod_image fun a _ b _ e => gi e
  have hk : (C.image g).card = C.card := Finset.card_image_of_injective _ gi
  have := four_ge hx hc hN h (C.image g) hI
  rw [hw, hk] at this
  refine le_trans this (prob_mono fun f hf c hc' => ?_)
  have := hf (g c) (Finset.mem_image_of_mem g hc')
  simp only [g] at this
  simp only [before, Equiv.trans_apply, Equiv.ofBijective_apply]
  rw [this, Equiv.apply_symm_apply]

omit hx hc in
theorem quad_mono {k q : Nat} (h : k ≤ q) {B : ℚ} (hB : 0 < B) : (k : ℚ) * (k - 1) / B ≤ (q : ℚ) * (q - 1) / B := by
  refine div_le_div_of_nonneg_right ?_ hB.le
  rcases Nat.eq_zero_or_pos k with h0 | h0
  · rw [h0]
    rcases Nat.eq_zero_or_pos q with h1 | h1
    · rw [h1]
    · have : (1 : ℚ) ≤ q := by exact_mod_cast h1
      push_cast
      nlinarith
  · have h1 : (1 : ℚ) ≤ k := by exact_mod_cast h0
    have h2 : (k : ℚ) ≤ q := by exact_mod_cast h
    nlinarith

omit hx hc in
theorem quad_nonneg (q : Nat) {B : ℚ} (hB : 0 < B) : 0 ≤ (q : ℚ) * (q - 1) / B := by
  have := quad_mono (Nat.zero_le q) hB
  simpa using this

/-- An attack in both directions does not tell four random rounds, followed by any permutations, from random permutations. -/
theorem feistel_close {N M : Nat} (hN : 0 < N) (hM : 0 < M) (h : ∀ i, N ≤ Fintype.card (V i)) (h' : ∀ i, M ≤ Fintype.card (V i × V i))
    (Q : Fam V) {q : Nat} {A : Att (Bool × Msg V) (Msg V)} (hA : AtMost q A) :
    |E (fun f : Four V => play (answer (before hx hc Q f)) A) - E (fun P : Fam V => play (answer P) A)| ≤
      (q : ℚ) * (q - 1) / N + (q : ℚ) * (q - 1) / (2 * M) := by
  have hN' : (0 : ℚ) < N := by exact_mod_cast hN
  have hM' : (0 : ℚ) < 2 * M := by have : (0 : ℚ) < M := by exact_mod_cast hM
                                   linarith
  refine hcoef (add_nonneg (quad_nonneg q hN') (quad_nonneg q hM')) (fun T hT => ?_) hA
  by_cases h0 : ∃ P : Fam V, Fits (answer P) T
  · obtain ⟨P0, hP0⟩ := h0
    have e1 : ∀ P : Fam V, Fits (answer P) T ↔ Maps P (pairsOf T) := fun P => ⟨fits_maps, maps_fits hP0⟩
    have e2 : prob (fun f : Four V => Fits (answer (before hx hc Q f)) T) = prob (fun f : Four V => Maps (before hx hc Q f) (pairsOf T)) :=
      prob_congr fun f => e1 _
    rw [prob_congr e1, e2]
    have hk := le_trans (pairsOf_card T) hT
    have l1 := ideal_le hM h' (pairsOf T)
    have l2 := before_ge hx hc hN h Q (pairsOf T) (maps_inj (fits_maps hP0))
    have m1 := quad_mono hk hN'
    have m2 := quad_mono hk hM'
    have n1 := quad_nonneg (pairsOf T).card hN'
    have n2 := quad_nonneg (pairsOf T).card hM'
    have p0 := prob_nonneg (fun P : Fam V => Maps P (pairsOf T))
    have r0 := prob_nonneg (fun f : Four V => Maps (before hx hc Q f) (pairsOf T))
    generalize prob (fun P : Fam V => Maps P (pairsOf T)) = p at *
    generalize prob (fun f : Four V => Maps (before hx hc Q f) (pairsOf T)) = r at *
    generalize ((pairsOf T).card : ℚ) * ((pairsOf T).card - 1) / N = a at *
    generalize ((pairsOf T).card : ℚ) * ((pairsOf T).card - 1) / (2 * M) = b at *
    have w0 := weight_nonneg (pairsOf T)
    generalize weight (pairsOf T) = w at *
    have s1 : (1 - ((q : ℚ) * (q - 1) / N + (q : ℚ) * (q - 1) / (2 * M))) * p ≤ (1 - (a + b)) * p :=
      mul_le_mul_of_nonneg_right (by linarith) p0
    refine le_trans s1 ?_
    by_cases ha : a ≤ 1
    · have s2 := mul_le_mul_of_nonneg_left l1 (by linarith : (0 : ℚ) ≤ 1 - a)
      have s3 : (0 : ℚ) ≤ a * b * p := by positivity
      nlinarith
    · have : (1 - (a + b)) * p ≤ 0 := mul_nonpos_of_nonpos_of_nonneg (by linarith) p0
      linarith
  · have : prob (fun P : Fam V => Fits (answer P) T) = 0 := prob_zero fun P hP => h0 ⟨P, hP⟩
    rw [this, mul_zero]
    exact prob_nonneg _

end

end Verif.Feistel
