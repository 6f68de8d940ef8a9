import Verif.Fresh
import Mathlib.Data.Fintype.Sum
import Mathlib.Data.Fintype.OfMap
import Mathlib.Data.Fintype.Pi
import Mathlib.Data.List.FinRange
import Mathlib.Algebra.BigOperators.Ring.Finset
import Mathlib.Algebra.Order.BigOperators.Group.List
import Mathlib.Tactic.LinearCombination

/-!
# A wide permutation made of random functions

The shape of AEZ-core: pairs of blocks, each mixed by a function of its position and by one function shared by all positions, a sum over everything, and a
second mixing that depends on that sum.  If all functions are uniform, transcripts of questions in both directions are nearly as probable as with fresh
answers.
-/

namespace Verif.Wide

open Verif Verif.Avg Verif.Oracle Verif.Fresh

set_option linter.unusedSectionVars false

/-- The functions: `e` for all pairs, `h j` and `k j` for pair `j`, `u` and `v` for the partial blocks, `cu` and `cv` for their answers, `f` and `g` for the
last two blocks in each direction. -/
inductive Tag (ℓ : Nat) | e | f (d : Bool) | u | v | g (d : Bool) | cu | cv | h (j : Fin ℓ) | k (j : Fin ℓ)
  deriving DecidableEq

def Tag.code {ℓ : Nat} : Tag ℓ → Fin 9 ⊕ Fin ℓ ⊕ Fin ℓ
  | .e => .inl 0
  | .f d => .inl (if d then 1 else 2)
  | .u => .inl 3
  | .v => .inl 4
  | .g d => .inl (if d then 5 else 6)
  | .cu => .inl 7
  | .cv => .inl 8
  | .h j => .inr (.inl j)
  | .k j => .inr (.inr j)

theorem Tag.code_inj {ℓ : Nat} : Function.Injective (Tag.code (ℓ := ℓ)) := by
  intro a b h
  cases a <;> cases b <;> simp_all [Tag.code] <;> (try (split at h <;> try split at h)) <;> simp_all

noncomputable instance {ℓ : Nat} : Fintype (Tag ℓ) := Fintype.ofInjective Tag.code Tag.code_inj

variable {ℓ : Nat} {V : Type} [CommRing V] [Fintype V] [DecidableEq V] [h2 : Fact ((2 : V) = 0)]

omit h2 [Fintype V] [DecidableEq V] in
theorem two [h2 : Fact ((2 : V) = 0)] : (2 : V) = 0 := h2.out

abbrev Fn (ℓ : Nat) (V : Type) := Tag ℓ × V → V

/-! ## Changing one value -/

def bump (ω : Fn ℓ V) (x : Tag ℓ × V) (δ : V) : Fn ℓ V := fun z => ω z + if z = x then δ else 0

theorem bump_bump (ω : Fn ℓ V) (x : Tag ℓ × V) (δ : V) : bump (bump ω x δ) x δ = ω := by
  funext z
  have := two (V := V)
  unfold bump
  split <;> grind

theorem prob_or {Ω : Type} [Fintype Ω] (p r : Ω → Prop) : prob (fun ω => p ω ∨ r ω) ≤ prob p + prob r := by
  have := prob_union p {()} (fun _ => r)
  simpa using this

theorem card_pos : (0 : ℚ) < Fintype.card V := by exact_mod_cast Fintype.card_pos

theorem sum_values {Ω : Type} [Fintype Ω] (p : Ω → Prop) (D : Ω → V) (B : Finset V) :
    prob (fun ω => p ω ∧ D ω ∈ B) = ∑ b ∈ B, prob (fun ω => p ω ∧ D ω = b) := by
  classical
  unfold prob
  rw [← E_sum]
  congr 1
  funext ω
  by_cases h : p ω
  · simp [h]
  · simp [h]

/-- A value that can be changed at will without changing the rest is uniform. -/
theorem shift {p : Fn ℓ V → Prop} {pt : Fn ℓ V → Tag ℓ × V} {D : Fn ℓ V → V}
    (h : ∀ ω δ, p ω → p (bump ω (pt ω) δ) ∧ pt (bump ω (pt ω) δ) = pt ω ∧ D (bump ω (pt ω) δ) = D ω + δ) (B : Finset V) :
    prob (fun ω => p ω ∧ D ω ∈ B) = prob p * ((B.card : ℚ) / Fintype.card V) := by
  classical
  have t2 := two (V := V)
  have same : ∀ a b : V, prob (fun ω => p ω ∧ D ω = a) = prob (fun ω => p ω ∧ D ω = b) := by
    intro a b
    let τ : Fn ℓ V → Fn ℓ V := fun ω => if p ω then bump ω (pt ω) (a + b) else ω
    have hτ : Function.Involutive τ := by
      intro ω
      by_cases hp : p ω
      · obtain ⟨h1, h2, -⟩ := h ω (a + b) hp
        have e : τ ω = bump ω (pt ω) (a + b) := if_pos hp
        rw [e]
        show (if p _ then _ else _) = _
        rw [if_pos h1, h2, bump_bump]
      · have e : τ ω = ω := if_neg hp
        rw [e, e]
    refine prob_equiv hτ.toPerm fun ω => ?_
    show _ ↔ p (τ ω) ∧ D (τ ω) = b
    by_cases hp : p ω
    · obtain ⟨h1, h2, h3⟩ := h ω (a + b) hp
      have e : τ ω = bump ω (pt ω) (a + b) := if_pos hp
      rw [e, h3]
      simp only [hp, h1, true_and]
      constructor <;> intro h' <;> grind
    · have e : τ ω = ω := if_neg hp
      rw [e]
      simp [hp]
  have all : prob p = Fintype.card V * prob (fun ω => p ω ∧ D ω = 0) := by
    have h1 := sum_values p D Finset.univ
    simp only [Finset.mem_univ, and_true] at h1
    rw [h1, Finset.sum_congr rfl fun b _ => same b 0, Finset.sum_const, Finset.card_univ, nsmul_eq_mul]
  rw [sum_values, Finset.sum_congr rfl fun b _ => same b 0, Finset.sum_const, nsmul_eq_mul, all]
  have := card_pos (V := V)
  field_simp

theorem shift_eq {p : Fn ℓ V → Prop} {pt : Fn ℓ V → Tag ℓ × V} {D D' : Fn ℓ V → V}
    (h : ∀ ω δ, p ω → p (bump ω (pt ω) δ) ∧ pt (bump ω (pt ω) δ) = pt ω ∧ D (bump ω (pt ω) δ) + D' (bump ω (pt ω) δ) = D ω + D' ω + δ) :
    prob (fun ω => p ω ∧ D ω = D' ω) = prob p * (1 / Fintype.card V) := by
  have := shift (D := fun ω => D ω + D' ω) h {0}
  rw [Finset.card_singleton, Nat.cast_one] at this
  rw [← this]
  apply prob_congr
  intro ω
  have t2 := two (V := V)
  rw [Finset.mem_singleton]
  constructor
  · rintro ⟨a, b⟩
    exact ⟨a, by grind⟩
  · rintro ⟨a, b⟩
    exact ⟨a, by grind⟩

/-! ## Pairs -/

section
variable {Ω : Type} [Fintype Ω] {α : Type} {p : Ω → Prop} {R : Ω → α → α → Prop} {c : ℚ}

theorem prob_exists {r : α → Ω → Prop} : ∀ l : List α, (∀ b ∈ l, prob (fun ω => p ω ∧ r b ω) ≤ c) → prob (fun ω => p ω ∧ ∃ b ∈ l, r b ω) ≤ l.length * c
  | [], _ => by
    rw [prob_zero (by rintro ω ⟨-, b, hb, -⟩; simp at hb)]
    simp
  | a :: l, h => by
    have h1 := h a List.mem_cons_self
    have h2 := prob_exists l fun b hb => h b (List.mem_cons_of_mem _ hb)
    have h3 : prob (fun ω => p ω ∧ ∃ b ∈ a :: l, r b ω) ≤ prob (fun ω => (p ω ∧ r a ω) ∨ p ω ∧ ∃ b ∈ l, r b ω) := by
      apply prob_mono
      rintro ω ⟨hp, b, hb, hr⟩
      rcases List.mem_cons.1 hb with rfl | hb
      · exact .inl ⟨hp, hr⟩
      · exact .inr ⟨hp, b, hb, hr⟩
    have h4 := prob_or (fun ω => p ω ∧ r a ω) (fun ω => p ω ∧ ∃ b ∈ l, r b ω)
    rw [List.length_cons]
    push_cast
    linarith

theorem prob_pairs : ∀ l : List α, l.Pairwise (fun a b => prob (fun ω => p ω ∧ ¬ R ω a b) ≤ c) →
    prob (fun ω => p ω ∧ ¬ l.Pairwise (R ω)) ≤ (l.length : ℚ) * (l.length - 1) / 2 * c
  | [], _ => by
    rw [prob_zero (by rintro ω ⟨-, h⟩; exact h List.Pairwise.nil)]
    simp
  | a :: l, h => by
    obtain ⟨ha, hl⟩ := List.pairwise_cons.1 h
    have h1 := prob_exists (p := p) (r := fun b ω => ¬ R ω a b) l ha
    have h2 := prob_pairs l hl
    have h3 : prob (fun ω => p ω ∧ ¬ (a :: l).Pairwise (R ω)) ≤ prob (fun ω => (p ω ∧ ∃ b ∈ l, ¬ R ω a b) ∨ p ω ∧ ¬ l.Pairwise (R ω)) := by
      apply prob_mono
      rintro ω ⟨hp, hr⟩
      by_cases hl : l.Pairwise (R ω)
      · left
        refine ⟨hp, ?_⟩
        by_contra hn
        push Not at hn
        exact hr (List.pairwise_cons.2 ⟨hn, hl⟩)
      · exact .inr ⟨hp, hl⟩
    have h4 := prob_or (fun ω => p ω ∧ ∃ b ∈ l, ¬ R ω a b) (fun ω => p ω ∧ ¬ l.Pairwise (R ω))
    rw [List.length_cons]
    push_cast
    have : ((l.length : ℚ) + 1) * (l.length + 1 - 1) / 2 * c = l.length * c + (l.length : ℚ) * (l.length - 1) / 2 * c := by ring
    rw [this]
    linarith

end

/-! ## Nodes and edges -/

/-- A pair of blocks at a position. -/
abbrev Node (ℓ : Nat) (V : Type) := Fin ℓ × V × V
/-- A pair of a question and that of the answer. -/
abbrev Edge (ℓ : Nat) (V : Type) := Node ℓ V × Node ℓ V

def w (ω : Fn ℓ V) (n : Node ℓ V) : V := n.2.1 + ω (.h n.1, n.2.2)
def X (ω : Fn ℓ V) (n : Node ℓ V) : V := n.2.2 + ω (.e, w ω n)

def Ok (ω : Fn ℓ V) (e : Edge ℓ V) : Prop := X ω e.1 + w ω e.1 = X ω e.2 + w ω e.2

def nodes (E : List (Edge ℓ V)) : List (Node ℓ V) := E.flatMap fun e => [e.1, e.2]

/-- The second block of an answer is new. -/
def GoodE : List (Edge ℓ V) → Prop
  | [] => True
  | e :: E => GoodE E ∧ e.1.1 = e.2.1 ∧ e.1.2.2 ≠ e.2.2.2 ∧ ∀ n ∈ nodes E, n.1 = e.2.1 → n.2.2 ≠ e.2.2.2

def Spread (ω : Fn ℓ V) (l : List (Node ℓ V)) : Prop := ∀ n ∈ l, ∀ n' ∈ l, n ≠ n' → w ω n ≠ w ω n'

def root : List (Edge ℓ V) → Node ℓ V → Node ℓ V
  | [], n => n
  | e :: E, n => if n = e.2 then root E e.1 else root E n

theorem mem_nodes_cons {e : Edge ℓ V} {E : List (Edge ℓ V)} {n : Node ℓ V} : n ∈ nodes (e :: E) ↔ n = e.1 ∨ n = e.2 ∨ n ∈ nodes E := by
  simp [nodes]

theorem w_bump {t : Tag ℓ} (ht : ∀ j, t ≠ .h j) (ω : Fn ℓ V) (z δ : V) (n : Node ℓ V) : w (bump ω (t, z) δ) n = w ω n := by
  unfold w bump
  rw [if_neg, add_zero]
  intro h
  injection h with h1
  exact ht _ h1.symm

theorem X_bump {t : Tag ℓ} (ht : ∀ j, t ≠ .h j) (he : t ≠ .e) (ω : Fn ℓ V) (z δ : V) (n : Node ℓ V) : X (bump ω (t, z) δ) n = X ω n := by
  unfold X
  rw [w_bump ht]
  unfold bump
  rw [if_neg, add_zero]
  intro h
  injection h with h1
  exact he h1.symm

theorem X_bump_e (ω : Fn ℓ V) (z δ : V) (n : Node ℓ V) : X (bump ω (.e, z) δ) n = X ω n + if w ω n = z then δ else 0 := by
  unfold X
  rw [w_bump (by intro j h; cases h)]
  unfold bump
  simp [add_assoc]

theorem w_bump_h (ω : Fn ℓ V) (j : Fin ℓ) (z δ : V) (n : Node ℓ V) : w (bump ω (.h j, z) δ) n = w ω n + if n.1 = j ∧ n.2.2 = z then δ else 0 := by
  unfold w bump
  simp [add_assoc]

theorem spread_bump {t : Tag ℓ} (ht : ∀ j, t ≠ .h j) (ω : Fn ℓ V) (z δ : V) (l : List (Node ℓ V)) : Spread (bump ω (t, z) δ) l ↔ Spread ω l := by
  unfold Spread
  simp only [w_bump ht]

theorem goodE_node {E : List (Edge ℓ V)} (h : GoodE E) : ∀ e ∈ E, e.1.1 = e.2.1 := by
  induction E with
  | nil => intro e he; simp at he
  | cons a E ih =>
    intro e he
    rcases List.mem_cons.1 he with rfl | he
    · exact h.2.1
    · exact ih h.1 e he

theorem root_pos {E : List (Edge ℓ V)} (h : GoodE E) (n : Node ℓ V) : (root E n).1 = n.1 := by
  induction E generalizing n with
  | nil => rfl
  | cons e E ih =>
    unfold root
    split
    · rename_i hn
      rw [ih h.1, hn, h.2.1]
    · exact ih h.1 n

theorem root_mem (E : List (Edge ℓ V)) (n : Node ℓ V) : root E n = n ∨ root E n ∈ nodes E ∧ n ∈ nodes E := by
  induction E generalizing n with
  | nil => exact .inl rfl
  | cons e E ih =>
    unfold root
    split
    · rename_i hn
      refine .inr ⟨?_, by rw [mem_nodes_cons]; exact .inr (.inl hn)⟩
      rw [mem_nodes_cons]
      rcases ih e.1 with h | h
      · exact .inl h
      · exact .inr (.inr h.1)
    · rcases ih n with h | h
      · exact .inl h
      · exact .inr ⟨by rw [mem_nodes_cons]; exact .inr (.inr h.1), by rw [mem_nodes_cons]; exact .inr (.inr h.2)⟩

theorem root_nodes {E : List (Edge ℓ V)} {n : Node ℓ V} (h : n ∈ nodes E) : root E n ∈ nodes E := by
  rcases root_mem E n with e | e
  · rw [e]; exact h
  · exact e.1

theorem fresh_node {e : Edge ℓ V} {E : List (Edge ℓ V)} (h : GoodE (e :: E)) : e.2 ∉ nodes E ∧ e.1 ≠ e.2 :=
  ⟨fun hn => h.2.2.2 _ hn rfl rfl, fun he => h.2.2.1 (by rw [he])⟩

theorem root_ne {E : List (Edge ℓ V)} (h : GoodE E) (n : Node ℓ V) : ∀ e ∈ E, root E n ≠ e.2 := by
  induction E generalizing n with
  | nil => intro e he; simp at he
  | cons a E ih =>
    obtain ⟨f1, f2⟩ := fresh_node h
    intro e he
    have key : ∀ m : Node ℓ V, m ≠ a.2 → root E m ≠ e.2 := by
      intro m hm
      rcases List.mem_cons.1 he with rfl | he
      · rcases root_mem E m with h' | h'
        · rw [h']; exact hm
        · intro h''; rw [h''] at h'; exact f1 h'.1
      · exact ih h.1 m e he
    unfold root
    split
    · exact key _ f2
    · rename_i hn
      exact key _ hn

theorem root_second {E : List (Edge ℓ V)} (h : GoodE E) {n n' : Node ℓ V} (hr : root E n = root E n') (hn : n ≠ n') : n.2.2 ≠ n'.2.2 := by
  induction E generalizing n n' with
  | nil => exact absurd hr hn
  | cons e E ih =>
    obtain ⟨f1, f2⟩ := fresh_node h
    have key : ∀ m : Node ℓ V, m ≠ e.2 → root E e.1 = root E m → e.2.2.2 ≠ m.2.2 := by
      intro m hm hr
      have hp : m.1 = e.2.1 := by rw [← root_pos h.1 m, ← hr, root_pos h.1, h.2.1]
      by_cases he : m = e.1
      · rw [he]; exact fun h' => h.2.2.1 h'.symm
      · have : m ∈ nodes E := by
          rcases root_mem E m with h1 | h1
          · rcases root_mem E e.1 with h2 | h2
            · exact absurd (h1.symm.trans (hr.symm.trans h2)) he
            · rw [hr, h1] at h2; exact h2.1
          · exact h1.2
        exact fun h' => h.2.2.2 m this hp h'.symm
    unfold root at hr
    by_cases h1 : n = e.2
    · have h2 : n' ≠ e.2 := fun h' => hn (h1.trans h'.symm)
      rw [if_pos h1, if_neg h2] at hr
      rw [h1]
      exact key _ h2 hr
    · by_cases h2 : n' = e.2
      · rw [if_neg h1, if_pos h2] at hr
        rw [h2]
        exact fun h' => key _ h1 hr.symm h'.symm
      · rw [if_neg h1, if_neg h2] at hr
        exact ih h.1 hr hn

theorem root_val {E : List (Edge ℓ V)} {ω : Fn ℓ V} (h : ∀ e ∈ E, Ok ω e) (n : Node ℓ V) : X ω n + w ω n = X ω (root E n) + w ω (root E n) := by
  induction E generalizing n with
  | nil => rfl
  | cons e E ih =>
    have h' : ∀ e ∈ E, Ok ω e := fun e' he => h e' (List.mem_cons_of_mem _ he)
    unfold root
    split
    · rename_i hn
      rw [hn, ← ih h' e.1]
      exact (h e List.mem_cons_self).symm
    · exact ih h' n

theorem ok_bump {t : Tag ℓ} (ht : ∀ j, t ≠ .h j) (he : t ≠ .e) (ω : Fn ℓ V) (z δ : V) (e : Edge ℓ V) : Ok (bump ω (t, z) δ) e ↔ Ok ω e := by
  unfold Ok
  simp only [w_bump ht, X_bump ht he]

theorem edges_prob {l : List (Node ℓ V)} {q : Fn ℓ V → Prop} (hq : ∀ ω, q ω → Spread ω l) : ∀ E : List (Edge ℓ V), GoodE E → (∀ n ∈ nodes E, n ∈ l) →
    (∀ ω δ, ∀ e ∈ E, q ω → q (bump ω (.e, w ω e.2) δ)) →
    prob (fun ω => q ω ∧ ∀ e ∈ E, Ok ω e) = prob q * (1 / Fintype.card V) ^ E.length
  | [], _, _, _ => by
    rw [List.length_nil, pow_zero, mul_one]
    exact prob_congr fun ω => by simp
  | e :: E, h, hl, hs => by
    obtain ⟨f1, f2⟩ := fresh_node h
    have ih := edges_prob hq E h.1 (fun n hn => hl n (by rw [mem_nodes_cons]; exact .inr (.inr hn))) fun ω δ e' he => hs ω δ e' (List.mem_cons_of_mem _ he)
    have m1 : e.1 ∈ l := hl _ (by rw [mem_nodes_cons]; exact .inl rfl)
    have m2 : e.2 ∈ l := hl _ (by rw [mem_nodes_cons]; exact .inr (.inl rfl))
    have ml : ∀ n ∈ nodes E, n ∈ l := fun n hn => hl n (by rw [mem_nodes_cons]; exact .inr (.inr hn))
    have st := shift_eq (ℓ := ℓ) (p := fun ω => q ω ∧ ∀ e ∈ E, Ok ω e) (pt := fun ω => (.e, w ω e.2)) (D := fun ω => X ω e.1 + w ω e.1)
      (D' := fun ω => X ω e.2 + w ω e.2) ?_
    · rw [List.length_cons, pow_succ, ← mul_assoc, ← ih, ← st]
      apply prob_congr
      intro ω
      rw [List.forall_mem_cons, and_assoc, and_comm (a := Ok ω e)]
      rfl
    · rintro ω δ ⟨hq', hE⟩
      have hne : ∀ j : Fin ℓ, (Tag.e : Tag ℓ) ≠ .h j := by intro j h; cases h
      have sp := hq ω hq'
      refine ⟨⟨hs ω δ e List.mem_cons_self hq', ?_⟩, ?_, ?_⟩
      · intro e' he
        have n1 : e'.1 ∈ nodes E := List.mem_flatMap.2 ⟨e', he, by simp⟩
        have n2 : e'.2 ∈ nodes E := List.mem_flatMap.2 ⟨e', he, by simp⟩
        unfold Ok
        rw [w_bump hne, w_bump hne, X_bump_e, X_bump_e, if_neg, if_neg, add_zero, add_zero]
        · exact hE e' he
        · exact sp _ (ml _ n2) _ m2 fun h' => f1 (h' ▸ n2)
        · exact sp _ (ml _ n1) _ m2 fun h' => f1 (h' ▸ n1)
      · rw [w_bump hne]
      · rw [w_bump hne, w_bump hne, X_bump_e, X_bump_e, if_neg (sp _ m1 _ m2 f2), if_pos rfl]
        ring

/-- Two nodes rarely have the same `w`. -/
theorem node_coll {n n' : Node ℓ V} (h : n ≠ n') : prob (fun ω : Fn ℓ V => True ∧ ¬ (n ≠ n' → w ω n ≠ w ω n')) ≤ 1 / Fintype.card V := by
  have t2 := two (V := V)
  by_cases hs : n.1 = n'.1 ∧ n.2.2 = n'.2.2
  · rw [prob_zero]
    · have := card_pos (V := V); positivity
    · rintro ω ⟨-, hw⟩
      apply hw
      intro _ e
      apply h
      unfold w at e
      rw [hs.1, hs.2] at e
      exact Prod.ext hs.1 (Prod.ext (add_right_cancel e) hs.2)
  · have st := shift_eq (ℓ := ℓ) (p := fun _ => True) (pt := fun _ => (.h n.1, n.2.2)) (D := fun ω => w ω n) (D' := fun ω => w ω n') ?_
    · refine le_trans (le_trans (prob_mono ?_) (le_of_eq st)) ?_
      · rintro ω ⟨-, hw⟩
        refine ⟨trivial, ?_⟩
        by_contra hn
        exact hw fun _ => hn
      · have : prob (fun _ : Fn ℓ V => True) ≤ 1 := by
          have := prob_not (fun _ : Fn ℓ V => True)
          have := prob_nonneg (fun _ : Fn ℓ V => ¬ True)
          linarith
        have hc := card_pos (V := V)
        calc prob (fun _ : Fn ℓ V => True) * (1 / Fintype.card V) ≤ 1 * (1 / Fintype.card V) := mul_le_mul_of_nonneg_right this (by positivity)
          _ = _ := one_mul _
    · intro ω δ _
      refine ⟨trivial, rfl, ?_⟩
      rw [w_bump_h, w_bump_h, if_pos ⟨rfl, rfl⟩, if_neg fun h' => hs ⟨h'.1.symm, h'.2.symm⟩]
      ring

theorem prob_le_one {Ω : Type} [Fintype Ω] [Nonempty Ω] (p : Ω → Prop) : prob p ≤ 1 := by
  have h1 := prob_not p
  have h2 := prob_nonneg fun ω => ¬ p ω
  linarith

theorem spread_prob (l : List (Node ℓ V)) : 1 - (l.length : ℚ) * (l.length - 1) / 2 * (1 / Fintype.card V) ≤ prob (fun ω : Fn ℓ V => Spread ω l) := by
  have h := prob_pairs (p := fun _ : Fn ℓ V => True) (R := fun ω n n' => n ≠ n' → w ω n ≠ w ω n') (c := 1 / Fintype.card V) l ?_
  · rw [prob_not]
    have : prob (fun ω : Fn ℓ V => ¬ Spread ω l) ≤ prob (fun ω : Fn ℓ V => True ∧ ¬ l.Pairwise fun n n' => n ≠ n' → w ω n ≠ w ω n') := by
      apply prob_mono
      intro ω hs
      refine ⟨trivial, fun hp => hs ?_⟩
      have : Std.Symm fun n n' : Node ℓ V => n ≠ n' → w ω n ≠ w ω n' := ⟨fun _ _ h hne e => h (Ne.symm hne) e.symm⟩
      exact fun n hn n' hn' => List.Pairwise.forall_of_forall (fun n _ hne => absurd rfl hne) hp hn hn'
    linarith
  · refine List.pairwise_iff_forall_sublist.2 fun {a b} _ => ?_
    by_cases hab : a = b
    · rw [prob_zero]
      · have := card_pos (V := V); positivity
      · rintro ω ⟨-, hw⟩
        exact hw fun h => absurd hab h
    · exact node_coll hab

end Verif.Wide
