import Verif.Hcoef
import Mathlib.Algebra.Group.Pi.Basic
import Mathlib.Algebra.Group.End
import Mathlib.Algebra.BigOperators.Group.List.Basic
import Mathlib.Algebra.BigOperators.Intervals
import Mathlib.Data.Fintype.Perm
import Mathlib.Data.Fintype.Sigma
import Mathlib.Tactic.Ring
import Mathlib.Tactic.Linarith

/-!
# Permutations whose answers look fresh

An attack asks for images and preimages under a permutation of each of finitely many sets.  In the fresh game every answer that does not follow from
those before is uniform.  A family of permutations is compared with the fresh game by the probabilities of those transcripts, in the order in which they
arise, that are good.  Uniform permutations are an instance.
-/

namespace Verif.Fresh

open Verif Verif.Avg Verif.Oracle

set_option linter.unusedSectionVars false

variable {I : Type} [Fintype I] [DecidableEq I] {W : I → Type} [∀ i, Fintype (W i)] [∀ i, DecidableEq (W i)] [∀ i, Nonempty (W i)]

/-- A question or an answer. -/
abbrev Str (W : I → Type) := Σ i, W i
/-- A permutation of each set. -/
abbrev Fam (W : I → Type) := ∀ i, Equiv.Perm (W i)
/-- A question with its answer: the direction in which it was asked (`true` for the inverse), and a point with its image. -/
abbrev Ent (W : I → Type) := Bool × Σ i, W i × W i

/-- The answers to questions in both directions. -/
def ans (P : Fam W) (x : Bool × Str W) : Str W := ⟨x.2.1, if x.1 then (P x.2.1).symm x.2.2 else P x.2.1 x.2.2⟩

/-- Point and image, from question and answer. -/
def mk {i : I} (d : Bool) (a b : W i) : W i × W i := if d then (b, a) else (a, b)

def Fit (P : Fam W) (L : List (Ent W)) : Prop := ∀ e ∈ L, P e.2.1 e.2.2.1 = e.2.2.2

/-- The pair is in the list. -/
def Mem (L : List (Ent W)) (i : I) (p : W i × W i) : Prop := ∃ d, (d, (⟨i, p⟩ : Σ i, W i × W i)) ∈ L

/-- The entry of a question with its answer. -/
def ent (x : Bool × Str W) (b : W x.2.1) : Ent W := (x.1, ⟨x.2.1, mk x.1 x.2.2 b⟩)

theorem fit_mk (P : Fam W) {i : I} (d : Bool) (a b : W i) : P i (mk d a b).1 = (mk d a b).2 ↔ ans P (d, ⟨i, a⟩) = ⟨i, b⟩ := by
  cases d
  · simp [mk, ans]
  · simp only [mk, ans, if_true, Sigma.mk.injEq, heq_eq_eq, true_and]
    rw [Equiv.symm_apply_eq, eq_comm]

theorem fit_cons (P : Fam W) (x : Bool × Str W) (b : W x.2.1) (L : List (Ent W)) : Fit P (ent x b :: L) ↔ ans P x = ⟨x.2.1, b⟩ ∧ Fit P L := by
  unfold Fit
  rw [List.forall_mem_cons]
  exact and_congr (fit_mk P x.1 x.2.2 b) Iff.rfl

/-- The game in which answers are fresh, unless they are known; at its end the list is worth `fin`. -/
noncomputable def game (fin : List (Ent W) → Bool → ℚ) : List (Ent W) → Att (Bool × Str W) (Str W) → ℚ
  | L, .done b => fin L b
  | L, .ask x c =>
    haveI := Classical.propDecidable
    if h : ∃ b, Mem L x.2.1 (mk x.1 x.2.2 b) then game fin L (c ⟨x.2.1, h.choose⟩)
    else E fun b : W x.2.1 => game fin (ent x b :: L) (c ⟨x.2.1, b⟩)

theorem game_known {fin : List (Ent W) → Bool → ℚ} {L : List (Ent W)} {x : Bool × Str W} {c : Str W → Att (Bool × Str W) (Str W)}
    (h : ∃ b, Mem L x.2.1 (mk x.1 x.2.2 b)) : game fin L (.ask x c) = game fin L (c ⟨x.2.1, h.choose⟩) := by
  rw [game, dif_pos h]

theorem game_new {fin : List (Ent W) → Bool → ℚ} {L : List (Ent W)} {x : Bool × Str W} {c : Str W → Att (Bool × Str W) (Str W)}
    (h : ¬ ∃ b, Mem L x.2.1 (mk x.1 x.2.2 b)) :
    game fin L (.ask x c) = E fun b : W x.2.1 => game fin (ent x b :: L) (c ⟨x.2.1, b⟩) := by
  rw [game, dif_neg h]

theorem game_add (f g : List (Ent W) → Bool → ℚ) (A : Att (Bool × Str W) (Str W)) : ∀ L : List (Ent W),
    game (fun L b => f L b + g L b) L A = game f L A + game g L A := by
  induction A with
  | done b => intro L; rfl
  | ask x c ih =>
    intro L
    by_cases h : ∃ b, Mem L x.2.1 (mk x.1 x.2.2 b)
    · rw [game_known h, game_known h, game_known h, ih]
    · rw [game_new h, game_new h, game_new h, ← E_add]
      congr 1
      funext b
      exact ih _ _

theorem game_mono {f g : List (Ent W) → Bool → ℚ} (h : ∀ L b, f L b ≤ g L b) (A : Att (Bool × Str W) (Str W)) : ∀ L : List (Ent W),
    game f L A ≤ game g L A := by
  induction A with
  | done b => intro L; exact h L b
  | ask x c ih =>
    intro L
    by_cases h : ∃ b, Mem L x.2.1 (mk x.1 x.2.2 b)
    · rw [game_known h, game_known h]; exact ih _ _
    · rw [game_new h, game_new h]; exact E_mono fun b => ih _ _

theorem game_const (r : ℚ) (A : Att (Bool × Str W) (Str W)) : ∀ L : List (Ent W), game (fun _ _ => r) L A = r := by
  induction A with
  | done b => intro L; rfl
  | ask x c ih =>
    intro L
    by_cases h : ∃ b, Mem L x.2.1 (mk x.1 x.2.2 b)
    · rw [game_known h]; exact ih _ _
    · rw [game_new h]
      simp only [ih]
      exact E_const _

/-- The probability of a list with fresh answers. -/
def wt (L : List (Ent W)) : ℚ := (L.map fun e => 1 / (Fintype.card (W e.2.1) : ℚ)).prod

theorem wt_cons (x : Bool × Str W) (b : W x.2.1) (L : List (Ent W)) : wt (ent x b :: L) = 1 / (Fintype.card (W x.2.1) : ℚ) * wt L := by
  unfold wt
  rw [List.map_cons, List.prod_cons]
  rfl

theorem wt_nonneg (L : List (Ent W)) : 0 ≤ wt L := by
  unfold wt
  apply List.prod_nonneg
  intro a ha
  obtain ⟨e, -, rfl⟩ := List.mem_map.1 ha
  positivity

section
variable {Ω : Type} [Fintype Ω] (P : Ω → Fam W)

open scoped Classical in
theorem step (v : ℚ → ℚ) (L : List (Ent W)) (x : Bool × Str W) (c : Str W → Att (Bool × Str W) (Str W)) :
    E (fun ω => if Fit (P ω) L then v (play (ans (P ω)) (.ask x c)) else 0) =
      ∑ b : W x.2.1, E (fun ω => if Fit (P ω) (ent x b :: L) then v (play (ans (P ω)) (c ⟨x.2.1, b⟩)) else 0) := by
  rw [← E_sum]
  congr 1
  funext ω
  obtain ⟨y, hy⟩ : ∃ y, ans (P ω) x = ⟨x.2.1, y⟩ := ⟨_, rfl⟩
  have e : ∀ b, (if Fit (P ω) (ent x b :: L) then v (play (ans (P ω)) (c ⟨x.2.1, b⟩)) else 0) =
      if y = b then (if Fit (P ω) L then v (play (ans (P ω)) (c ⟨x.2.1, b⟩)) else 0) else 0 := by
    intro b
    have hb : ans (P ω) x = ⟨x.2.1, b⟩ ↔ y = b := by
      rw [hy]
      simp
    have := fit_cons (P ω) x b L
    by_cases h1 : y = b <;> by_cases h2 : Fit (P ω) L <;> simp [this, hb, h1, h2]
  simp only [e]
  rw [Finset.sum_ite_eq]
  simp [play, hy]

open scoped Classical in
theorem lower {Good : List (Ent W) → Prop} {ε : ℚ} {q : Nat} (h : ∀ L, Good L → L.length ≤ q → (1 - ε) * wt L ≤ prob (fun ω => Fit (P ω) L))
    {v : ℚ → ℚ} (h0 : 0 ≤ v 0) (h1 : 0 ≤ v 1) {k : Nat} {A : Att (Bool × Str W) (Str W)} (hA : AtMost k A) : ∀ L : List (Ent W), L.length + k ≤ q →
      (1 - ε) * (wt L * game (fun L b => if Good L then v (if b then 1 else 0) else 0) L A) ≤
        E (fun ω => if Fit (P ω) L then v (play (ans (P ω)) A) else 0) := by
  induction hA with
  | done b =>
    intro L hL
    have hv : 0 ≤ v (if b then 1 else 0) := by cases b <;> assumption
    have e : E (fun ω => if Fit (P ω) L then v (play (ans (P ω)) (.done b)) else 0) = v (if b then 1 else 0) * prob (fun ω => Fit (P ω) L) := by
      unfold prob
      rw [← E_mul]
      congr 1
      funext ω
      simp only [play, mul_ite, mul_one, mul_zero]
    rw [e, game]
    by_cases hg : Good L
    · rw [if_pos hg]
      calc (1 - ε) * (wt L * v (if b then 1 else 0)) = v (if b then 1 else 0) * ((1 - ε) * wt L) := by ring
        _ ≤ _ := mul_le_mul_of_nonneg_left (h L hg (by omega)) hv
    · rw [if_neg hg, mul_zero, mul_zero]
      exact mul_nonneg hv (prob_nonneg _)
  | @ask k x c _ ih =>
    intro L hL
    by_cases hs : ∃ b, Mem L x.2.1 (mk x.1 x.2.2 b)
    · rw [game_known hs]
      refine le_trans (ih _ L (by omega)) (le_of_eq ?_)
      congr 1
      funext ω
      by_cases hf : Fit (P ω) L
      · rw [if_pos hf, if_pos hf]
        obtain ⟨d, hd⟩ := hs.choose_spec
        have := (fit_mk (P ω) x.1 x.2.2 hs.choose).1 (hf _ hd)
        rw [show play (ans (P ω)) (.ask x c) = play (ans (P ω)) (c (ans (P ω) x)) from rfl, this]
      · rw [if_neg hf, if_neg hf]
    · rw [game_new hs, step]
      have e : (1 - ε) * (wt L * E fun b : W x.2.1 => game (fun L b => if Good L then v (if b then 1 else 0) else 0) (ent x b :: L) (c ⟨x.2.1, b⟩)) =
          ∑ b : W x.2.1, (1 - ε) * (wt (ent x b :: L) *
            game (fun L b => if Good L then v (if b then 1 else 0) else 0) (ent x b :: L) (c ⟨x.2.1, b⟩)) := by
        simp only [wt_cons]
        unfold E
        rw [← Finset.mul_sum]
        congr 1
        rw [Finset.sum_div, Finset.mul_sum]
        refine Finset.sum_congr rfl fun b _ => ?_
        ring
      rw [e]
      exact Finset.sum_le_sum fun b _ => ih _ _ (by rw [List.length_cons]; omega)

end

open scoped Classical in
theorem bad_le {Good : List (Ent W) → Prop} {β : Nat → ℚ} (hβ : ∀ j, 0 ≤ β j)
    (h : ∀ (L : List (Ent W)) (x : Bool × Str W), Good L → (¬ ∃ b, Mem L x.2.1 (mk x.1 x.2.2 b)) → prob (fun b => ¬ Good (ent x b :: L)) ≤ β L.length)
    {k : Nat} {A : Att (Bool × Str W) (Str W)} (hA : AtMost k A) : ∀ L : List (Ent W), Good L →
      game (fun L _ => if Good L then 0 else 1) L A ≤ ∑ j ∈ Finset.range k, β (L.length + j) := by
  induction hA with
  | done b =>
    intro L hL
    rw [game, if_pos hL]
    exact Finset.sum_nonneg fun j _ => hβ _
  | @ask k x c _ ih =>
    intro L hL
    rw [Finset.sum_range_succ']
    by_cases hs : ∃ b, Mem L x.2.1 (mk x.1 x.2.2 b)
    · rw [game_known hs]
      refine le_trans (ih _ L hL) ?_
      have a1 : ∑ j ∈ Finset.range k, β (L.length + j) ≤ ∑ j ∈ Finset.range (k + 1), β (L.length + j) := by
        rw [Finset.sum_range_succ]
        have := hβ (L.length + k)
        linarith
      rw [Finset.sum_range_succ'] at a1
      exact a1
    · rw [game_new hs]
      have hb : ∀ b : W x.2.1, game (fun L _ => if Good L then (0 : ℚ) else 1) (ent x b :: L) (c ⟨x.2.1, b⟩) ≤
          ∑ j ∈ Finset.range k, β (L.length + (j + 1)) + if ¬ Good (ent x b :: L) then 1 else 0 := by
        intro b
        by_cases hg : Good (ent x b :: L)
        · rw [if_neg (not_not.2 hg), add_zero]
          refine le_trans (ih _ _ hg) (le_of_eq (Finset.sum_congr rfl fun j _ => ?_))
          rw [List.length_cons]
          congr 1
          omega
        · rw [if_pos hg]
          have h1 : game (fun L _ => if Good L then (0 : ℚ) else 1) (ent x b :: L) (c ⟨x.2.1, b⟩) ≤ 1 := by
            have := game_mono (f := fun L _ => if Good L then (0 : ℚ) else 1) (g := fun _ _ => 1) (fun L b => by split <;> norm_num)
              (c ⟨x.2.1, b⟩) (ent x b :: L)
            rwa [game_const] at this
          have := Finset.sum_nonneg (s := Finset.range k) fun j _ => hβ (L.length + (j + 1))
          linarith
      refine le_trans (E_mono hb) ?_
      rw [E_add, E_const, add_zero]
      refine add_le_add (le_refl _) (le_trans (le_of_eq ?_) (h L x hL hs))
      unfold prob
      congr 1
      funext b
      by_cases g : Good (ent x b :: L) <;> simp [g]

/-- Permutations for which good transcripts are nearly as probable as in the fresh game. -/
theorem close {Ω : Type} [Fintype Ω] [Nonempty Ω] (P : Ω → Fam W) {Good : List (Ent W) → Prop} {ε : ℚ} (hε : 0 ≤ ε) {q : Nat}
    (h : ∀ L, Good L → L.length ≤ q → (1 - ε) * wt L ≤ prob (fun ω => Fit (P ω) L)) (hn : Good []) {β : Nat → ℚ} (hβ : ∀ j, 0 ≤ β j)
    (hb : ∀ (L : List (Ent W)) (x : Bool × Str W), Good L → (¬ ∃ b, Mem L x.2.1 (mk x.1 x.2.2 b)) → prob (fun b => ¬ Good (ent x b :: L)) ≤ β L.length)
    {A : Att (Bool × Str W) (Str W)} (hA : AtMost q A) :
    |E (fun ω => play (ans (P ω)) A) - game (fun _ b => if b then 1 else 0) [] A| ≤ ε + ∑ j ∈ Finset.range q, β j := by
  classical
  have e : ∀ v : ℚ → ℚ, E (fun ω => if Fit (P ω) [] then v (play (ans (P ω)) A) else 0) = E (fun ω => v (play (ans (P ω)) A)) := by
    intro v
    congr 1
    funext ω
    rw [if_pos (by intro p hp; simp at hp)]
  have a1 := lower P h (v := fun x => x) le_rfl zero_le_one hA [] (by simp)
  have a2 := lower P h (v := fun x => 1 - x) (by norm_num) (by norm_num) hA [] (by simp)
  have b := bad_le hβ hb hA [] hn
  simp only [List.length_nil, Nat.zero_add] at b
  rw [e (fun x => x)] at a1
  rw [e (fun x => 1 - x), ← E_sub, E_const] at a2
  have w : wt ([] : List (Ent W)) = 1 := rfl
  rw [w, one_mul] at a1 a2
  have c1 : game (fun _ b => if b then (1 : ℚ) else 0) [] A ≤
      game (fun L b => if Good L then (if b then 1 else 0) else 0) [] A + game (fun L _ => if Good L then (0 : ℚ) else 1) [] A := by
    rw [← game_add]
    exact game_mono (fun L b => by by_cases hg : Good L <;> cases b <;> simp [hg]) A []
  have c2 : 1 - game (fun _ b => if b then (1 : ℚ) else 0) [] A ≤
      game (fun L b => if Good L then 1 - (if b then 1 else 0) else 0) [] A + game (fun L _ => if Good L then (0 : ℚ) else 1) [] A := by
    have g := game_add (fun _ b => if b then (1 : ℚ) else 0) (fun _ b => 1 - if b then (1 : ℚ) else 0) A []
    have e2 : (fun (_ : List (Ent W)) (b : Bool) => (if b then (1 : ℚ) else 0) + (1 - if b then (1 : ℚ) else 0)) = fun _ _ => 1 := by
      funext _ b; ring
    rw [e2, game_const] at g
    have : game (fun _ b => 1 - if b then (1 : ℚ) else 0) [] A ≤
        game (fun L b => if Good L then 1 - (if b then 1 else 0) else 0) [] A + game (fun L _ => if Good L then (0 : ℚ) else 1) [] A := by
      rw [← game_add]
      exact game_mono (fun L b => by by_cases hg : Good L <;> cases b <;> simp [hg]) A []
    linarith
  have u1 : game (fun L b => if Good L then (if b then (1 : ℚ) else 0) else 0) [] A ≤ 1 := by
    have := game_mono (f := fun L b => if Good L then (if b then (1 : ℚ) else 0) else 0) (g := fun _ _ => 1)
      (fun L b => by by_cases hg : Good L <;> cases b <;> simp [hg]) A []
    rwa [game_const] at this
  have u2 : game (fun L b => if Good L then 1 - (if b then (1 : ℚ) else 0) else 0) [] A ≤ 1 := by
    have := game_mono (f := fun L b => if Good L then 1 - (if b then (1 : ℚ) else 0) else 0) (g := fun _ _ => 1)
      (fun L b => by by_cases hg : Good L <;> cases b <;> simp [hg]) A []
    rwa [game_const] at this
  rw [abs_le]
  constructor <;> nlinarith

/-! ## Uniform permutations -/

/-- A bijection of the choices preserves probabilities. -/
theorem prob_equiv {α β : Type} [Fintype α] [Fintype β] (τ : α ≃ β) {p : α → Prop} {r : β → Prop} (h : ∀ a, p a ↔ r (τ a)) : prob p = prob r := by
  classical
  unfold prob
  rw [← E_equiv τ]
  congr 1
  funext a
  by_cases g : p a
  · rw [if_pos g, if_pos ((h a).1 g)]
  · rw [if_neg g, if_neg fun g' => g ((h a).2 g')]

/-- No point and no image twice. -/
def Inj : List (Ent W) → Prop
  | [] => True
  | e :: L => Inj L ∧ ∀ p, Mem L e.2.1 p → p.1 ≠ e.2.2.1 ∧ p.2 ≠ e.2.2.2

theorem perm_swap {i : I} {L : List (Ent W)} (a b b' : W i) (hb : ∀ p, Mem L i p → p.2 ≠ b) (hb' : ∀ p, Mem L i p → p.2 ≠ b') :
    prob (fun P : Fam W => P i a = b ∧ Fit P L) = prob (fun P : Fam W => P i a = b' ∧ Fit P L) := by
  classical
  let τ : Fam W ≃ Fam W :=
    { toFun := fun P => Function.update P i ((P i).trans (Equiv.swap b b'))
      invFun := fun P => Function.update P i ((P i).trans (Equiv.swap b b'))
      left_inv := fun P => by
        funext j
        by_cases h : j = i
        · subst h
          apply Equiv.ext
          intro z
          simp
        · simp [h]
      right_inv := fun P => by
        funext j
        by_cases h : j = i
        · subst h
          apply Equiv.ext
          intro z
          simp
        · simp [h] }
  have key : ∀ P : Fam W, (P i a = b ∧ Fit P L) ↔ ((τ P) i a = b' ∧ Fit (τ P) L) := by
    intro P
    have h1 : (τ P) i a = Equiv.swap b b' (P i a) := by simp [τ]
    have h2 : Fit P L ↔ Fit (τ P) L := by
      refine forall₂_congr fun e he => ?_
      obtain ⟨d, j, p⟩ := e
      by_cases h : j = i
      · subst h
        have m : Mem L j p := ⟨d, he⟩
        have : (τ P) j p.1 = Equiv.swap b b' (P j p.1) := by simp [τ]
        simp only
        rw [this]
        constructor
        · intro e
          rw [e, Equiv.swap_apply_of_ne_of_ne (hb p m) (hb' p m)]
        · intro e
          have := congrArg (Equiv.swap b b') e
          rwa [Equiv.swap_apply_self, Equiv.swap_apply_of_ne_of_ne (hb p m) (hb' p m)] at this
      · have : (τ P) j = P j := by simp [τ, h]
        simp only
        rw [this]
    rw [h1, ← h2]
    constructor
    · rintro ⟨e, f⟩
      exact ⟨by rw [e, Equiv.swap_apply_left], f⟩
    · rintro ⟨e, f⟩
      refine ⟨?_, f⟩
      have := congrArg (Equiv.swap b b') e
      rwa [Equiv.swap_apply_self, Equiv.swap_apply_right] at this
  exact prob_equiv τ key

theorem perm_ge : ∀ L : List (Ent W), Inj L → wt L ≤ prob (fun P : Fam W => Fit P L)
  | [], _ => by
    classical
    have : prob (fun P : Fam W => Fit P []) = 1 := by
      unfold prob
      have : ∀ P : Fam W, (if Fit P [] then (1 : ℚ) else 0) = 1 := fun P => if_pos (by intro e he; simp at he)
      simp only [this]
      exact E_const _
    rw [this]
    exact le_rfl
  | (d, ⟨i, p⟩) :: L, h => by
    classical
    have ih := perm_ge L h.1
    have hne := h.2
    have hc : (0 : ℚ) < Fintype.card (W i) := by exact_mod_cast Fintype.card_pos
    have e1 : prob (fun P : Fam W => Fit P ((d, ⟨i, p⟩) :: L)) = prob (fun P : Fam W => P i p.1 = p.2 ∧ Fit P L) := by
      apply prob_congr
      intro P
      unfold Fit
      rw [List.forall_mem_cons]
    have le : ∀ b : W i, prob (fun P : Fam W => P i p.1 = b ∧ Fit P L) ≤ prob (fun P : Fam W => P i p.1 = p.2 ∧ Fit P L) := by
      intro b
      by_cases hb : ∀ p', Mem L i p' → p'.2 ≠ b
      · exact le_of_eq (perm_swap p.1 b p.2 hb fun p' m => (hne p' m).2)
      · have : prob (fun P : Fam W => P i p.1 = b ∧ Fit P L) = 0 := by
          apply prob_zero
          rintro P ⟨h1, h2⟩
          apply hb
          intro p' m e
          obtain ⟨d', hd⟩ := m
          have := h2 _ hd
          simp only at this
          rw [e, ← h1] at this
          exact (hne p' ⟨d', hd⟩).1 ((P i).injective this)
        rw [this]
        exact prob_nonneg _
    have sum : prob (fun P : Fam W => Fit P L) = ∑ b : W i, prob (fun P : Fam W => P i p.1 = b ∧ Fit P L) := by
      unfold prob
      rw [← E_sum]
      congr 1
      funext P
      by_cases hf : Fit P L
      · simp [hf]
      · simp [hf]
    have : prob (fun P : Fam W => Fit P L) ≤ Fintype.card (W i) * prob (fun P : Fam W => P i p.1 = p.2 ∧ Fit P L) := by
      rw [sum]
      refine le_trans (Finset.sum_le_sum fun b _ => le b) (le_of_eq ?_)
      rw [Finset.sum_const, Finset.card_univ, nsmul_eq_mul]
    rw [e1, show wt ((d, (⟨i, p⟩ : Σ i, W i × W i)) :: L) = 1 / (Fintype.card (W i) : ℚ) * wt L by unfold wt; rw [List.map_cons, List.prod_cons],
      one_div, inv_mul_le_iff₀ hc]
    exact le_trans ih this

/-- The number of new answers that are excluded by a list. -/
theorem prob_list {i : I} (L : List (Ent W)) (g : W i × W i → W i) :
    prob (fun b : W i => ∃ p, Mem L i p ∧ g p = b) ≤ (L.length : ℚ) / Fintype.card (W i) := by
  classical
  let S : Finset (W i) := (L.filterMap fun e => if h : e.2.1 = i then some (g (h ▸ e.2.2)) else none).toFinset
  have h1 : prob (fun b : W i => ∃ p, Mem L i p ∧ g p = b) ≤ prob (fun b => b ∈ S) := by
    apply prob_mono
    rintro b ⟨p, ⟨d, hd⟩, e⟩
    rw [List.mem_toFinset, List.mem_filterMap]
    exact ⟨_, hd, by simp [e]⟩
  refine le_trans h1 ?_
  rw [prob_mem]
  refine div_le_div_of_nonneg_right ?_ (Nat.cast_nonneg _)
  exact_mod_cast le_trans (List.toFinset_card_le _) (List.length_filterMap_le _ _)

theorem sum_range_div (q : Nat) (M : ℚ) : ∑ j ∈ Finset.range q, (j : ℚ) / M = (q : ℚ) * (q - 1) / (2 * M) := by
  induction q with
  | zero => simp
  | succ q ih =>
    rw [Finset.sum_range_succ, ih]
    by_cases hM : M = 0
    · simp [hM]
    · push_cast
      field_simp
      ring

/-- Uniform permutations look fresh. -/
theorem perm_close {M : Nat} (hM : 0 < M) (h : ∀ i, M ≤ Fintype.card (W i)) {q : Nat} {A : Att (Bool × Str W) (Str W)} (hA : AtMost q A) :
    |E (fun P : Fam W => play (ans P) A) - game (fun _ b => if b then 1 else 0) [] A| ≤ (q : ℚ) * (q - 1) / (2 * M) := by
  classical
  have hM' : (0 : ℚ) < M := by exact_mod_cast hM
  have key := close (W := W) (fun P : Fam W => P) (Good := Inj) (ε := 0) le_rfl (q := q) (fun L hL _ => by rw [sub_zero, one_mul]; exact perm_ge L hL)
    trivial (β := fun j => (j : ℚ) / M) (fun j => by positivity) ?_ hA
  · rw [zero_add, sum_range_div] at key
    exact key
  · rintro L ⟨d, i, a⟩ hL hs
    have hc : (M : ℚ) ≤ Fintype.card (W i) := by exact_mod_cast h i
    have h1 : prob (fun b : W i => ¬ Inj (ent (d, ⟨i, a⟩) b :: L)) ≤ prob (fun b : W i => ∃ p, Mem L i p ∧ (if d then p.1 else p.2) = b) := by
      apply prob_mono
      intro b hb
      by_contra hn
      apply hb
      refine ⟨hL, fun p m => ?_⟩
      have m' : Mem L i p := m
      have h1 : (if d then p.1 else p.2) ≠ b := fun e => hn ⟨p, m', e⟩
      have h2 : (if d then p.2 else p.1) ≠ a := by
        intro e
        apply hs
        refine ⟨if d then p.1 else p.2, ?_⟩
        cases d <;> simp only [mk, Bool.false_eq_true, if_false, if_true] at e ⊢ <;> rw [← e] <;> exact m'
      cases d <;> simp only [ent, mk, Bool.false_eq_true, if_false, if_true] at h1 h2 ⊢
      · exact ⟨h2, h1⟩
      · exact ⟨h1, h2⟩
    refine le_trans h1 (le_trans (prob_list L _) ?_)
    exact div_le_div_of_nonneg_left (Nat.cast_nonneg _) hM' hc

end Verif.Fresh
