import Verif.Wide

/-!
# The sums of a wide permutation rarely collide
-/

namespace Verif.Wide

open Verif Verif.Avg Verif.Oracle Verif.Fresh

set_option linter.unusedSectionVars false

variable {ℓ : Nat} {V : Type} [CommRing V] [Fintype V] [DecidableEq V] [h2 : Fact ((2 : V) = 0)]

/-- A string: the last two blocks, pairs of blocks, partial blocks. -/
@[ext] structure Side (ℓ : Nat) (V : Type) where
  x : V
  y : V
  blk : Fin ℓ → Option (V × V)
  u : Option V
  v : Option V

def term (ω : Fn ℓ V) (t : Tag ℓ) (o : Option V) : V := o.elim 0 fun z => ω (t, z)

/-- The sum of a string. -/
def sum (ω : Fn ℓ V) (d : Bool) (A : Side ℓ V) : V :=
  A.x + ω (.f d, A.y) + term ω .u A.u + term ω .v A.v + ∑ j, (A.blk j).elim 0 fun p => X ω (j, p)

theorem term_bump (ω : Fn ℓ V) (t t' : Tag ℓ) (z δ : V) (o : Option V) : term (bump ω (t, z) δ) t' o = term ω t' o + if t' = t ∧ o = some z then δ else 0 := by
  cases o with
  | none => simp [term]
  | some a => simp [term, bump]

theorem blocks_bump {t : Tag ℓ} (ht : ∀ j, t ≠ .h j) (he : t ≠ .e) (ω : Fn ℓ V) (z δ : V) (A : Side ℓ V) :
    (∑ j, (A.blk j).elim 0 fun p => X (bump ω (t, z) δ) (j, p)) = ∑ j, (A.blk j).elim 0 fun p => X ω (j, p) := by
  simp only [X_bump ht he]

theorem sum_bump_f (ω : Fn ℓ V) (d d' : Bool) (z δ : V) (A : Side ℓ V) :
    sum (bump ω (.f d, z) δ) d' A = sum ω d' A + if d' = d ∧ A.y = z then δ else 0 := by
  unfold sum
  rw [blocks_bump (by intro j h; cases h) (by intro h; cases h), term_bump, term_bump]
  simp only [reduceCtorEq, false_and, if_false, add_zero]
  unfold bump
  simp only [Prod.mk.injEq, Tag.f.injEq]
  ring

theorem sum_bump_u (ω : Fn ℓ V) (d' : Bool) (z δ : V) (A : Side ℓ V) :
    sum (bump ω (.u, z) δ) d' A = sum ω d' A + if A.u = some z then δ else 0 := by
  unfold sum
  rw [blocks_bump (by intro j h; cases h) (by intro h; cases h), term_bump, term_bump]
  simp only [reduceCtorEq, false_and, if_false, add_zero, true_and]
  unfold bump
  simp only [Prod.mk.injEq, reduceCtorEq, false_and, if_false, add_zero]
  ring

theorem sum_bump_v (ω : Fn ℓ V) (d' : Bool) (z δ : V) (A : Side ℓ V) :
    sum (bump ω (.v, z) δ) d' A = sum ω d' A + if A.v = some z then δ else 0 := by
  unfold sum
  rw [blocks_bump (by intro j h; cases h) (by intro h; cases h), term_bump, term_bump]
  simp only [reduceCtorEq, false_and, if_false, add_zero, true_and]
  unfold bump
  simp only [Prod.mk.injEq, reduceCtorEq, false_and, if_false, add_zero]
  ring

/-- The functions that are asked only after the sums are known. -/
def Inner : Tag ℓ → Prop
  | .g _ => True
  | .cu => True
  | .cv => True
  | .k _ => True
  | _ => False

theorem inner_h {t : Tag ℓ} (h : Inner t) : ∀ j, t ≠ .h j := by rintro j rfl; exact h
theorem inner_e {t : Tag ℓ} (h : Inner t) : t ≠ .e := by rintro rfl; exact h

theorem sum_inner {t : Tag ℓ} (h : Inner t) (ω : Fn ℓ V) (d : Bool) (z δ : V) (A : Side ℓ V) : sum (bump ω (t, z) δ) d A = sum ω d A := by
  have hf : ∀ d, Tag.f d ≠ t := by rintro d rfl; exact h
  have hu : Tag.u ≠ t := by rintro rfl; exact h
  have hv : Tag.v ≠ t := by rintro rfl; exact h
  unfold sum
  rw [blocks_bump (inner_h h) (inner_e h), term_bump, term_bump]
  unfold bump
  simp [hf, hu, hv]

/-- The pairs of blocks fit, and no two nodes have the same `w`. -/
def Hge (E : List (Edge ℓ V)) (ω : Fn ℓ V) : Prop := Spread ω (nodes E) ∧ ∀ e ∈ E, Ok ω e

theorem hge_bump {t : Tag ℓ} (ht : ∀ j, t ≠ .h j) (he : t ≠ .e) {E : List (Edge ℓ V)} {ω : Fn ℓ V} (z δ : V) (h : Hge E ω) : Hge E (bump ω (t, z) δ) :=
  ⟨(spread_bump ht ω z δ _).2 h.1, fun e m => (ok_bump ht he ω z δ e).2 (h.2 e m)⟩

theorem hge_prob {E : List (Edge ℓ V)} (hE : GoodE E) : prob (Hge E) = prob (fun ω : Fn ℓ V => Spread ω (nodes E)) * (1 / Fintype.card V) ^ E.length :=
  edges_prob (l := nodes E) (q := fun ω => Spread ω (nodes E)) (fun _ h => h) E hE (fun _ h => h)
    fun ω δ e _ h => (spread_bump (by intro j h; cases h) ω _ δ _).2 h

theorem hge_le {E : List (Edge ℓ V)} (hE : GoodE E) : prob (Hge (V := V) E) ≤ (1 / Fintype.card V) ^ E.length := by
  rw [hge_prob hE]
  have := card_pos (V := V)
  calc _ ≤ 1 * (1 / (Fintype.card V : ℚ)) ^ E.length := mul_le_mul_of_nonneg_right (prob_le_one _) (by positivity)
    _ = _ := one_mul _

section
variable {E : List (Edge ℓ V)} (hE : GoodE E)
include hE

/-- A difference that one of the outer functions changes. -/
theorem outer_coll {t : Tag ℓ} (ht : ∀ j, t ≠ .h j) (he : t ≠ .e) (z : V) {D D' : Fn ℓ V → V}
    (h : ∀ ω δ, D (bump ω (t, z) δ) + D' (bump ω (t, z) δ) = D ω + D' ω + δ) :
    prob (fun ω => Hge E ω ∧ D ω = D' ω) ≤ (1 / Fintype.card V) ^ (E.length + 1) := by
  rw [shift_eq (p := Hge E) (pt := fun _ => (t, z)) fun ω δ hp => ⟨hge_bump ht he z δ hp, rfl, h ω δ⟩, pow_succ]
  have := card_pos (V := V)
  exact mul_le_mul_of_nonneg_right (hge_le hE) (by positivity)

variable {A B : Side ℓ V} (d : Bool)

theorem coll_y (h : A.y ≠ B.y) : prob (fun ω => Hge E ω ∧ sum ω d A = sum ω d B) ≤ (1 / Fintype.card V) ^ (E.length + 1) := by
  refine outer_coll hE (t := .f d) (by intro j h; cases h) (by intro h; cases h) A.y fun ω δ => ?_
  rw [sum_bump_f, sum_bump_f, if_pos ⟨rfl, rfl⟩, if_neg fun h' => h h'.2.symm]
  ring

theorem coll_u (h : A.u ≠ B.u) : prob (fun ω => Hge E ω ∧ sum ω d A = sum ω d B) ≤ (1 / Fintype.card V) ^ (E.length + 1) := by
  cases hA : A.u with
  | some z =>
    refine outer_coll hE (t := .u) (by intro j h; cases h) (by intro h; cases h) z fun ω δ => ?_
    rw [sum_bump_u, sum_bump_u, if_pos hA, if_neg fun h' => h (hA.trans h'.symm)]
    ring
  | none =>
    cases hB : B.u with
    | none => exact absurd (hA.trans hB.symm) h
    | some z =>
      refine outer_coll hE (t := .u) (by intro j h; cases h) (by intro h; cases h) z fun ω δ => ?_
      rw [sum_bump_u, sum_bump_u, if_pos hB, if_neg fun h' => h (h'.trans hB.symm)]
      ring

theorem coll_v (h : A.v ≠ B.v) : prob (fun ω => Hge E ω ∧ sum ω d A = sum ω d B) ≤ (1 / Fintype.card V) ^ (E.length + 1) := by
  cases hA : A.v with
  | some z =>
    refine outer_coll hE (t := .v) (by intro j h; cases h) (by intro h; cases h) z fun ω δ => ?_
    rw [sum_bump_v, sum_bump_v, if_pos hA, if_neg fun h' => h (hA.trans h'.symm)]
    ring
  | none =>
    cases hB : B.v with
    | none => exact absurd (hA.trans hB.symm) h
    | some z =>
      refine outer_coll hE (t := .v) (by intro j h; cases h) (by intro h; cases h) z fun ω δ => ?_
      rw [sum_bump_v, sum_bump_v, if_pos hB, if_neg fun h' => h (h'.trans hB.symm)]
      ring

/-- The sum, with every pair replaced by the first of those that are linked with it. -/
def sumR (E : List (Edge ℓ V)) (ω : Fn ℓ V) (d : Bool) (A : Side ℓ V) : V :=
  A.x + ω (.f d, A.y) + term ω .u A.u + term ω .v A.v +
    ∑ j, (A.blk j).elim 0 fun p => X ω (root E (j, p)) + w ω (j, p) + w ω (root E (j, p))

omit hE in
theorem sum_sumR {ω : Fn ℓ V} (h : ∀ e ∈ E, Ok ω e) (A : Side ℓ V) : sum ω d A = sumR E ω d A := by
  have t2 := two (V := V)
  unfold sum sumR
  congr 1
  refine Finset.sum_congr rfl fun j _ => ?_
  cases A.blk j with
  | none => rfl
  | some p =>
    simp only [Option.elim_some]
    have := root_val h (j, p)
    grind

omit hE in
theorem sumR_bump (ω : Fn ℓ V) (z δ : V) (A : Side ℓ V) : sumR E (bump ω (.e, z) δ) d A =
    sumR E ω d A + ∑ j, (A.blk j).elim 0 fun p => if w ω (root E (j, p)) = z then δ else 0 := by
  unfold sumR
  rw [term_bump, term_bump]
  simp only [X_bump_e, w_bump (t := Tag.e) (ℓ := ℓ) (V := V) (by intro j h; cases h)]
  have e : ∀ j, ((A.blk j).elim 0 fun p => (X ω (root E (j, p)) + if w ω (root E (j, p)) = z then δ else 0) + w ω (j, p) + w ω (root E (j, p))) =
      ((A.blk j).elim 0 fun p => X ω (root E (j, p)) + w ω (j, p) + w ω (root E (j, p))) +
        (A.blk j).elim 0 fun p => if w ω (root E (j, p)) = z then δ else 0 := by
    intro j
    cases A.blk j with
    | none => simp
    | some p => simp only [Option.elim_some]; ring
  simp only [e, Finset.sum_add_distrib]
  unfold bump
  simp only [reduceCtorEq, false_and, if_false, add_zero, Prod.mk.injEq]
  ring

/-- The collision of the sums, given the edges, is the collision of the sums of roots. -/
theorem coll_root (hA : ∀ j p, A.blk j = some p → (j, p) ∈ nodes E) (hB : ∀ j p, B.blk j = some p → (j, p) ∈ nodes E) :
    prob (fun ω => Hge E ω ∧ sum ω d A = sum ω d B) =
      prob (fun ω => Spread ω (nodes E) ∧ sumR E ω d A = sumR E ω d B) * (1 / Fintype.card V) ^ E.length := by
  rw [← edges_prob (l := nodes E) (q := fun ω => Spread ω (nodes E) ∧ sumR E ω d A = sumR E ω d B) (fun _ h => h.1) E hE (fun _ h => h)]
  · apply prob_congr
    intro ω
    constructor
    · rintro ⟨⟨h1, h2⟩, h3⟩
      rw [sum_sumR d h2, sum_sumR d h2] at h3
      exact ⟨⟨h1, h3⟩, h2⟩
    · rintro ⟨⟨h1, h3⟩, h2⟩
      rw [← sum_sumR d h2, ← sum_sumR d h2] at h3
      exact ⟨⟨h1, h2⟩, h3⟩
  · rintro ω δ e he ⟨h1, h3⟩
    refine ⟨(spread_bump (by intro j h; cases h) ω _ δ _).2 h1, ?_⟩
    have me : e.2 ∈ nodes E := List.mem_flatMap.2 ⟨e, he, by simp⟩
    have z : ∀ C : Side ℓ V, (∀ j p, C.blk j = some p → (j, p) ∈ nodes E) →
        (∑ j, (C.blk j).elim 0 fun p => if w ω (root E (j, p)) = w ω e.2 then δ else 0) = 0 := by
      intro C hC
      refine Finset.sum_eq_zero fun j _ => ?_
      cases hj : C.blk j with
      | none => rfl
      | some p => exact if_neg (h1 _ (root_nodes (hC j p hj)) _ me (root_ne hE _ e he))
    rw [sumR_bump, sumR_bump, z A hA, z B hB, add_zero, add_zero, h3]

/-- Different roots. -/
theorem coll_roots (hA : ∀ j p, A.blk j = some p → (j, p) ∈ nodes E) (hB : ∀ j p, B.blk j = some p → (j, p) ∈ nodes E) {j : Fin ℓ} {p : V × V}
    (hj : A.blk j = some p) (hne : ∀ p', B.blk j = some p' → root E (j, p') ≠ root E (j, p)) :
    prob (fun ω => Spread ω (nodes E) ∧ sumR E ω d A = sumR E ω d B) ≤ 1 / Fintype.card V := by
  have hc := card_pos (V := V)
  have mr : root E (j, p) ∈ nodes E := root_nodes (hA j p hj)
  rw [shift_eq (p := fun ω => Spread ω (nodes E)) (pt := fun ω => (.e, w ω (root E (j, p))))]
  · calc _ ≤ 1 * (1 / (Fintype.card V : ℚ)) := mul_le_mul_of_nonneg_right (prob_le_one _) (by positivity)
      _ = _ := one_mul _
  · intro ω δ hs
    refine ⟨(spread_bump (by intro j h; cases h) ω _ δ _).2 hs, ?_, ?_⟩
    · rw [w_bump (by intro j h; cases h)]
    · have e1 : (∑ i, (A.blk i).elim 0 fun p' => if w ω (root E (i, p')) = w ω (root E (j, p)) then δ else 0) = δ := by
        rw [Finset.sum_eq_single j]
        · rw [hj]; exact if_pos rfl
        · intro i _ hi
          cases hi' : A.blk i with
          | none => rfl
          | some p' =>
            refine if_neg (hs _ (root_nodes (hA i p' hi')) _ mr fun h' => hi ?_)
            have := congrArg Prod.fst h'
            rwa [root_pos hE, root_pos hE] at this
        · intro h; exact absurd (Finset.mem_univ _) h
      have e2 : (∑ i, (B.blk i).elim 0 fun p' => if w ω (root E (i, p')) = w ω (root E (j, p)) then δ else 0) = 0 := by
        refine Finset.sum_eq_zero fun i _ => ?_
        cases hi' : B.blk i with
        | none => rfl
        | some p' =>
          refine if_neg (hs _ (root_nodes (hB i p' hi')) _ mr fun h' => ?_)
          have := congrArg Prod.fst h'
          rw [root_pos hE, root_pos hE] at this
          simp only at this
          subst this
          exact hne p' hi' h'
      rw [sumR_bump, sumR_bump, e1, e2]
      ring

/-- Two different strings of questions rarely have the same sum. -/
theorem coll_question (hA : ∀ j p, A.blk j = some p → (j, p) ∈ nodes E) (hB : ∀ j p, B.blk j = some p → (j, p) ∈ nodes E) (hne : A ≠ B) :
    prob (fun ω => Hge E ω ∧ sum ω d A = sum ω d B) ≤ (1 / Fintype.card V) ^ (E.length + 1) := by
  have t2 := two (V := V)
  have hc := card_pos (V := V)
  by_cases hy : A.y = B.y
  swap; · exact coll_y hE d hy
  by_cases hu : A.u = B.u
  swap; · exact coll_u hE d hu
  by_cases hv : A.v = B.v
  swap; · exact coll_v hE d hv
  rw [coll_root hE d hA hB, pow_succ, mul_comm]
  refine mul_le_mul_of_nonneg_left ?_ (by positivity)
  by_cases hr : ∀ j, (A.blk j).map (fun p => root E (j, p)) = (B.blk j).map fun p => root E (j, p)
  swap
  · push Not at hr
    obtain ⟨j, hj⟩ := hr
    cases hAj : A.blk j with
    | some p =>
      refine coll_roots hE d hA hB hAj fun p' h' h'' => hj ?_
      rw [hAj, h', Option.map_some, Option.map_some, h'']
    | none =>
      cases hBj : B.blk j with
      | none => rw [hAj, hBj] at hj; exact absurd rfl hj
      | some p =>
        refine le_trans (le_of_eq (prob_congr fun ω => ?_)) (coll_roots hE d hB hA hBj fun p' h' _ => by rw [hAj] at h'; cases h')
        rw [eq_comm]
  -- the same roots everywhere
  have key : ∀ ω : Fn ℓ V, sumR E ω d A + sumR E ω d B =
      A.x + B.x + ((∑ j, (A.blk j).elim 0 fun p => w ω (j, p)) + ∑ j, (B.blk j).elim 0 fun p => w ω (j, p)) := by
    intro ω
    have e : ∀ j, ((A.blk j).elim 0 fun p => X ω (root E (j, p)) + w ω (j, p) + w ω (root E (j, p))) +
        ((B.blk j).elim 0 fun p => X ω (root E (j, p)) + w ω (j, p) + w ω (root E (j, p))) =
        ((A.blk j).elim 0 fun p => w ω (j, p)) + ((B.blk j).elim 0 fun p => w ω (j, p)) := by
      intro j
      have hj := hr j
      cases hAj : A.blk j with
      | none =>
        rw [hAj] at hj
        cases hBj : B.blk j with
        | none => rfl
        | some p' => rw [hBj] at hj; cases hj
      | some p =>
        rw [hAj] at hj
        cases hBj : B.blk j with
        | none => rw [hBj] at hj; cases hj
        | some p' =>
          rw [hBj, Option.map_some, Option.map_some] at hj
          injection hj with hj
          simp only [Option.elim_some, hj]
          grind
    have s := Finset.sum_congr (rfl : (Finset.univ : Finset (Fin ℓ)) = Finset.univ) fun j _ => e j
    rw [Finset.sum_add_distrib, Finset.sum_add_distrib] at s
    unfold sumR
    rw [← s, hy, hu, hv]
    grind
  by_cases hb : A.blk = B.blk
  · have hx : A.x ≠ B.x := fun h => hne (Side.ext h hy hb hu hv)
    rw [prob_zero]
    · positivity
    · rintro ω ⟨-, h⟩
      have := key ω
      rw [hb, h] at this
      apply hx
      grind
  · obtain ⟨j, hj⟩ := Function.ne_iff.1 hb
    obtain ⟨p, p', hp, hp', hs⟩ : ∃ p p', A.blk j = some p ∧ B.blk j = some p' ∧ p.2 ≠ p'.2 := by
      have hj' := hr j
      cases hAj : A.blk j with
      | none =>
        rw [hAj] at hj hj'
        cases hBj : B.blk j with
        | none => rw [hBj] at hj; exact absurd rfl hj
        | some p' => rw [hBj] at hj'; cases hj'
      | some p =>
        rw [hAj] at hj hj'
        cases hBj : B.blk j with
        | none => rw [hBj] at hj'; cases hj'
        | some p' =>
          rw [hBj] at hj hj'
          rw [Option.map_some, Option.map_some] at hj'
          injection hj' with hj'
          refine ⟨p, p', rfl, rfl, root_second hE hj' fun h' => hj ?_⟩
          rw [(Prod.mk.inj h').2]
    have e : ∀ (C : Side ℓ V) (ω : Fn ℓ V) (δ : V), (∑ i, (C.blk i).elim 0 fun r => w (bump ω (.h j, p.2) δ) (i, r)) =
        (∑ i, (C.blk i).elim 0 fun r => w ω (i, r)) + (C.blk j).elim 0 fun r => if r.2 = p.2 then δ else 0 := by
      intro C ω δ
      have e1 : ∀ i, ((C.blk i).elim 0 fun r => w (bump ω (.h j, p.2) δ) (i, r)) =
          ((C.blk i).elim 0 fun r => w ω (i, r)) + if i = j then (C.blk j).elim 0 (fun r => if r.2 = p.2 then δ else 0) else 0 := by
        intro i
        by_cases hi : i = j
        · subst hi
          rw [if_pos rfl]
          cases C.blk i with
          | none => simp
          | some r => simp [w_bump_h]
        · rw [if_neg hi, add_zero]
          cases C.blk i with
          | none => rfl
          | some r => simp [w_bump_h, hi]
      simp only [e1, Finset.sum_add_distrib, Finset.sum_ite_eq', Finset.mem_univ, if_true]
    have st := shift_eq (ℓ := ℓ) (p := fun _ => True) (pt := fun _ => (.h j, p.2)) (D := fun ω => A.x + B.x + ∑ j, (A.blk j).elim 0 fun p => w ω (j, p))
      (D' := fun ω => ∑ j, (B.blk j).elim 0 fun p => w ω (j, p)) ?_
    · refine le_trans (prob_mono ?_) (le_trans (le_of_eq st) ?_)
      · rintro ω ⟨-, h⟩
        refine ⟨trivial, ?_⟩
        have := key ω
        rw [h] at this
        grind
      · calc _ ≤ 1 * (1 / (Fintype.card V : ℚ)) := mul_le_mul_of_nonneg_right (prob_le_one _) (by positivity)
          _ = _ := one_mul _
    · intro ω δ _
      refine ⟨trivial, rfl, ?_⟩
      rw [e, e, hp, hp']
      simp only [Option.elim_some, if_pos, if_neg (Ne.symm hs)]
      ring

end

/-! ## Conditions on the inner functions -/

/-- The value at the point, plus `off`, is in `B`. -/
structure Cond (ℓ : Nat) (V : Type) where
  pt : Fn ℓ V → Tag ℓ × V
  off : Fn ℓ V → V
  B : Finset V

def Cond.Holds (c : Cond ℓ V) (ω : Fn ℓ V) : Prop := ω (c.pt ω) + c.off ω ∈ c.B

/-- Neither the point nor `off` depends on the inner functions. -/
def Cond.Outer (c : Cond ℓ V) : Prop :=
  (∀ ω, Inner (c.pt ω).1) ∧ ∀ ω x δ, Inner x.1 → c.pt (bump ω x δ) = c.pt ω ∧ c.off (bump ω x δ) = c.off ω

theorem conds_prob {p : Fn ℓ V → Prop} (hp : ∀ ω x δ, Inner x.1 → p ω → p (bump ω x δ)) : ∀ cs : List (Cond ℓ V), (∀ c ∈ cs, c.Outer) →
    (∀ ω, p ω → cs.Pairwise fun c c' => c.pt ω ≠ c'.pt ω) →
    prob (fun ω => p ω ∧ ∀ c ∈ cs, c.Holds ω) = prob p * (cs.map fun c => (c.B.card : ℚ) / Fintype.card V).prod
  | [], _, _ => by
    rw [List.map_nil, List.prod_nil, mul_one]
    exact prob_congr fun ω => by simp
  | c :: cs, ho, hd => by
    have ih := conds_prob hp cs (fun c hc => ho c (List.mem_cons_of_mem _ hc)) fun ω hω => (List.pairwise_cons.1 (hd ω hω)).2
    obtain ⟨o1, o2⟩ := ho c List.mem_cons_self
    have st := shift (ℓ := ℓ) (p := fun ω => p ω ∧ ∀ c ∈ cs, c.Holds ω) (pt := c.pt) (D := fun ω => ω (c.pt ω) + c.off ω) ?_ c.B
    · rw [List.map_cons, List.prod_cons, mul_comm ((c.B.card : ℚ) / _), ← mul_assoc, ← ih, ← st]
      apply prob_congr
      intro ω
      rw [List.forall_mem_cons, and_assoc, and_comm (a := c.Holds ω)]
      rfl
    · rintro ω δ ⟨hω, hcs⟩
      obtain ⟨e1, e2⟩ := o2 ω (c.pt ω) δ (o1 ω)
      refine ⟨⟨hp ω _ δ (o1 ω) hω, fun c' hc' => ?_⟩, e1, ?_⟩
      · obtain ⟨f1, f2⟩ := (ho c' (List.mem_cons_of_mem _ hc')).2 ω (c.pt ω) δ (o1 ω)
        unfold Cond.Holds
        rw [f1, f2]
        have : c'.pt ω ≠ c.pt ω := fun h => (List.pairwise_cons.1 (hd ω hω)).1 c' hc' h.symm
        unfold bump
        rw [if_neg this, add_zero]
        exact hcs c' hc'
      · rw [e1, e2]
        unfold bump
        rw [if_pos rfl]
        ring

end Verif.Wide
