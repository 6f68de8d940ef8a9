import Mathlib.Algebra.BigOperators.Fin
import Verif.Wrapper.PropsGame
import Verif.Wrapper.SpecMany

/-!
# C118: many `Wrapper` objects
-/

namespace Verif.Wrapper.Many

open Verif Verif.Mac Verif.Avg Verif.Wrapper.Game

variable {ι : Type} {cls : ι → Class} {n : Nat}

/-! ### One wrapper, real or ideal -/

/-- One byte of sixteen. -/
theorem E_byte (f : UInt8 → ℚ) : E (fun b : Block 16 => f (b 0)) = E f := by
  rw [E_update (0 : Fin 16)]
  simp only [Function.update_self]
  rw [E_const]

theorem E_cons (m : Nat) (F : Block (m + 1) → ℚ) : E F = E (fun b : UInt8 => E (fun z : Block m => F (Fin.cons b z))) := by
  rw [← E_equiv (Fin.consEquiv fun _ : Fin (m + 1) => UInt8) F, E_prod]
  rfl

section
variable (H : Bytes → Bytes) (S : Bytes → Bytes → Nat → UInt8) (junk : Nat → UInt8) (N : Nat)

/-- One wrapper, ideal if `b`. -/
def one (b : Bool) (w : Wrapper) (R : List (Bytes × Bytes)) (A : Att cls) : ℚ := if b then ideal N R A else real H S junk N w R A

theorem one_flip (b : Bool) (w : Wrapper) (R : List (Bytes × Bytes)) (f : Block 16 → Att cls) :
    one H S junk N b w R (.flip f) = E fun r => one H S junk N b w R (f r) := by
  cases b <;> rfl

theorem one_draw (b : Bool) (w : Wrapper) (R : List (Bytes × Bytes)) (m : Nat) : ∀ f : Block m → Att cls,
    one H S junk N b w R (draw m f) = E fun z => one H S junk N b w R (f z) := by
  induction m with
  | zero =>
    intro f
    have e : (fun z : Block 0 => one H S junk N b w R (f z)) = fun _ => one H S junk N b w R (f fun i => i.elim0) := by
      funext z
      rw [show z = fun i => i.elim0 from funext fun i => i.elim0]
    rw [e, E_const]
    rfl
  | succ m ih =>
    intro f
    rw [draw, one_flip, E_cons m fun z => one H S junk N b w R (f z), ← E_byte fun r => E fun z : Block m => one H S junk N b w R (f (Fin.cons r z))]
    refine congrArg E (funext fun r => ?_)
    rw [ih]

theorem draw_atMost {qw qu : Nat} : ∀ (m : Nat) {f : Block m → Att cls}, (∀ z, AtMost qw qu (f z)) → AtMost qw qu (draw m f)
  | 0, _, h => h _
  | m + 1, _, h => .flip fun _ => draw_atMost m fun _ => h _

variable (i : Fin n)

/-- The attack on one wrapper, and this wrapper, are the attack on all. -/
theorem one_only (W : Fin n → Bool) (w : Fin n → Wrapper) (A : Atts cls n) : ∀ R R' : Fin n → List (Bytes × Bytes), (∀ j, j ≠ i → R' j = R j) →
    one H S junk N (W i) (w i) (R i) (only H S junk N i W w R' A) = worlds H S junk N W w R A := by
  have hup : ∀ {R R' : Fin n → List (Bytes × Bytes)} (_ : ∀ j, j ≠ i → R' j = R j) (j : Fin n) (v : List (Bytes × Bytes)) (l : Fin n), l ≠ i →
      Function.update R' j v l = Function.update R j v l := by
    intro R R' h j v l hl
    by_cases hlj : l = j
    · subst hlj
      rw [Function.update_self, Function.update_self]
    · rw [Function.update_of_ne hlj, Function.update_of_ne hlj, h l hl]
  induction A with
  | done b => intro R R' _; unfold one only; cases W i <;> rfl
  | flip f ih => intro R R' h; simp only [only, one_flip, worlds, ih _ R R' h]
  | wrap j t x c ih =>
    intro R R' h
    unfold only worlds
    by_cases hj : j = i
    · subst hj
      rw [if_pos rfl]
      have hs : ∀ (y : Res Bytes) (v : List (Bytes × Bytes)),
          one H S junk N (W j) (w j) v (only H S junk N j W w R' (c y)) = worlds H S junk N W w (Function.update R j v) (c y) := by
        intro y v
        have := ih y (Function.update R j v) R' fun l hl => by rw [h l hl, Function.update_of_ne hl]
        rwa [Function.update_self] at this
      have h0 := fun y => ih y R R' h
      unfold one at hs h0 ⊢
      cases hW : W j with
      | true =>
        simp only [hW, if_true] at hs h0 ⊢
        rw [ideal]
        cases serOf (cls t) N x with
        | none => exact h0 _
        | some s => simp only [hs]
      | false =>
        simp only [hW, Bool.false_eq_true, if_false] at hs h0 ⊢
        rw [real]
        cases serOf (cls t) N x with
        | none => exact h0 _
        | some s => simp only [hs]
    · rw [if_neg hj]
      cases serOf (cls t) N x with
      | none => exact ih _ R R' h
      | some s =>
        have hs : ∀ (y : Res Bytes) (v : List (Bytes × Bytes)),
            one H S junk N (W i) (w i) (R i) (only H S junk N i W w (Function.update R' j v) (c y)) =
              worlds H S junk N W w (Function.update R j v) (c y) := by
          intro y v
          have := ih y (Function.update R j v) (Function.update R' j v) (hup h j v)
          rwa [Function.update_of_ne (fun e => hj e.symm)] at this
        simp only [h j hj]
        split
        · simp only [one_flip, one_draw, hs]
        · simp only [one_flip, hs]
  | unwrap j t y c ih =>
    intro R R' h
    unfold only worlds
    by_cases hj : j = i
    · subst hj
      rw [if_pos rfl]
      have h0 := fun o => ih o R R' h
      unfold one at h0 ⊢
      unfold unOf
      cases hW : W j with
      | true =>
        simp only [hW, if_true] at h0 ⊢
        rw [ideal]
        split <;> exact h0 _
      | false =>
        simp only [hW, Bool.false_eq_true, if_false] at h0 ⊢
        rw [real]
        split <;> exact h0 _
    · rw [if_neg hj, ih _ R R' h]
      unfold unOf
      rw [h j hj]

/-- The wrapper itself does not matter for the attack on it. -/
theorem only_congr {W W' : Fin n → Bool} {w w' : Fin n → Wrapper} (hW : ∀ j, j ≠ i → W j = W' j) (hw : ∀ j, j ≠ i → w j = w' j) (A : Atts cls n) :
    ∀ R, only H S junk N i W w R A = only H S junk N i W' w' R A := by
  induction A with
  | done b => intro R; rfl
  | flip f ih => intro R; simp only [only, ih]
  | wrap j t x c ih =>
    intro R
    unfold only
    by_cases hj : j = i
    · rw [if_pos hj, if_pos hj]
      simp only [ih]
    · rw [if_neg hj, if_neg hj, hW j hj, hw j hj]
      simp only [ih]
  | unwrap j t y c ih =>
    intro R
    unfold only
    by_cases hj : j = i
    · rw [if_pos hj, if_pos hj]
      simp only [ih]
    · have hd : unOf H S junk N W w R j (cls t) y = unOf H S junk N W' w' R j (cls t) y := by unfold unOf; rw [hW j hj, hw j hj]
      rw [if_neg hj, if_neg hj, hd, ih]

theorem only_atMost (W : Fin n → Bool) (w : Fin n → Wrapper) {A : Atts cls n} {qw qu : Nat} (h : AtMostFor i qw qu A) :
    ∀ R, AtMost qw qu (only H S junk N i W w R A) := by
  induction h with
  | done b => intro R; exact .done b
  | flip _ ih => intro R; exact .flip fun b => ih b R
  | wrapHere _ ih =>
    intro R
    unfold only
    rw [if_pos rfl]
    exact .wrap fun y => ih y R
  | wrapThere hj _ ih =>
    intro R
    unfold only
    rw [if_neg hj]
    split
    · exact ih _ R
    · split
      · exact .flip fun iv => draw_atMost _ fun g => draw_atMost _ fun z => ih _ _
      · exact .flip fun iv => ih _ _
  | unwrapHere _ ih =>
    intro R
    unfold only
    rw [if_pos rfl]
    exact .unwrap fun o => ih o R
  | unwrapThere hj _ ih =>
    intro R
    unfold only
    rw [if_neg hj]
    exact ih _ R

/-- Ideal wrappers have no keys. -/
theorem worlds_ideal (w : Fin n → Wrapper) (A : Atts cls n) : ∀ R, worlds H S junk N (fun _ => true) w R A = ideals N R A := by
  induction A with
  | done b => intro R; rfl
  | flip f ih => intro R; simp only [worlds, ideals, ih]
  | wrap j t x c ih =>
    intro R
    unfold worlds ideals
    cases serOf (cls t) N x with
    | none => exact ih _ R
    | some s => simp only [if_true, ih]
  | unwrap j t y c ih =>
    intro R
    unfold worlds ideals unOf
    rw [ih]
    split <;> rfl

end

/-- The constructor succeeds. -/
theorem made_ok {H : Bytes → Bytes} (hH : ∀ m, (H m).length = 64) (junk : Nat → UInt8) (k : Block 32) :
    mkWrapper H junk (some (toBytes k)) = .ok (made H junk k) := by
  unfold made
  rw [(c29_keys hH junk (toBytes k) (length_toBytes k)).1]

theorem realKey_made {H : Bytes → Bytes} (hH : ∀ m, (H m).length = 64) (S : Bytes → Bytes → Nat → UInt8) (junk : Nat → UInt8) (N : Nat)
    (A : Att cls) (k : Block 32) : realKey H S junk N A k = real H S junk N (made H junk k) [] A := by
  unfold realKey
  rw [made_ok hH]

/-- Steps add up. -/
theorem steps (h : Nat → ℚ) (b : Fin n → ℚ) (hs : ∀ i : Fin n, |h i.1 - h (i.1 + 1)| ≤ b i) : |h 0 - h n| ≤ ∑ i, b i := by
  rw [← Finset.sum_range_sub' h n, Finset.sum_range]
  exact le_trans (Finset.abs_sum_le_sum_abs _ _) (Finset.sum_le_sum fun i _ => hs i)

/-- Real and ideal wrappers are told apart at most as well as, one after the other, one of them is. -/
theorem hybrid {H : Bytes → Bytes} (hH : ∀ m, (H m).length = 64) (S : Bytes → Bytes → Nat → UInt8) (junk : Nat → UInt8) (N : Nat) (A : Atts cls n) :
    |E (fun k => reals H S junk N A k) - ideals N (fun _ => []) A| ≤
      ∑ i, E (fun k : Fin n → Block 32 => |E (fun x : Block 32 => realKey H S junk N (onlyAt H S junk N A i k) x) -
        ideal N [] (onlyAt H S junk N A i k)|) := by
  let h : Nat → ℚ := fun t => E fun k : Fin n → Block 32 =>
    worlds H S junk N (fun j => decide (j.1 < t)) (fun j => made H junk (k j)) (fun _ => []) A
  have h0 : h 0 = E (fun k => reals H S junk N A k) := by
    refine congrArg E (funext fun k => ?_)
    unfold reals
    congr 1
  have hn : h n = ideals N (fun _ => []) A := by
    have : ∀ k : Fin n → Block 32, worlds H S junk N (fun j : Fin n => decide (j.1 < n)) (fun j => made H junk (k j)) (fun _ => []) A =
        ideals N (fun _ => []) A := by
      intro k
      rw [← worlds_ideal H S junk N (fun j => made H junk (k j))]
      congr 1
      funext j
      exact decide_eq_true j.2
    show E _ = _
    simp only [this]
    exact E_const _
  have key : ∀ (i : Fin n) (t : Nat), (∀ j : Fin n, j ≠ i → decide (j.1 < t) = decide (j.1 < i.1)) →
      h t = E (fun k : Fin n → Block 32 => E (fun x : Block 32 => one H S junk N (decide (i.1 < t)) (made H junk x) [] (onlyAt H S junk N A i k))) := by
    intro i t ht
    show E (fun k : Fin n → Block 32 => worlds H S junk N (fun j => decide (j.1 < t)) (fun j => made H junk (k j)) (fun _ => []) A) = _
    rw [E_update i]
    refine congrArg E (funext fun k => congrArg E (funext fun x => ?_))
    rw [← one_only H S junk N i (fun j => decide (j.1 < t)) (fun j => made H junk (Function.update k i x j)) A (fun _ => []) (fun _ => [])
      fun j _ => rfl, Function.update_self]
    congr 1
    exact only_congr H S junk N i ht (fun j hj => by rw [Function.update_of_ne hj]) A _
  rw [← h0, ← hn]
  refine steps h _ fun i => ?_
  rw [key i i.1 (fun _ _ => rfl), key i (i.1 + 1) (fun j hj => ?_), decide_eq_false (Nat.lt_irrefl i.1), decide_eq_true (Nat.lt_succ_self i.1)]
  · refine abs_E_sub_le_E _ _ _ fun k => ?_
    simp only [realKey_made hH, one, Bool.false_eq_true, if_false, if_true, E_const, le_refl]
  · have : j.1 ≠ i.1 := fun e => hj (Fin.ext e)
    by_cases c : j.1 < i.1
    · rw [decide_eq_true c, decide_eq_true (by omega)]
    · rw [decide_eq_false c, decide_eq_false (by omega)]

/-- The loss that C91 has for an attack on wrapper `i`, on average over the keys of the others. -/
def loss (H : Bytes → Bytes) (S : Bytes → Bytes → Nat → UInt8) (junk : Nat → UInt8) (N : Nat) (A : Atts cls n) (i : Fin n) : ℚ :=
  E fun k : Fin n → Block 32 =>
    advKdf H S N (onlyAt H S junk N A i k) + advTag H S N (onlyAt H S junk N A i k) + advStream S N (onlyAt H S junk N A i k)

/-- **C118** No attack on `n` wrappers with independent uniform keys that asks wrapper `i` for at most `qw i` wrapped objects and `qu i` unwrapped ones tells
them from ideal ones, which return uniformly random strings and accept nothing, by more than the sum of the bounds of C91 for the attacks on one wrapper that
it contains. -/
theorem c118_wrappers (hF : HeadersFree cls) {H : Bytes → Bytes} (hH : ∀ m, (H m).length = 64) (S : Bytes → Bytes → Nat → UInt8) (junk : Nat → UInt8)
    (N : Nat) {A : Atts cls n} {qw qu : Fin n → Nat} (hq : ∀ i, AtMostFor i (qw i) (qu i) A) :
    |E (fun k => reals H S junk N A k) - ideals N (fun _ => []) A| ≤
      ∑ i, (loss H S junk N A i + ((qw i : ℚ) * (qw i - 1) / 2 ^ 129 + qu i / 2 ^ 96 + (qw i : ℚ) * (qw i - 1) / 2 ^ 97)) := by
  refine le_trans (hybrid hH S junk N A) (Finset.sum_le_sum fun i _ => ?_)
  refine le_trans (E_mono fun k => c91_wrapper hF hH S junk N (only_atMost H S junk N i _ _ (hq i) _)) (le_of_eq ?_)
  rw [E_add, E_const]
  rfl

theorem watch_ideal (N : Nat) (A : Atts cls n) : ∀ R, ideals N R (watch A) = 0 := by
  induction A with
  | done b => intro R; rfl
  | flip f ih => intro R; simp only [watch, ideals, ih, E_const]
  | wrap j t x c ih =>
    intro R
    simp only [watch, ideals]
    cases serOf (cls t) N x with
    | none => exact ih _ R
    | some s => simp only [ih, E_const]
  | unwrap j t y c ih =>
    intro R
    simp only [watch, ideals, reject]
    by_cases h : y.length ≤ 28
    · simp only [h, if_true, ih, ite_self]
    · simp only [h, if_false, ih, ite_self]

theorem watch_atMost {i : Fin n} {A : Atts cls n} {qw qu : Nat} (h : AtMostFor i qw qu A) : AtMostFor i qw qu (watch A) := by
  induction h with
  | done b => exact .done _
  | flip _ ih => exact .flip ih
  | wrapHere _ ih => exact .wrapHere ih
  | wrapThere hj _ ih => exact .wrapThere hj ih
  | unwrapHere _ ih =>
    unfold watch
    refine .unwrapHere fun o => ?_
    cases o with
    | ok m => exact .done _
    | exc e => exact ih _
    | ub => exact ih _
  | unwrapThere hj _ ih =>
    unfold watch
    refine .unwrapThere hj fun o => ?_
    cases o with
    | ok m => exact .done _
    | exc e => exact ih _
    | ub => exact ih _

/-- **C118** The probability that some wrapper accepts a string that it has not returned itself for the header, whatever the others have returned. -/
theorem c118_forgery (hF : HeadersFree cls) {H : Bytes → Bytes} (hH : ∀ m, (H m).length = 64) (S : Bytes → Bytes → Nat → UInt8) (junk : Nat → UInt8)
    (N : Nat) {A : Atts cls n} {qw qu : Fin n → Nat} (hq : ∀ i, AtMostFor i (qw i) (qu i) A) :
    E (fun k => reals H S junk N (watch A) k) ≤
      ∑ i, (loss H S junk N (watch A) i + ((qw i : ℚ) * (qw i - 1) / 2 ^ 129 + qu i / 2 ^ 96 + (qw i : ℚ) * (qw i - 1) / 2 ^ 97)) := by
  have h := c118_wrappers hF hH S junk N fun i => watch_atMost (hq i)
  rw [watch_ideal, sub_zero] at h
  exact le_trans (le_abs_self _) h

/-- The attack that has an object wrapped by wrapper `i` and gives the result to wrapper `j`, as any class. -/
def cross (i j : Fin n) (t u : ι) (x : (cls t).σ) : Atts cls n := .wrap i t x fun y => match y with
  | .ok b => .unwrap j u b fun _ => .done false
  | _ => .done false

theorem cross_atMost {i j : Fin n} (t u : ι) (x : (cls t).σ) (l : Fin n) :
    AtMostFor l (if l = i then 1 else 0) (if l = j then 1 else 0) (cross i j t u x) := by
  have hd : ∀ (qw : Nat) (y : Res Bytes), AtMostFor (cls := cls) l qw (if l = j then 1 else 0) (match y with
      | .ok b => .unwrap j u b fun _ => .done false
      | _ => .done false) := by
    intro qw y
    cases y with
    | ok b =>
      by_cases hj : l = j
      · subst hj
        rw [if_pos rfl]
        exact .unwrapHere fun _ => .done _
      · rw [if_neg hj]
        exact .unwrapThere (fun e => hj e.symm) fun _ => .done _
    | exc e => exact .done _
    | ub => exact .done _
  by_cases hi : l = i
  · subst hi
    rw [if_pos rfl]
    exact .wrapHere fun y => hd 0 y
  · rw [if_neg hi]
    exact .wrapThere (fun e => hi e.symm) fun y => hd 0 y

/-- A wrapped object has 28 bytes more than its serialization. -/
theorem wrapped {H : Bytes → Bytes} (hH : ∀ m, (H m).length = 64) (S : Bytes → Bytes → Nat → UInt8) (junk : Nat → UInt8) {N : Nat} (k : Block 32)
    {C : Class} {x : C.σ} {s : Bytes} (hs : serOf C N x = some s) (iv : Block 16) :
    ∃ b, (Wrapper.wrap H S junk (made H junk k) C x (toBytes iv)).res = .ok b ∧ b.length = s.length + 28 := by
  obtain ⟨h1, h2, _⟩ := c29_keys hH junk (toBytes k) (length_toBytes k)
  obtain ⟨h3, h4, _⟩ := serOf_some hs
  have hm : made H junk k = ⟨some ((HMAC H (toBytes k) [1]).take 32), some ((HMAC H (toBytes k) [2]).take 32)⟩ := by
    unfold made
    rw [h1]
  rw [hm, wrap_eq hH S junk h2 C x (toBytes iv) s (length_toBytes iv) h3 h4]
  refine ⟨_, rfl, ?_⟩
  unfold blob
  simp only [List.length_append, List.length_mapIdx, length_toBytes, tagOf_length hH]
  omega

/-- What the attack finds: whether wrapper `j` accepts what wrapper `i` returned. -/
theorem cross_real {H : Bytes → Bytes} (hH : ∀ m, (H m).length = 64) (S : Bytes → Bytes → Nat → UInt8) (junk : Nat → UInt8) {N : Nat} {i j : Fin n}
    (hij : i ≠ j) (t u : ι) (x : (cls t).σ) {s : Bytes} (hs : serOf (cls t) N x = some s) (hu : 16 + (cls u).header.length + s.length ≤ N)
    (k : Fin n → Block 32) : reals H S junk N (watch (cross i j t u x)) k = E fun iv : Block 16 =>
      match (Wrapper.wrap H S junk (made H junk (k i)) (cls t) x (toBytes iv)).res with
      | .ok b => match (Wrapper.unwrap H S junk (made H junk (k j)) (cls u) b).res with
        | .ok _ => 1
        | _ => 0
      | _ => 0 := by
  unfold reals cross
  simp only [watch, worlds, hs, Bool.false_eq_true, if_false]
  refine congrArg E (funext fun iv => ?_)
  obtain ⟨b, hb, hl⟩ := wrapped hH S junk (k i) hs iv
  rw [hb]
  have hr : refused N [] (cls u) b = false := by
    unfold refused
    rw [hl, Nat.add_sub_cancel]
    simp [hu]
  simp only [watch, worlds, unOf, Function.update_of_ne hij.symm, hr, Bool.false_eq_true, if_false]
  cases (Wrapper.unwrap H S junk (made H junk (k j)) (cls u) b).res <;> rfl

/-- **C118** What one wrapper returns another one with an independent key accepts, as any class, with at most the losses of the attack `cross` and `2 ^ -96`. -/
theorem c118_cross (hF : HeadersFree cls) {H : Bytes → Bytes} (hH : ∀ m, (H m).length = 64) (S : Bytes → Bytes → Nat → UInt8) (junk : Nat → UInt8)
    (N : Nat) {i j : Fin n} (hij : i ≠ j) (t u : ι) (x : (cls t).σ) {s : Bytes} (hs : serOf (cls t) N x = some s)
    (hu : 16 + (cls u).header.length + s.length ≤ N) :
    E (fun k : Fin n → Block 32 => E fun iv : Block 16 =>
      match (Wrapper.wrap H S junk (made H junk (k i)) (cls t) x (toBytes iv)).res with
      | .ok b => match (Wrapper.unwrap H S junk (made H junk (k j)) (cls u) b).res with
        | .ok _ => (1 : ℚ)
        | _ => 0
      | _ => 0) ≤ ∑ l, loss H S junk N (watch (cross i j t u x)) l + 1 / 2 ^ 96 := by
  have h := c118_forgery hF hH S junk N (cross_atMost (i := i) (j := j) t u x)
  simp only [cross_real hH S junk hij t u x hs hu] at h
  refine le_trans h (le_of_eq ?_)
  rw [Finset.sum_add_distrib]
  congr 1
  have e : ∀ l : Fin n, (((if l = i then 1 else 0 : Nat) : ℚ) * (((if l = i then 1 else 0 : Nat) : ℚ) - 1) / 2 ^ 129 +
      ((if l = j then 1 else 0 : Nat) : ℚ) / 2 ^ 96 +
      ((if l = i then 1 else 0 : Nat) : ℚ) * (((if l = i then 1 else 0 : Nat) : ℚ) - 1) / 2 ^ 97) = if l = j then 1 / 2 ^ 96 else 0 := by
    intro l
    have hz : ((if l = i then 1 else 0 : Nat) : ℚ) * (((if l = i then 1 else 0 : Nat) : ℚ) - 1) = 0 := by
      by_cases h1 : l = i
      · rw [if_pos h1, Nat.cast_one, sub_self, mul_zero]
      · rw [if_neg h1, Nat.cast_zero, zero_mul]
    rw [hz, zero_div, zero_div, zero_add, add_zero]
    by_cases h2 : l = j
    · rw [if_pos h2, if_pos h2, Nat.cast_one]
    · rw [if_neg h2, if_neg h2, Nat.cast_zero, zero_div]
  simp only [e]
  rw [Finset.sum_ite_eq' Finset.univ j, if_pos (Finset.mem_univ _)]

/-- The hypotheses for two wrappers: a generator wrapped by the first one, unwrapped as a cipher by the second one. -/
example (pem : Nat → Bytes) (parse : Bytes → Res Nat) :
    HeadersFree (fun t : TypeId => t.cls pem parse) ∧ (∀ m, (toyH' m).length = 64) ∧ (0 : Fin 2) ≠ 1 ∧
    serOf prgC 64 (some toyKey32 : Option Bytes) = some toyKey32 ∧ 16 + cipherC.header.length + toyKey32.length ≤ 64 ∧
    (∀ l, AtMostFor l (if l = 0 then 1 else 0) (if l = 1 then 1 else 0)
      (cross (cls := fun t : TypeId => t.cls pem parse) (0 : Fin 2) 1 .prg .cipher (some toyKey32 : Option Bytes))) :=
  ⟨c91_headers pem parse, toyH'_length, by decide, by simp [serOf, prgC, keySer, Class.header, toyKey32],
    by simp [Class.header, cipherC, toyKey32], fun l => cross_atMost _ _ _ l⟩

end Verif.Wrapper.Many
