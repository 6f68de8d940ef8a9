import Verif.Uniform

/-!
# Attacks on a function

An attack asks for the values of a function at points of its choice, each of which may depend on the values before, and ends with a guess.
-/

namespace Verif.Oracle

open Verif Verif.Avg

/-- An attack on a function from `ι` to `γ`. -/
inductive Att (ι γ : Type) where
  | done (b : Bool)
  | ask (s : ι) (c : γ → Att ι γ)

/-- The attack asks at most `q` times. -/
inductive AtMost {ι γ : Type} : Nat → Att ι γ → Prop
  | done {q : Nat} (b : Bool) : AtMost q (.done b)
  | ask {q : Nat} {s : ι} {c : γ → Att ι γ} : (∀ y, AtMost q (c y)) → AtMost (q + 1) (.ask s c)

variable {ι : Type}

/-- The guess, as a number, when `F` answers. -/
def play {γ : Type} (F : ι → γ) : Att ι γ → ℚ
  | .done b => if b then 1 else 0
  | .ask s c => play F (c (F s))

/-- The probability to guess `true` when each new point gets the image under `u` of an independent uniform element of `α`; `L` are the
values so far. -/
def fresh {α γ : Type} [BEq ι] [Fintype α] (u : α → γ) : List (ι × γ) → Att ι γ → ℚ
  | _, .done b => if b then 1 else 0
  | L, .ask s c =>
    match L.lookup s with
    | some y => fresh u L (c y)
    | none => E fun a => fresh u ((s, u a) :: L) (c (u a))

/-- The attack on a function that `A` makes, with `f` applied to the answers. -/
def through {γ δ : Type} (f : γ → δ) : Att ι δ → Att ι γ
  | .done b => .done b
  | .ask s c => .ask s fun y => through f (c (f y))

theorem play_through {γ δ : Type} (f : γ → δ) (F : ι → γ) : ∀ A : Att ι δ, play F (through f A) = play (fun s => f (F s)) A
  | .done _ => rfl
  | .ask s c => play_through f F (c (f (F s)))

theorem lookup_map {γ δ : Type} [BEq ι] (f : γ → δ) (s : ι) : ∀ L : List (ι × γ),
    (L.map fun x => (x.1, f x.2)).lookup s = (L.lookup s).map f
  | [] => rfl
  | x :: L => by
    rw [List.map_cons, List.lookup_cons, List.lookup_cons]
    by_cases h : s == x.1
    · simp [h]
    · simp [h, lookup_map f s L]

theorem fresh_through {α γ δ : Type} [BEq ι] [Fintype α] (u : α → γ) (f : γ → δ) (A : Att ι δ) : ∀ L : List (ι × γ),
    fresh u L (through f A) = fresh (fun a => f (u a)) (L.map fun x => (x.1, f x.2)) A := by
  induction A with
  | done b => intro L; rfl
  | ask s c ih =>
    intro L
    simp only [through, fresh]
    rw [lookup_map]
    cases L.lookup s with
    | some y => exact ih _ L
    | none => exact congrArg E (funext fun a => ih _ _)

theorem fresh_test {α γ : Type} [BEq ι] [Fintype α] [Nonempty α] (u : α → γ) (A : Att ι γ) : ∀ L, 0 ≤ fresh u L A ∧ fresh u L A ≤ 1 := by
  induction A with
  | done b => intro L; unfold fresh; split <;> norm_num
  | ask s c ih =>
    intro L
    simp only [fresh]
    cases L.lookup s with
    | some y => exact ih _ L
    | none => exact ⟨E_nonneg fun a => (ih _ _).1, E_le_one fun a => (ih _ _).2⟩

/-- `B` is what is left of the attack `A` after some answers. -/
inductive Rest {γ : Type} (A : Att ι γ) : Att ι γ → Prop
  | all : Rest A A
  | next {s : ι} {c : γ → Att ι γ} (y : γ) : Rest A (.ask s c) → Rest A (c y)

/-- Two ways to draw the values, and an attack that asks `q` times: `ε` bounds the distance for the tests of one value that the attack is turned into, which go
on with the attack and draw the other values in the second way. -/
theorem fresh_close' {α β γ : Type} [BEq ι] [Fintype α] [Fintype β] [Nonempty α] [Nonempty β] {u : α → γ} {v : β → γ} {ε : ℚ} (hε : 0 ≤ ε)
    {A : Att ι γ} (h : ∀ (s : ι) (c : γ → Att ι γ) (L : List (ι × γ)), Rest A (.ask s c) →
      |E (fun a => fresh v ((s, u a) :: L) (c (u a))) - E (fun b => fresh v ((s, v b) :: L) (c (v b)))| ≤ ε) {q : Nat} {B : Att ι γ} (hB : AtMost q B) :
    Rest A B → ∀ L, |fresh u L B - fresh v L B| ≤ q * ε := by
  induction hB with
  | done b =>
    intro _ L
    simp only [fresh, sub_self, abs_zero]
    positivity
  | @ask q s c _ ih =>
    intro hr L
    simp only [fresh]
    push_cast
    cases L.lookup s with
    | some y =>
      refine le_trans (ih y (.next y hr) L) ?_
      linarith
    | none =>
      have h1 := abs_E_sub_le (fun a => fresh u ((s, u a) :: L) (c (u a))) (fun a => fresh v ((s, u a) :: L) (c (u a)))
        fun a => ih (u a) (.next (u a) hr) ((s, u a) :: L)
      have h2 := h s c L hr
      have h3 := abs_sub_le (E fun a => fresh u ((s, u a) :: L) (c (u a))) (E fun a => fresh v ((s, u a) :: L) (c (u a)))
        (E fun b => fresh v ((s, v b) :: L) (c (v b)))
      simp only at h2 ⊢
      linarith

/-- Two ways to draw the values that are at distance `ε` are at distance `q ε` for an attack that asks `q` times. -/
theorem fresh_close {α β γ : Type} [BEq ι] [Fintype α] [Fintype β] [Nonempty α] [Nonempty β] {u : α → γ} {v : β → γ} {ε : ℚ} (hε : 0 ≤ ε)
    (h : ∀ f : γ → ℚ, Test f → |E (fun a => f (u a)) - E (fun b => f (v b))| ≤ ε) {q : Nat} {A : Att ι γ} (hA : AtMost q A) :
    ∀ L, |fresh u L A - fresh v L A| ≤ q * ε :=
  fresh_close' hε (fun s c L _ => h (fun y => fresh v ((s, y) :: L) (c y)) fun y => fresh_test v (c y) _) hA .all

/-- How well `B` tells the function of a uniform key of `m` bytes from independent uniform strings of `n` bytes. -/
def advPrf {m : Nat} (F : Bytes → Bytes → Bytes) (n : Nat) (B : Att Bytes Bytes) : ℚ :=
  |E (fun k : Block m => play (F (toBytes k)) B) - fresh (fun b : Block n => toBytes b) [] B|

/-- A function of the output of a pseudorandom function. -/
theorem prf_close {m n : Nat} {β γ : Type} [Fintype β] [Nonempty β] (F : Bytes → Bytes → Bytes) {f : Bytes → γ} {v : β → γ} {ε : ℚ} (hε : 0 ≤ ε)
    (h : ∀ t : γ → ℚ, Test t → |E (fun b : Block n => t (f (toBytes b))) - E (fun b => t (v b))| ≤ ε) {q : Nat} {A : Att Bytes γ} (hA : AtMost q A) :
    |E (fun k : Block m => play (fun s => f (F (toBytes k) s)) A) - fresh v [] A| ≤ advPrf (m := m) F n (through f A) + q * ε := by
  have h1 := fresh_close hε (u := fun b : Block n => f (toBytes b)) h hA []
  have h2 : fresh (fun b : Block n => toBytes b) [] (through f A) = fresh (fun b : Block n => f (toBytes b)) [] A :=
    fresh_through _ f A []
  unfold advPrf
  simp only [play_through]
  rw [h2]
  have h3 := abs_sub_le (E (fun k : Block m => play (fun s => f (F (toBytes k) s)) A)) (fresh (fun b : Block n => f (toBytes b)) [] A) (fresh v [] A)
  linarith

end Verif.Oracle
