import Verif.Oracle
import Mathlib.Data.Fin.Tuple.Basic
import Mathlib.Data.List.OfFn

/-!
# Attacks on a function that toss coins

Nothing in this file speaks of the code.
-/

namespace Verif.Oracle

open Verif Verif.Avg

/-- An attack on a function from `ι` to `γ` that also draws uniform elements of `β`. -/
inductive Rand (ι γ β : Type) where
  | done (b : Bool)
  | ask (s : ι) (c : γ → Rand ι γ β)
  | toss (c : β → Rand ι γ β)

/-- The attack asks at most `q` times and tosses at most `n` coins. -/
inductive Few {ι γ β : Type} : Nat → Nat → Rand ι γ β → Prop
  | done {q n : Nat} (b : Bool) : Few q n (.done b)
  | ask {q n : Nat} {s : ι} {c : γ → Rand ι γ β} : (∀ y, Few q n (c y)) → Few (q + 1) n (.ask s c)
  | toss {q n : Nat} {c : β → Rand ι γ β} : (∀ x, Few q n (c x)) → Few q (n + 1) (.toss c)

variable {ι γ β : Type}

/-- The attack with the coins `ω`. -/
def det : List β → Rand ι γ β → Att ι γ
  | _, .done b => .done b
  | ω, .ask s c => .ask s fun y => det ω (c y)
  | [], .toss _ => .done false
  | x :: ω, .toss c => det ω (c x)

/-- The probability to guess `true` when `F` answers. -/
def playR [Fintype β] (F : ι → γ) : Rand ι γ β → ℚ
  | .done b => if b then 1 else 0
  | .ask s c => playR F (c (F s))
  | .toss c => E fun x => playR F (c x)

/-- The probability to guess `true` when each new point gets the image under `u` of an independent uniform element of `α`. -/
def freshR {α : Type} [BEq ι] [Fintype α] [Fintype β] (u : α → γ) : List (ι × γ) → Rand ι γ β → ℚ
  | _, .done b => if b then 1 else 0
  | L, .ask s c =>
    match L.lookup s with
    | some y => freshR u L (c y)
    | none => E fun a => freshR u ((s, u a) :: L) (c (u a))
  | L, .toss c => E fun x => freshR u L (c x)

/-- A vector is its first entry and the others. -/
theorem E_cons [Fintype β] {n : Nat} (f : List β → ℚ) :
    E (fun ω : Fin (n + 1) → β => f (List.ofFn ω)) = E (fun x => E (fun ω : Fin n → β => f (x :: List.ofFn ω))) := by
  rw [← E_equiv (Fin.consEquiv fun _ => β) (fun ω : Fin (n + 1) → β => f (List.ofFn ω)), E_prod]
  refine congrArg E (funext fun x => congrArg E (funext fun ω => ?_))
  simp [Fin.consEquiv, List.ofFn_succ]

theorem E_det [Fintype β] [Nonempty β] (F : ι → γ) {q n : Nat} {R : Rand ι γ β} (hR : Few q n R) :
    E (fun ω : Fin n → β => play F (det (List.ofFn ω) R)) = playR F R := by
  induction hR with
  | done b => simp only [det, play, playR]; exact E_const _
  | ask _ ih => simp only [det, play, playR]; exact ih _
  | @toss q n c _ ih =>
    rw [E_cons (fun l => play F (det l (.toss c)))]
    simp only [det, playR]
    exact congrArg E (funext fun x => ih x)

theorem E_det_fresh {α : Type} [BEq ι] [Fintype α] [Nonempty α] [Fintype β] [Nonempty β] (u : α → γ) {q n : Nat} {R : Rand ι γ β} (hR : Few q n R) :
    ∀ L, E (fun ω : Fin n → β => fresh u L (det (List.ofFn ω) R)) = freshR u L R := by
  induction hR with
  | done b => intro L; simp only [det, fresh, freshR]; exact E_const _
  | @ask q n s c _ ih =>
    intro L
    simp only [det, fresh, freshR]
    cases L.lookup s with
    | some y => exact ih y L
    | none =>
      simp only
      rw [E_comm]
      exact congrArg E (funext fun a => ih _ _)
  | @toss q n c _ ih =>
    intro L
    rw [E_cons (fun l => fresh u L (det l (.toss c)))]
    simp only [det, freshR]
    exact congrArg E (funext fun x => ih x L)

theorem atMost_det {q n : Nat} {R : Rand ι γ β} (hR : Few q n R) : ∀ ω, AtMost q (det ω R) := by
  induction hR with
  | done b => intro ω; cases ω <;> exact .done b
  | ask _ ih =>
    intro ω
    cases ω <;> exact .ask fun y => ih y _
  | toss _ ih =>
    intro ω
    cases ω with
    | nil => exact .done false
    | cons x ω => exact ih x ω

end Verif.Oracle
