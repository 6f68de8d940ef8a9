import Verif.Aez.SpecAll
import Verif.Aez.PropsWide

/-!
# Short and long strings in one attack
-/

namespace Verif.AezAll

open Verif Verif.Avg Verif.Oracle Verif.AezRandom

/-! ## Answering some of the questions of an attack -/

section
variable {ι γ : Type}

/-- `F` answers the questions in `p`, `G` the others. -/
def both (p : ι → Bool) (F G : ι → γ) (a : ι) : γ := if p a then F a else G a

/-- The attack that gives itself the answers of `F` to the questions in `p`. -/
def inner (p : ι → Bool) (F : ι → γ) : Att ι γ → Att ι γ
  | .done b => .done b
  | .ask a c => if p a then inner p F (c (F a)) else .ask a fun y => inner p F (c y)

theorem play_inner (p : ι → Bool) (F G : ι → γ) : ∀ A : Att ι γ, play G (inner p F A) = play (both p F G) A
  | .done _ => rfl
  | .ask a c => by
    unfold inner
    rw [play]
    by_cases h : p a = true
    · rw [if_pos h, play_inner p F G, both, if_pos h]
    · rw [if_neg h, both, if_neg h]
      exact play_inner p F G _

theorem atMost_inner (p : ι → Bool) (F : ι → γ) {q : Nat} {A : Att ι γ} (hA : AtMost q A) : AtMost q (inner p F A) := by
  induction hA with
  | done b => exact .done b
  | ask _ ih =>
    unfold inner
    split
    · exact (ih _).succ
    · exact .ask fun y => ih y

theorem asks_inner (p : ι → Bool) (F : ι → γ) {P : ι → Prop} {A : Att ι γ} (hA : Asks P A) : Asks (fun a => P a ∧ p a = false) (inner p F A) := by
  induction hA with
  | done b => exact .done b
  | ask hP _ ih =>
    unfold inner
    split
    · exact ih _
    · next h => exact .ask ⟨hP, by simpa using h⟩ fun y => ih y

theorem both_not (p : ι → Bool) (F G : ι → γ) : both (fun a => !p a) G F = both p F G := by
  funext a
  unfold both
  cases h : p a <;> simp [h]

theorem asks_mono {P Q : ι → Prop} (h : ∀ a, P a → Q a) {A : Att ι γ} (hA : Asks P A) : Asks Q A := by
  induction hA with
  | done b => exact .done b
  | ask hP _ ih => exact .ask (h _ hP) ih

/-- Two systems that are each close to another are close together, if they are independent. -/
theorem both_close {α β α' β' : Type} [Fintype α] [Fintype β] [Fintype α'] [Fintype β'] [Nonempty α] [Nonempty β'] (p : ι → Bool)
    (F : α → ι → γ) (G : β → ι → γ) (F' : α' → ι → γ) (G' : β' → ι → γ) {P : ι → Prop} {q : Nat} {c d : ℚ}
    (h1 : ∀ A : Att ι γ, AtMost q A → Asks (fun a => P a ∧ p a = true) A → |E (fun x => play (F x) A) - E (fun x => play (F' x) A)| ≤ c)
    (h2 : ∀ A : Att ι γ, AtMost q A → Asks (fun a => P a ∧ p a = false) A → |E (fun x => play (G x) A) - E (fun x => play (G' x) A)| ≤ d)
    {A : Att ι γ} (hA : AtMost q A) (hs : Asks P A) :
    |E (fun x => E (fun y => play (both p (F x) (G y)) A)) - E (fun x => E (fun y => play (both p (F' x) (G' y)) A))| ≤ c + d := by
  have a1 : |E (fun x => E (fun y => play (both p (F x) (G y)) A)) - E (fun x => E (fun y => play (both p (F x) (G' y)) A))| ≤ d := by
    refine abs_E_sub_le _ _ fun x => ?_
    simp only [← play_inner]
    exact h2 _ (atMost_inner p (F x) hA) (asks_inner p (F x) hs)
  have a2 : |E (fun x => E (fun y => play (both p (F x) (G' y)) A)) - E (fun x => E (fun y => play (both p (F' x) (G' y)) A))| ≤ c := by
    rw [E_comm, E_comm (fun x y => play (both p (F' x) (G' y)) A)]
    refine abs_E_sub_le _ _ fun y => ?_
    simp only [← both_not p, ← play_inner]
    refine h1 _ (atMost_inner _ (G' y) hA) (asks_mono (fun a ha => ⟨ha.1, ?_⟩) (asks_inner _ (G' y) hs))
    simpa using ha.2
  have := abs_sub_le (E (fun x => E (fun y => play (both p (F x) (G y)) A))) (E (fun x => E (fun y => play (both p (F x) (G' y)) A)))
    (E (fun x => E (fun y => play (both p (F' x) (G' y)) A)))
  linarith

end

/-! ## Some components of a uniform family -/

section
variable {ι κ κ' : Type} [Fintype ι] [DecidableEq ι] [Fintype κ] [DecidableEq κ] [Fintype κ'] [DecidableEq κ'] {β : ι → Type} [∀ i, Fintype (β i)]
  [∀ i, Nonempty (β i)]

theorem E_comps {c : κ → ι} (hc : Function.Injective c) (F : (∀ k, β (c k)) → ℚ) : E (fun f : ∀ i, β i => F fun k => f (c k)) = E F := by
  classical
  let e := Equiv.piEquivPiSubtypeProd (fun i => i ∈ Set.range c) β
  rw [← E_equiv e.symm (fun f : ∀ i, β i => F fun k => f (c k)), E_prod]
  let r := Equiv.ofInjective c hc
  have h : ∀ (g : ∀ i : { i // i ∈ Set.range c }, β i) (g' : ∀ i : { i // i ∉ Set.range c }, β i),
      (fun k => e.symm (g, g') (c k)) = fun k => g (r k) := by
    intro g g'
    funext k
    show (Equiv.piEquivPiSubtypeProd (fun i => i ∈ Set.range c) β).symm (g, g') (c k) = g (r k)
    unfold Equiv.piEquivPiSubtypeProd
    simp only [Equiv.coe_fn_symm_mk]
    rw [dif_pos ⟨k, rfl⟩]
    rfl
  have h' : ∀ g : (∀ i : { i // i ∈ Set.range c }, β i), E (fun g' : ∀ i : { i // i ∉ Set.range c }, β i => F fun k => e.symm (g, g') (c k)) =
      F fun k => g (r k) := fun g => by
    simp only [h g]
    exact E_const _
  refine (congrArg E (funext h')).trans ?_
  exact E_equiv (Equiv.piCongrLeft (fun i : { i // i ∈ Set.range c } => β i) r).symm F

theorem E_two {c : κ → ι} {d : κ' → ι} (hc : Function.Injective c) (hd : Function.Injective d) (hcd : ∀ k k', c k ≠ d k')
    (F : (∀ k, β (c k)) → (∀ k, β (d k)) → ℚ) :
    E (fun f : ∀ i, β i => F (fun k => f (c k)) (fun k => f (d k))) = E (fun g => E (fun g' => F g g')) := by
  have hi : Function.Injective (Sum.elim c d) := hc.sumElim hd hcd
  have h1 := E_comps (β := β) hi (fun g => F (fun k => g (.inl k)) (fun k => g (.inr k)))
  refine h1.trans ?_
  rw [← E_prod (fun x : (∀ k, β (c k)) × (∀ k, β (d k)) => F x.1 x.2)]
  exact E_equiv (Equiv.sumPiEquivProdPi (fun k => β (Sum.elim c d k))) (fun x : (∀ k, β (c k)) × (∀ k, β (d k)) => F x.1 x.2)

end

end Verif.AezAll
