import Verif.RCPrf.LemmasAdaptiveB
import Verif.RCPrf.PropsGame

/-!
# C94: values outside the ranges of constrained keys stay random when they are asked for one after the other
-/

namespace Verif.RCPrf.Adapt

open Verif Spec Verif.Avg Verif.Oracle Verif.RCPrf.Game

variable (G : Bytes → Nat → UInt8) (n : Nat)

/-- **C94** For every attack that fetches at most `a` constrained keys for ranges fixed beforehand and at most `b` values
outside of these ranges, in any order and each depending on all that came before: it tells the values from a uniform
table, with the same constrained keys, by at most the advantage against one pair of children, once for every level of
the tree and every node that is asked for. -/
theorem c94_adaptive {m : Nat} (hm : m ≤ 61) {rs : List (Nat × Nat)} (hrs : ∀ r ∈ rs, Accepted (m + 2) r)
    {A : Adv} (hA : Fair (m + 2) rs A) {a b : Nat} (hw : Within a b A) {ε : ℚ} (h0 : 0 ≤ ε)
    (hε : BoundsAll G n rs (m + 1) (toNodes G n m A) ε)
    (hε' : ∀ V, BoundsAll G n rs (m + 1) (toNodes G n m (given V A)) ε) :
    |E (fun k : Block 32 => run (fun r => RCPrf.constrain G n ⟨m + 2, toBytes k⟩ r.1 r.2)
          (fun q => RCPrf.eval G n ⟨m + 2, toBytes k⟩ q) A) -
        E (fun k : Block 32 => E (fun T : Fin (2 ^ (m + 1)) → Block n =>
          run (fun r => RCPrf.constrain G n ⟨m + 2, toBytes k⟩ r.1 r.2)
            (fun q => .ok (toBytes (entry (fun _ => 0) T q))) A))| ≤
      ((m + 1) * (b + 2 * a * Nat.max 1 (2 * m)) : Nat) * ε := by
  have h1 := hyb_ideal G n (asks_toNodes G n hm hrs hA) (atMost_toNodes G n hm hrs hA hw) h0 hε (m + 1) 0
    (fun _ _ => []) rfl
  rw [real_hyb G n hm hrs _ hA, ideal_values G n hm hrs hA (m + 1) 0 _ rfl] at h1
  have h2 := abs_E_sub_le (c := ((m + 1) * (0 + a * Nat.max 1 (2 * m)) : Nat) * ε)
    (fun T : Fin (2 ^ (m + 1)) → Block n => E (fun k : Block 32 =>
      run (fun r => RCPrf.constrain G n ⟨m + 2, toBytes k⟩ r.1 r.2) (fun q => .ok (toBytes (entry (fun _ => 0) T q))) A))
    (fun T => ideal G n rs (m + 1) (m + 1) 0 (fun _ _ => [])
      (toNodes G n m (given (fun q => .ok (toBytes (entry (fun _ => 0) T q))) A)))
    (by
      intro T
      have hf := fair_given (fun q => .ok (toBytes (entry (fun _ => 0) T q))) hA
      have h := hyb_ideal G n (asks_toNodes G n hm hrs hf)
        (atMost_toNodes G n hm hrs hf (within_given (fun q => .ok (toBytes (entry (fun _ => 0) T q))) hw)) h0
        (hε' _) (m + 1) 0 (fun _ _ => []) rfl
      rw [real_hyb G n hm hrs _ hf] at h
      simp only [run_given] at h
      exact h)
  rw [abs_sub_comm] at h2
  rw [E_comm (fun (k : Block 32) (T : Fin (2 ^ (m + 1)) → Block n) =>
    run (fun r => RCPrf.constrain G n ⟨m + 2, toBytes k⟩ r.1 r.2) (fun q => .ok (toBytes (entry (fun _ => 0) T q))) A)]
  refine le_trans (abs_sub_le _ (E (fun T : Fin (2 ^ (m + 1)) → Block n => ideal G n rs (m + 1) (m + 1) 0 (fun _ _ => [])
    (toNodes G n m (given (fun q => .ok (toBytes (entry (fun _ => 0) T q))) A)))) _) ?_
  refine le_trans (add_le_add h1 h2) (le_of_eq ?_)
  push_cast
  ring

/-- An attack that fetches values only. -/
inductive ValuesOnly : Adv → Prop
  | done (b : Bool) : ValuesOnly (.done b)
  | value {q : Nat} {c : Res Bytes → Adv} : (∀ y, ValuesOnly (c y)) → ValuesOnly (.value q c)

theorem given_done {A : Adv} (hA : ValuesOnly A) (V : Nat → Res Bytes) : ∃ b, given V A = .done b := by
  induction hA with
  | done b => exact ⟨b, rfl⟩
  | value _ ih => exact ih _

theorem rest_done {ι γ : Type} {b : Bool} {B : Att ι γ} (h : Rest (.done b) B) : B = .done b := by
  induction h with
  | all => rfl
  | next y _ ih => cases ih

/-- **C94** Without constrained keys: for every attack that fetches at most `b` values, each depending on those before, the
PRF is told from a uniform table by at most `(m + 1) b` times the advantage against one pair of children. -/
theorem c94_values {m : Nat} (hm : m ≤ 61) {A : Adv} (hA : Fair (m + 2) [] A) (hv : ValuesOnly A) {b : Nat}
    (hw : Within 0 b A) {ε : ℚ} (h0 : 0 ≤ ε) (hε : BoundsAll G n [] (m + 1) (toNodes G n m A) ε) (K : Nat × Nat → Res CRCPrf) :
    |E (fun k : Block 32 => run K (fun q => RCPrf.eval G n ⟨m + 2, toBytes k⟩ q) A) -
        E (fun T : Fin (2 ^ (m + 1)) → Block n => run K (fun q => .ok (toBytes (entry (fun _ => 0) T q))) A)| ≤
      ((m + 1) * b : Nat) * ε := by
  have h := c94_adaptive G n hm (fun r hr => by simp at hr) hA hw h0 hε (by
    intro V l _ N p c L hr
    obtain ⟨o, ho⟩ := given_done hv V
    rw [ho] at hr
    cases rest_done hr)
  have hK : ∀ (K K' : Nat × Nat → Res CRCPrf) (V : Nat → Res Bytes), run K V A = run K' V A := by
    intro K K' V
    clear h hε hw hA
    induction hv with
    | done b => rfl
    | value _ ih => exact ih _
  simp only [hK _ K, E_const, Nat.mul_zero, Nat.zero_mul, Nat.add_zero] at h
  exact h

/-- **C94** It is enough that no test at all tells one pair of children of a uniform node from a uniform pair by more than
`ε`. -/
theorem c94_bounds {ε : ℚ} (h : ∀ (l : Nat) (f : Val n l × Val n l → ℚ), Test f → adv (child G n) f ≤ ε)
    (rs : List (Nat × Nat)) (M : Nat) (A : Att Query Bytes) : BoundsAll G n rs M A ε :=
  fun l _ N p c L _ => h l _ fun y => fresh_test id (c y) _

/-! ### Examples -/

/-- Looks at the value at leaf 0, and if it is zero fetches the key for the leaves 2 and 3, and otherwise the value at
leaf 1. -/
def exampleAttack : Adv :=
  .value 0 fun y =>
    if y = .ok (List.replicate 32 0) then .key (2, 3) fun k => .done (decide (k = .ok ⟨3, []⟩))
    else .value 1 fun y' => .done (decide (y' = y))

theorem outside_example {q : Nat} (hq : q < 2) : Outside 3 [(2, 3)] q := by
  refine ⟨by show q < 4; omega, ?_⟩
  intro r hr
  rw [List.mem_singleton] at hr
  subst hr
  simp only
  omega

example : (∀ r ∈ [((2, 3) : Nat × Nat)], Accepted (1 + 2) r) ∧ Fair (1 + 2) [(2, 3)] exampleAttack ∧ Within 1 2 exampleAttack := by
  refine ⟨?_, ?_, ?_⟩
  · intro r hr
    rw [List.mem_singleton] at hr
    subst hr
    exact ⟨by decide, by decide, by decide⟩
  · refine .value (outside_example (by omega)) fun y => ?_
    split
    · exact .key (by simp) fun k => .done _
    · exact .value (outside_example (by omega)) fun _ => .done _
  · refine .value fun y => ?_
    split
    · exact .key fun k => .done _
    · exact .value fun _ => .done _

/-- The first value tests whether it is zero. -/
def zeroAttack : Adv := .value 0 fun y => .done (decide (y = .ok (List.replicate 32 0)))

example : Fair (1 + 2) [] zeroAttack ∧ ValuesOnly zeroAttack ∧ Within 0 1 zeroAttack :=
  ⟨.value ⟨by decide, fun r hr => by simp at hr⟩ fun _ => .done _, .value fun _ => .done _, .value fun _ => .done _⟩

/-- For the generator that copies its key, one value is exactly uniform: the bound holds with `ε = 0`. -/
example : BoundsAll copyG 32 [] (1 + 1) (toNodes copyG 32 1 zeroAttack) 0 := by
  have hlev : level [] (1 + 1) 0 0 = 0 := by decide
  intro l _ N p c L hr
  have hB : toPairs copyG 32 [] (1 + 1) N l (toNodes copyG 32 1 zeroAttack) = .ask 0 fun y =>
      .done (decide ((Res.ok (below copyG 32 l (toBytes y.1) 0 0) : Res Bytes) = .ok (List.replicate 32 0))) := by
    simp only [zeroAttack, toNodes, toPairs, hlev]
    rw [if_neg (by omega)]
    simp
  rw [hB] at hr
  have hc : ∀ B, Rest (.ask 0 fun y : Val 32 l × Val 32 l =>
      Att.done (decide ((Res.ok (below copyG 32 l (toBytes y.1) 0 0) : Res Bytes) = .ok (List.replicate 32 0)))) B →
      B = (.ask 0 fun y => .done (decide ((Res.ok (below copyG 32 l (toBytes y.1) 0 0) : Res Bytes) = .ok (List.replicate 32 0)))) ∨
        ∃ b, B = .done b := by
    intro B h
    induction h with
    | all => exact Or.inl rfl
    | next y _ ih =>
      rcases ih with h | ⟨b, h⟩
      · injection h with _ h
        rw [h]
        exact Or.inr ⟨_, rfl⟩
      · cases h
  rcases hc _ hr with h | ⟨b, h⟩
  · injection h with _ h
    rw [h]
    have key : ∀ g : Val 32 l → ℚ, |E (fun k => g (child copyG 32 l k).1) - E (fun y : Val 32 l × Val 32 l => g y.1)| ≤ 0 := by
      intro g
      rw [E_prod (α := Val 32 l) (β := Val 32 l)]
      simp only [E_const]
      rw [copy_fst l g, sub_self, abs_zero]
    exact key fun x => if decide ((Res.ok (below copyG 32 l (toBytes x) 0 0) : Res Bytes) = .ok (List.replicate 32 0)) = true
      then 1 else 0
  · cases h

end Verif.RCPrf.Adapt
