import Verif.RCPrf.LemmasGameB

/-!
# C89: values outside the ranges of constrained keys are as random as the generator
-/

namespace Verif.RCPrf.Game

open Verif Spec Verif.Avg

variable (G : Bytes → Nat → UInt8) (n : Nat)

/-- The view of the attacker, computed from what the opened nodes hold, and given to the test `f`. -/
def viewTest (m : Nat) (rs : List (Nat × Nat)) (qs : List Nat) (f : List (Res CRCPrf) → List (Res Bytes) → ℚ)
    (o : Out (Val n) (gameCut (m + 1) rs qs)) : ℚ :=
  f (rs.map (keyFrom G n (m + 2) o)) (qs.map (valueFrom G n o))

/-- The same with given values in the place of the tree's. -/
def fixedTest (m : Nat) (rs : List (Nat × Nat)) (qs : List Nat) (f : List (Res CRCPrf) → List (Res Bytes) → ℚ)
    (vs : List (Res Bytes)) (o : Out (Val n) (gameCut (m + 1) rs qs)) : ℚ :=
  f (rs.map (keyFrom G n (m + 2) o)) vs

/-- `ε` bounds the advantage of every test of one pair of children that `F` is turned into. -/
def BoundsAll {l : Nat} {C : Cut l} (F : Out (Val n) C → ℚ) (ε : ℚ) : Prop :=
  Secure (child G n) (PairTest (child G n) F) ε

/-- **C89** What the code hands out for a uniform key `k` — the constrained keys for any ranges and the values at any
leaves — is the view computed from what a fixed set of nodes of the tree holds. -/
theorem c89_view {m : Nat} (hm : m ≤ 61) {rs : List (Nat × Nat)} {qs : List Nat}
    (hrs : ∀ r ∈ rs, Accepted (m + 2) r) (hqs : ∀ q ∈ qs, q < 2 ^ (m + 1))
    (f : List (Res CRCPrf) → List (Res Bytes) → ℚ) (k : Block 32) :
    f (rs.map fun r => RCPrf.constrain G n ⟨m + 2, toBytes k⟩ r.1 r.2)
        (qs.map fun q => RCPrf.eval G n ⟨m + 2, toBytes k⟩ q) =
      viewTest G n m rs qs f (real (child G n) (gameCut (m + 1) rs qs) (k : Val n (m + 1))) := by
  unfold viewTest
  congr 1
  · apply List.map_congr_left
    intro r hr
    refine (keyFrom_real G n (by omega) _ (hrs r hr) (fun t x h1 h2 => ?_) k).symm
    rw [mem_inside hr h1 h2, Bool.true_or]
  · apply List.map_congr_left
    intro q hq
    exact (valueFrom_real G n hm _ (hqs q hq) k).symm

/-- **C89** The constrained keys and the values together are told from what independent uniform nodes give by at most
the advantage against one pair of children, once for every hidden node; and there are at most
`(m + 1) * (#values + 2 * #ranges)` of these. -/
theorem c89_hybrid {m : Nat} (hm : m ≤ 61) {rs : List (Nat × Nat)} {qs : List Nat}
    (hrs : ∀ r ∈ rs, Accepted (m + 2) r) (hqs : ∀ q ∈ qs, q < 2 ^ (m + 1))
    (f : List (Res CRCPrf) → List (Res Bytes) → ℚ) {ε : ℚ} (h0 : 0 ≤ ε)
    (hε : BoundsAll G n (viewTest G n m rs qs f) ε) :
    |E (fun k : Block 32 => f (rs.map fun r => RCPrf.constrain G n ⟨m + 2, toBytes k⟩ r.1 r.2)
          (qs.map fun q => RCPrf.eval G n ⟨m + 2, toBytes k⟩ q)) -
        E (viewTest G n m rs qs f)| ≤ ((m + 1) * (qs.length + 2 * rs.length) : Nat) * ε := by
  have hh := hybrid (child G n) (closed_part (child G n) (viewTest G n m rs qs f)) hε _ _ Part.whole
  have e : E (fun k : Block 32 => f (rs.map fun r => RCPrf.constrain G n ⟨m + 2, toBytes k⟩ r.1 r.2)
          (qs.map fun q => RCPrf.eval G n ⟨m + 2, toBytes k⟩ q)) =
      E (fun k : Val n (m + 1) => viewTest G n m rs qs f (real (child G n) (gameCut (m + 1) rs qs) k)) := by
    congr 1
    funext k
    exact c89_view G n hm hrs hqs f k
  rw [e]
  refine le_trans hh (mul_le_mul_of_nonneg_right ?_ h0)
  exact_mod_cast gameCut_hidden (m + 1) rs qs fun r hr => (hrs r hr).1

theorem fixed_hybrid {m : Nat} (hm : m ≤ 61) {rs : List (Nat × Nat)} {qs : List Nat}
    (hrs : ∀ r ∈ rs, Accepted (m + 2) r)
    (f : List (Res CRCPrf) → List (Res Bytes) → ℚ) (vs : List (Res Bytes)) {ε : ℚ} (h0 : 0 ≤ ε)
    (hε : BoundsAll G n (fixedTest G n m rs qs f vs) ε) :
    |E (fun k : Block 32 => f (rs.map fun r => RCPrf.constrain G n ⟨m + 2, toBytes k⟩ r.1 r.2) vs) -
        E (fixedTest G n m rs qs f vs)| ≤ ((m + 1) * (qs.length + 2 * rs.length) : Nat) * ε := by
  have hh := hybrid (child G n) (closed_part (child G n) (fixedTest G n m rs qs f vs)) hε _ _ Part.whole
  have e : E (fun k : Block 32 => f (rs.map fun r => RCPrf.constrain G n ⟨m + 2, toBytes k⟩ r.1 r.2) vs) =
      E (fun k : Val n (m + 1) => fixedTest G n m rs qs f vs (real (child G n) (gameCut (m + 1) rs qs) k)) := by
    congr 1
    funext k
    unfold fixedTest
    congr 1
    apply List.map_congr_left
    intro r hr
    refine (keyFrom_real G n (by omega) _ (hrs r hr) (fun t x h1 h2 => ?_) k).symm
    rw [mem_inside hr h1 h2, Bool.true_or]
  rw [e]
  refine le_trans hh (mul_le_mul_of_nonneg_right ?_ h0)
  exact_mod_cast gameCut_hidden (m + 1) rs qs fun r hr => (hrs r hr).1

theorem outside_reach {m : Nat} {rs : List (Nat × Nat)} {qs : List Nat} {q : Nat} (hq : q ∈ qs)
    (ho : Outside (m + 2) rs q) : Reach (gameCut (m + 1) rs qs) q := by
  refine reach_cutAt _ _ _ _ ho.1 fun t y ht h1 h2 => ?_
  rw [Nat.zero_add] at h1 h2
  rw [Bool.or_eq_false_iff]
  constructor
  · unfold inside
    rw [List.any_eq_false]
    intro r hr
    have := ho.2 r hr
    simp only [Bool.and_eq_true, decide_eq_true_eq]
    omega
  · unfold apart
    rw [Bool.and_eq_false_iff]
    left
    rw [List.all_eq_false]
    exact ⟨q, hq, by simp only [Bool.or_eq_true, decide_eq_true_eq]; omega⟩

variable {n}

theorem keyFrom_put {m : Nat} (hm : m ≤ 61) {rs : List (Nat × Nat)} {qs : List Nat} {r : Nat × Nat} (hr : r ∈ rs)
    (hacc : Accepted (m + 2) r) {q : Nat} (ho : Outside (m + 2) rs q)
    (o : Out (Val n) (gameCut (m + 1) rs qs)) (u : Block n) :
    keyFrom G n (m + 2) (put o q u) r = keyFrom G n (m + 2) o r := by
  obtain ⟨es, _, c0, hcon⟩ := constrain_gen G n (h := m + 2) (by omega) (by omega) hacc []
  unfold keyFrom
  rw [c0, Res.map_ok, Res.map_ok]
  congr 2
  apply List.map_congr_left
  intro e he
  obtain ⟨t, j, e1, e2, hj, hmin, i1, i2, _⟩ := elem_node G n hcon he
  have := ho.2 r hr
  have et : e.subHeight - 1 = t := by omega
  have hout := look_put_other G o q u t j ho.1 (by omega) hj (by omega)
  rw [et, hmin, hout]

/-- **C89** In the ideal world the values at leaves outside the ranges are uniform and independent of each other and of
the constrained keys. -/
theorem c89_ideal {m : Nat} (hm : m ≤ 61) {rs : List (Nat × Nat)} {qs : List Nat}
    (hrs : ∀ r ∈ rs, Accepted (m + 2) r) (hqs : ∀ q ∈ qs, Outside (m + 2) rs q) (hnd : qs.Nodup)
    (f : List (Res CRCPrf) → List (Res Bytes) → ℚ) :
    E (viewTest G n m rs qs f) =
      E (fun u : Fin qs.length → Block n => E (fixedTest G n m rs qs f (List.ofFn fun i => .ok (toBytes (u i))))) := by
  have h := E_values G (fun o : Out (Val n) (gameCut (m + 1) rs qs) => rs.map (keyFrom G n (m + 2) o)) qs hnd
    (fun q hq => ⟨(hqs q hq).1, outside_reach hq (hqs q hq), fun o u => by
      apply List.map_congr_left
      intro r hr
      exact keyFrom_put G hm hr (hrs r hr) (hqs q hq) o u⟩) f
  rw [E_comm] at h
  exact h

/-- **C89** Whoever holds constrained keys for any ranges cannot tell the values at leaves outside of the ranges from
independent uniform strings, except with (twice) the advantage against one pair of children of the generator for
every hidden node. -/
theorem c89_outside {m : Nat} (hm : m ≤ 61) {rs : List (Nat × Nat)} {qs : List Nat}
    (hrs : ∀ r ∈ rs, Accepted (m + 2) r) (hqs : ∀ q ∈ qs, Outside (m + 2) rs q) (hnd : qs.Nodup)
    (f : List (Res CRCPrf) → List (Res Bytes) → ℚ) {ε : ℚ} (h0 : 0 ≤ ε)
    (hε : BoundsAll G n (viewTest G n m rs qs f) ε)
    (hε' : ∀ vs, BoundsAll G n (fixedTest G n m rs qs f vs) ε) :
    |E (fun k : Block 32 => f (rs.map fun r => RCPrf.constrain G n ⟨m + 2, toBytes k⟩ r.1 r.2)
          (qs.map fun q => RCPrf.eval G n ⟨m + 2, toBytes k⟩ q)) -
        E (fun k : Block 32 => E (fun u : Fin qs.length → Block n =>
          f (rs.map fun r => RCPrf.constrain G n ⟨m + 2, toBytes k⟩ r.1 r.2)
            (List.ofFn fun i => .ok (toBytes (u i)))))| ≤
      2 * (((m + 1) * (qs.length + 2 * rs.length) : Nat) * ε) := by
  have h1 := c89_hybrid G n hm hrs (fun q hq => (hqs q hq).1) f h0 hε
  rw [c89_ideal G hm hrs hqs hnd f] at h1
  rw [E_comm (fun (k : Block 32) (u : Fin qs.length → Block n) =>
    f (rs.map fun r => RCPrf.constrain G n ⟨m + 2, toBytes k⟩ r.1 r.2) (List.ofFn fun i => .ok (toBytes (u i))))]
  have h2 := abs_E_sub_le (c := ((m + 1) * (qs.length + 2 * rs.length) : Nat) * ε)
    (fun u : Fin qs.length → Block n => E (fun k : Block 32 =>
      f (rs.map fun r => RCPrf.constrain G n ⟨m + 2, toBytes k⟩ r.1 r.2) (List.ofFn fun i => .ok (toBytes (u i)))))
    (fun u => E (fixedTest G n m rs qs f (List.ofFn fun i => .ok (toBytes (u i)))))
    (by
      intro u
      have hu := hε' (List.ofFn fun i => .ok (toBytes (u i)))
      generalize (List.ofFn fun i => Res.ok (toBytes (u i))) = vs at hu ⊢
      exact fixed_hybrid G n hm hrs f vs h0 hu)
  rw [abs_sub_comm] at h2
  have t := abs_sub_le (E (fun k : Block 32 => f (rs.map fun r => RCPrf.constrain G n ⟨m + 2, toBytes k⟩ r.1 r.2)
          (qs.map fun q => RCPrf.eval G n ⟨m + 2, toBytes k⟩ q)))
    (E (fun u : Fin qs.length → Block n => E (fixedTest G n m rs qs f (List.ofFn fun i => .ok (toBytes (u i))))))
    (E (fun u : Fin qs.length → Block n => E (fun k : Block 32 =>
      f (rs.map fun r => RCPrf.constrain G n ⟨m + 2, toBytes k⟩ r.1 r.2) (List.ofFn fun i => .ok (toBytes (u i))))))
  refine le_trans t ?_
  rw [two_mul]
  exact add_le_add h1 h2

/-- **C89** Without constrained keys: the values at distinct leaves are told from independent uniform strings by at
most the advantage against one pair of children for every hidden node. -/
theorem c89_values {m : Nat} (hm : m ≤ 61) {qs : List Nat} (hqs : ∀ q ∈ qs, q < 2 ^ (m + 1)) (hnd : qs.Nodup)
    (f : List (Res Bytes) → ℚ) {ε : ℚ} (h0 : 0 ≤ ε)
    (hε : BoundsAll G n (viewTest G n m [] qs fun _ vs => f vs) ε) :
    |E (fun k : Block 32 => f (qs.map fun q => RCPrf.eval G n ⟨m + 2, toBytes k⟩ q)) -
        E (fun u : Fin qs.length → Block n => f (List.ofFn fun i => .ok (toBytes (u i))))| ≤
      ((m + 1) * qs.length : Nat) * ε := by
  have hr : ∀ r ∈ ([] : List (Nat × Nat)), Accepted (m + 2) r := fun r hr => by simp at hr
  have h1 := c89_hybrid G n hm hr hqs (fun _ vs => f vs) h0 hε
  rw [c89_ideal G hm hr (fun q hq => ⟨hqs q hq, fun r hr => by simp at hr⟩) hnd] at h1
  unfold fixedTest at h1
  simp only [E_const, List.length_nil, Nat.mul_zero, Nat.add_zero] at h1
  exact h1

/-! ### An example: a generator whose halves are each uniform, and tests that look at one value -/

/-- Copies the key over and over: both children of a node equal it. -/
def copyG : Bytes → Nat → UInt8 := fun k i => k.getD (i % 32) 0

section single
variable {W : Nat → Type} (ch : ∀ l, W (l + 1) → W l × W l)

/-- The test looks at one opened node at most. -/
def Single : {l : Nat} → (C : Cut l) → (Out W C → ℚ) → Prop
  | _, .stop, _ => True
  | _, .split a b, f => (∃ g, Single a g ∧ ∀ u w, f (.node u w) = g u) ∨ (∃ g, Single b g ∧ ∀ u w, f (.node u w) = g w)

theorem single_const {l : Nat} (C : Cut l) (c : ℚ) : Single C (fun _ : Out W C => c) := by
  induction C with
  | stop => trivial
  | split a b iha _ => exact Or.inl ⟨_, iha, fun _ _ => rfl⟩

theorem part_single {L : Nat} {D : Cut L} {F : Out W D → ℚ} (hF : Single D F) {l : Nat} {C : Cut l}
    {f : Out W C → ℚ} (hp : Part ch F C f) : Single C f := by
  induction hp with
  | whole => exact hF
  | left a b f y _ ih =>
    rcases ih with ⟨g, hg, e⟩ | ⟨g, _, e⟩
    · simp only [e]; exact hg
    · simp only [e]; exact single_const a _
  | right a b f u _ ih =>
    rcases ih with ⟨g, _, e⟩ | ⟨g, hg, e⟩
    · simp only [e]; exact single_const b _
    · simp only [e]; exact hg

end single

theorem copyG_at (k : Block 32) (i : Fin 32) (j : Nat) (hj : j % 32 = i) : copyG (toBytes k) j = k i := by
  unfold copyG
  rw [hj, List.getD_eq_getElem?_getD, List.getElem?_eq_getElem (by simp only [toBytes, List.length_ofFn]; exact i.isLt),
    Option.getD_some]
  simp only [toBytes, List.getElem_ofFn]

theorem copy_fst (l : Nat) (g : Val 32 l → ℚ) : E (fun k : Val 32 (l + 1) => g (child copyG 32 l k).1) = E g := by
  have h : ∀ k : Block 32, (fun i : Fin 32 => copyG (toBytes k) i) = k :=
    fun k => funext fun i => copyG_at k i i (Nat.mod_eq_of_lt i.isLt)
  cases l with
  | zero => exact congrArg E (funext fun k => congrArg g (h k))
  | succ l => exact congrArg E (funext fun k => congrArg g (h k))

theorem copy_snd (l : Nat) (g : Val 32 l → ℚ) : E (fun k : Val 32 (l + 1) => g (child copyG 32 l k).2) = E g := by
  have h : ∀ k : Block 32, (fun i : Fin 32 => copyG (toBytes k) (32 + i)) = k :=
    fun k => funext fun i => copyG_at k i (32 + i) (by have := i.isLt; omega)
  cases l with
  | zero => exact congrArg E (funext fun k => congrArg g (h k))
  | succ l => exact congrArg E (funext fun k => congrArg g (h k))

theorem copy_bounds {l : Nat} {C : Cut l} {F : Out (Val 32) C → ℚ} (hF : Single C F) : BoundsAll copyG 32 F 0 := by
  intro l' f hf
  obtain ⟨a, b, f, hp⟩ := hf
  have hs := part_single _ hF hp
  have : adv (child copyG 32) (fun xy : Val 32 l' × Val 32 l' =>
      f (.node (real (child copyG 32) a xy.1) (real (child copyG 32) b xy.2))) = 0 := by
    unfold adv
    rcases hs with ⟨g, _, e⟩ | ⟨g, _, e⟩
    · simp only [e]
      rw [E_prod (α := Val 32 l') (β := Val 32 l')]
      simp only [E_const]
      rw [copy_fst l' (fun x => g (real (child copyG 32) a x)), sub_self, abs_zero]
    · simp only [e]
      rw [E_prod (α := Val 32 l') (β := Val 32 l')]
      simp only [E_const]
      rw [copy_snd l' (fun y => g (real (child copyG 32) b y)), sub_self, abs_zero]
  exact le_of_eq this

/-- The test of the example: is the value all zero? -/
def zeroTest (vs : List (Res Bytes)) : ℚ := if vs = [.ok (List.replicate 32 0)] then 1 else 0

example : Accepted 3 (2, 3) ∧ Outside 3 [(2, 3)] 0 := by
  refine ⟨⟨by decide, by decide, by decide⟩, by decide, ?_⟩
  intro r hr
  rw [List.mem_singleton] at hr
  subst hr
  decide

example : BoundsAll copyG 32 (viewTest copyG 32 1 [(2, 3)] [0] fun _ vs => zeroTest vs) 0 := by
  apply copy_bounds
  show Single (.split (.split .stop .stop) .stop) _
  exact Or.inl ⟨fun u => zeroTest [.ok (look copyG 32 u 0 0)],
    Or.inl ⟨fun v => zeroTest [.ok (look copyG 32 v 0 0)], trivial, fun _ _ => rfl⟩, fun _ _ => rfl⟩

example (vs : List (Res Bytes)) : BoundsAll copyG 32 (fixedTest copyG 32 1 [(2, 3)] [0] (fun _ vs => zeroTest vs) vs) 0 :=
  copy_bounds (single_const _ _)

/-- With two values the copying generator is no generator at all: the children of a node are equal. -/
example (k : Block 32) : (child copyG 32 0 k).1 = (child copyG 32 0 k).2 := by
  funext i
  simp [child, copyG, width]

/-- What is hidden in the example: the root and its left child. -/
example : (gameCut 2 [(2, 3)] [0]).hidden = 2 := by decide

end Verif.RCPrf.Game
