import Verif.SetHash.SpecGame
import Verif.Tosses
import Mathlib.Algebra.BigOperators.Fin
import Mathlib.Algebra.BigOperators.Group.List.Lemmas

/-! # Set hash: lemmas for C98 -/

namespace Verif.SetHash.Game

open Verif Verif.Avg

theorem ind_true {p : Prop} (h : p) : ind p = 1 := by unfold ind; rw [if_pos h]
theorem ind_false {p : Prop} (h : ¬ p) : ind p = 0 := by unfold ind; rw [if_neg h]
theorem ind_nonneg (p : Prop) : 0 ≤ ind p := by
  by_cases h : p
  · rw [ind_true h]; norm_num
  · rw [ind_false h]
theorem ind_le (p : Prop) : ind p ≤ 1 := by
  by_cases h : p
  · rw [ind_true h]
  · rw [ind_false h]; norm_num

theorem E_sub_const {α : Type} [Fintype α] [Nonempty α] (f : α → ℚ) (c : ℚ) : E f - c = E (fun a => f a - c) := by
  rw [← E_sub, E_const]

/-! ## Multiples -/

section
variable {A : Type} [AddCommGroup A] {C : Curve A} {ℓ : Nat} {g : A}

theorem mul_mod [NeZero ℓ] (hg : ℓ • g = 0) (n : Nat) : (n % ℓ) • g = n • g := by
  conv_rhs => rw [← Nat.div_add_mod n ℓ]
  rw [add_nsmul, mul_comm, mul_nsmul', hg, nsmul_zero, zero_add]

theorem mul_natCast [NeZero ℓ] (hg : ℓ • g = 0) (n : Nat) : mul g (n : ZMod ℓ) = n • g := by
  rw [mul, ZMod.val_natCast, mul_mod hg]

theorem mul_add [NeZero ℓ] (hg : ℓ • g = 0) (r s : ZMod ℓ) : mul g (r + s) = mul g r + mul g s := by
  rw [mul, ZMod.val_add, mul_mod hg, add_nsmul]; rfl

theorem mul_zero' : mul g (0 : ZMod ℓ) = 0 := by rw [mul, ZMod.val_zero, zero_nsmul]

theorem mul_neg' [NeZero ℓ] (hg : ℓ • g = 0) (r : ZMod ℓ) : mul g (-r) = -mul g r := by
  rw [eq_neg_iff_add_eq_zero, ← mul_add hg, neg_add_cancel, mul_zero']

theorem mul_sub' [NeZero ℓ] (hg : ℓ • g = 0) (r s : ZMod ℓ) : mul g (r - s) = mul g r - mul g s := by
  rw [sub_eq_add_neg, mul_add hg, mul_neg' hg, sub_eq_add_neg]

theorem mul_mul [NeZero ℓ] (hg : ℓ • g = 0) (r s : ZMod ℓ) : mul (mul g r) s = mul g (s * r) := by
  rw [mul, mul, mul, ZMod.val_mul, mul_mod hg, mul_nsmul']

theorem mul_int [NeZero ℓ] (hg : ℓ • g = 0) (n : ℤ) (r : ZMod ℓ) : n • mul g r = mul g ((n : ZMod ℓ) * r) := by
  have nat : ∀ (n : Nat) (r : ZMod ℓ), n • mul g r = mul g ((n : ZMod ℓ) * r) := by
    intro n
    induction n with
    | zero => intro r; rw [zero_nsmul, Nat.cast_zero, zero_mul, mul_zero']
    | succ n ih => intro r; rw [succ_nsmul, ih, ← mul_add hg, Nat.cast_succ, add_mul, one_mul]
  cases n with
  | ofNat n =>
    have := nat n r
    simpa using this
  | negSucc n =>
    rw [negSucc_zsmul, nat, ← mul_neg' hg, ← neg_mul]
    congr 2
    push_cast
    ring

theorem mul_inj [Fact ℓ.Prime] (hG : Gen C ℓ g) {r s : ZMod ℓ} (h : mul g r = mul g s) : r = s := by
  by_contra hne
  have h0 : mul g (r - s) = 0 := by rw [mul_sub' hG.zero, h, sub_self]
  have h1 : mul (mul g (r - s)) (r - s)⁻¹ = 0 := by rw [h0, mul, nsmul_zero]
  rw [mul_mul hG.zero, inv_mul_cancel₀ (sub_ne_zero.2 hne), mul] at h1
  have : (1 : ZMod ℓ).val = 1 := ZMod.val_one'' (Fact.out (p := ℓ.Prime)).ne_one
  rw [this, one_nsmul] at h1
  exact hG.ne h1

/-- The logarithm of a point. -/
noncomputable def lg (hG : Gen C ℓ g) (a : A) : ZMod ℓ := by
  classical exact if h : a ∈ C.sub then (hG.all a h).choose else 0

theorem mul_lg (hG : Gen C ℓ g) {a : A} (h : a ∈ C.sub) : mul g (lg hG a) = a := by
  unfold lg
  rw [dif_pos h]
  exact (hG.all a h).choose_spec.symm

/-! ## Drawing hashes with a known representation -/

theorem sum_getElem (f : Block 32 → ℚ) : ∀ (l : List (Block 32)) (K : Nat), l.length ≤ K →
    ∑ k : Fin K, (l[k.val]?).elim 0 f = (l.map f).sum := by
  intro l
  induction l with
  | nil => intro K _; simp
  | cons h l ih =>
    intro K hK
    cases K with
    | zero => simp at hK
    | succ K =>
      rw [Fin.sum_univ_succ, List.map_cons, List.sum_cons, ← ih K (by simpa using hK)]
      simp

theorem sum_list (f : Block 32 → ℚ) {l : List (Block 32)} (hl : l.Nodup) : (l.map f).sum = ∑ h, if h ∈ l then f h else 0 := by
  rw [← List.sum_toFinset _ hl, ← Finset.sum_filter]
  refine Finset.sum_congr ?_ fun _ _ => rfl
  ext x
  simp

variable [Fact ℓ.Prime] {inv : A → List (Block 32)} {K : Nat}

/-- The point of a string of 32 bytes. -/
def pt (C : Curve A) (h : Block 32) : A := C.fromUniform (toBytes h)

/-- The chance that one attempt works. -/
def rate (ℓ K : Nat) : ℚ := 256 ^ 32 / (ℓ * K)

theorem K_pos (hI : Inverse C inv K) : 0 < K := by
  have h : (fun _ => 0 : Block 32) ∈ inv (pt C fun _ => 0) := (hI.iff _ _).2 rfl
  have := List.length_pos_of_mem h
  exact lt_of_lt_of_le this (hI.length _)

theorem once_zero (hC : C.Ok) (hG : Gen C ℓ g) (hI : Inverse C inv K) (a : ZMod ℓ) (f : Block 32 → ZMod ℓ → ZMod ℓ → ℚ) :
    E (fun x : Try ℓ K => (once g (mul g a) inv x).elim 0 fun y => f y.1 y.2.1 y.2.2) =
      rate ℓ K * E (fun h => E fun t => f h (lg hG (pt C h) - t * a) t) := by
  have hK := K_pos hI
  have key : ∑ x : Try ℓ K, (once g (mul g a) inv x).elim 0 (fun y => f y.1 y.2.1 y.2.2) =
      ∑ h, ∑ t, f h (lg hG (pt C h) - t * a) t := by
    rw [Fintype.sum_prod_type]
    simp only [Fintype.sum_prod_type]
    have h1 : ∀ r t : ZMod ℓ, ∑ k : Fin K, (once g (mul g a) inv (r, t, k)).elim 0 (fun y => f y.1 y.2.1 y.2.2) =
        ∑ h, if r = lg hG (pt C h) - t * a then f h r t else 0 := by
      intro r t
      have e : ∀ k : Fin K, (once g (mul g a) inv (r, t, k)).elim 0 (fun y => f y.1 y.2.1 y.2.2) =
          ((inv (mul g r + mul (mul g a) t))[k.val]?).elim 0 fun h => f h r t := by
        intro k
        unfold once
        cases (inv (mul g r + mul (mul g a) t))[k.val]? <;> rfl
      simp only [e]
      rw [sum_getElem _ _ _ (hI.length _), sum_list _ (hI.nodup _)]
      refine Finset.sum_congr rfl fun h _ => ?_
      have : h ∈ inv (mul g r + mul (mul g a) t) ↔ r = lg hG (pt C h) - t * a := by
        rw [hI.iff, mul_mul hG.zero, ← mul_add hG.zero, eq_sub_iff_add_eq]
        constructor
        · intro e
          refine mul_inj hG ?_
          rw [mul_lg hG (a := pt C h) (hC.uniform_mem _)]
          exact e.symm
        · intro e
          rw [e, mul_lg hG (a := pt C h) (hC.uniform_mem _)]; rfl
      by_cases c : r = lg hG (pt C h) - t * a
      · rw [if_pos (this.2 c), if_pos c]
      · rw [if_neg (fun m => c (this.1 m)), if_neg c]
    simp only [h1]
    rw [Finset.sum_comm]
    rw [show (∑ h : Block 32, ∑ t : ZMod ℓ, f h (lg hG (pt C h) - t * a) t) = ∑ t : ZMod ℓ, ∑ h : Block 32, f h (lg hG (pt C h) - t * a) t from
      Finset.sum_comm]
    refine Finset.sum_congr rfl fun t _ => ?_
    rw [Finset.sum_comm]
    refine Finset.sum_congr rfl fun h _ => ?_
    rw [Finset.sum_ite_eq', if_pos (Finset.mem_univ _)]
  have hℓ : (ℓ : ℚ) ≠ 0 := by exact_mod_cast (Fact.out (p := ℓ.Prime)).ne_zero
  have hK' : (K : ℚ) ≠ 0 := by exact_mod_cast hK.ne'
  have hb : (256 ^ 32 : ℚ) ≠ 0 := by norm_num
  have hcard : (Fintype.card (Block 32) : ℚ) = 256 ^ 32 := by rw [card_block]; norm_num
  unfold E
  rw [key, ← Finset.sum_div, Fintype.card_prod, Fintype.card_prod, ZMod.card, Fintype.card_fin, hcard, rate]
  generalize (256 ^ 32 : ℚ) = B at hb
  generalize (∑ h, ∑ t, f h (lg hG (pt C h) - t * a) t) = S
  push_cast
  field_simp

theorem once_avg (hC : C.Ok) (hG : Gen C ℓ g) (hI : Inverse C inv K) (a : ZMod ℓ) (c : ℚ) (f : Block 32 → ZMod ℓ → ZMod ℓ → ℚ) :
    E (fun x : Try ℓ K => (once g (mul g a) inv x).elim c fun y => f y.1 y.2.1 y.2.2) =
      (1 - rate ℓ K) * c + rate ℓ K * E (fun h => E fun t => f h (lg hG (pt C h) - t * a) t) := by
  have : Nonempty (Fin K) := ⟨⟨0, K_pos hI⟩⟩
  have h := once_zero hC hG hI a fun h r t => f h r t - c
  have e : ∀ x : Try ℓ K, (once g (mul g a) inv x).elim c (fun y => f y.1 y.2.1 y.2.2) =
      (once g (mul g a) inv x).elim 0 (fun y => f y.1 y.2.1 y.2.2 - c) + c := by
    intro x
    cases once g (mul g a) inv x with
    | none => simp
    | some y => simp
  simp only [e]
  rw [E_add, E_const, h]
  have e2 : E (fun h => E fun t => f h (lg hG (pt C h) - t * a) t - c) = E (fun h => E fun t => f h (lg hG (pt C h) - t * a) t) - c := by
    have : ∀ h, E (fun t => f h (lg hG (pt C h) - t * a) t - c) = E (fun t => f h (lg hG (pt C h) - t * a) t) - c := by
      intro h; rw [← E_sub, E_const]
    simp only [this]
    rw [← E_sub, E_const]
  rw [e2]
  ring

/-- The chance that none of `n` attempts works. -/
def miss (ℓ K n : Nat) : ℚ := (1 - rate ℓ K) ^ n

theorem first_avg (hC : C.Ok) (hG : Gen C ℓ g) (hI : Inverse C inv K) (a : ZMod ℓ) (f : Block 32 → ZMod ℓ → ZMod ℓ → ℚ) : ∀ n,
    E (fun ω : Fin n → Try ℓ K => (first g (mul g a) inv (List.ofFn ω)).elim 0 fun y => f y.1 y.2.1 y.2.2) =
      (1 - miss ℓ K n) * E (fun h => E fun t => f h (lg hG (pt C h) - t * a) t) := by
  have : Nonempty (Fin K) := ⟨⟨0, K_pos hI⟩⟩
  intro n
  induction n with
  | zero =>
    simp only [List.ofFn_zero, first, Option.elim_none]
    rw [E_const, miss, pow_zero, sub_self, zero_mul]
  | succ n ih =>
    rw [Oracle.E_cons (fun l : List (Try ℓ K) => (first g (mul g a) inv l).elim 0 fun y => f y.1 y.2.1 y.2.2)]
    have e : ∀ x : Try ℓ K, E (fun ω : Fin n → Try ℓ K => (first g (mul g a) inv (x :: List.ofFn ω)).elim 0 fun y => f y.1 y.2.1 y.2.2) =
        (once g (mul g a) inv x).elim (E fun ω : Fin n → Try ℓ K => (first g (mul g a) inv (List.ofFn ω)).elim 0 fun y => f y.1 y.2.1 y.2.2)
          fun y => f y.1 y.2.1 y.2.2 := by
      intro x
      simp only [first]
      cases once g (mul g a) inv x with
      | none => rfl
      | some y => simp only [Option.elim_some]; exact E_const _
    simp only [e]
    rw [once_avg hC hG hI, ih, miss, miss, pow_succ]
    ring

theorem rate_pos (hI : Inverse C inv K) : 0 < rate ℓ K := by
  unfold rate
  have := K_pos hI
  have := (Fact.out (p := ℓ.Prime)).pos
  positivity

theorem rate_le (hC : C.Ok) (hG : Gen C ℓ g) (hI : Inverse C inv K) : rate ℓ K ≤ 1 := by
  have : Nonempty (Fin K) := ⟨⟨0, K_pos hI⟩⟩
  have h := once_zero hC hG hI 0 fun _ _ _ => 1
  rw [show (E fun _ : Block 32 => E fun _ : ZMod ℓ => (1 : ℚ)) = 1 by rw [E_const, E_const], mul_one] at h
  rw [← h]
  refine E_le_one fun x => ?_
  cases once g (mul g (0 : ZMod ℓ)) inv x <;> simp

theorem miss_nonneg (hC : C.Ok) (hG : Gen C ℓ g) (hI : Inverse C inv K) (n : Nat) : 0 ≤ miss ℓ K n := by
  have := rate_le hC hG hI
  unfold miss
  exact pow_nonneg (by linarith) _

/-! ## The game in which representations are drawn directly -/

/-- As `reduceFrom`, with uniform hashes and a uniform coefficient of `Q`. -/
noncomputable def ideal (hG : Gen C ℓ g) (a : ZMod ℓ) : List (Bytes × Bytes) → List (ZMod ℓ × ZMod ℓ) → Finder → ℚ
  | L, V, .out c => ind (solve (diff c) L V = a)
  | L, V, .ask s k =>
    match L.lookup s with
    | some y => ideal hG a L V (k y)
    | none => E fun y : Block 32 × Block 32 => E fun t => ideal hG a ((s, two y) :: L) ((lg hG (pt C y.1) - t * a, t) :: V) (k (two y))

theorem chance_nonneg {β ρ : Type} [Fintype β] (p : ρ → Prop) (B : Coin β ρ) : 0 ≤ B.chance p := by
  induction B with
  | out r => exact ind_nonneg _
  | toss c ih => exact E_nonneg ih

theorem chance_le {β ρ : Type} [Fintype β] [Nonempty β] (p : ρ → Prop) (B : Coin β ρ) : B.chance p ≤ 1 := by
  induction B with
  | out r => exact ind_le _
  | toss c ih => exact E_le_one ih

/-- The finder asks at most `q` times. -/
def Short : Nat → Finder → Prop
  | _, .out _ => True
  | 0, .ask _ _ => False
  | q + 1, .ask _ k => ∀ y, Short q (k y)

theorem Short.succ : ∀ {F : Finder} {q : Nat}, Short q F → Short (q + 1) F := by
  intro F
  induction F with
  | out c => intro q _; trivial
  | ask s k ih =>
    intro q h
    cases q with
    | zero => exact h.elim
    | succ q => exact fun y => ih y (h y)

theorem chance_reduce (hC : C.Ok) (hG : Gen C ℓ g) (hI : Inverse C inv K) (a : ZMod ℓ) (n : Nat) (F : Finder) : ∀ (q : Nat) (L V), Short q F →
    ideal hG a L V F - q * miss ℓ K n ≤ (reduceFrom (K := K) g (mul g a) inv n L V F).chance (· = a) := by
  have : Nonempty (Fin K) := ⟨⟨0, K_pos hI⟩⟩
  have hm := miss_nonneg hC hG hI n
  induction F with
  | out c =>
    intro q L V _
    simp only [ideal, reduceFrom, Coin.chance]
    have : (0 : ℚ) ≤ q * miss ℓ K n := mul_nonneg (Nat.cast_nonneg _) hm
    linarith
  | ask s k ih =>
    intro q L V hq
    cases q with
    | zero => exact hq.elim
    | succ q =>
      simp only [ideal, reduceFrom]
      cases hl : L.lookup s with
      | some y =>
        have := ih y q L V (hq y)
        simp only
        push_cast
        linarith
      | none =>
        simp only [Coin.chance]
        set f : Block 32 → Block 32 → ZMod ℓ → ZMod ℓ → ℚ := fun b h r t =>
          (reduceFrom (K := K) g (mul g a) inv n ((s, two (h, b)) :: L) ((r, t) :: V) (k (two (h, b)))).chance (· = a) with hf
        have hf1 : ∀ b h r t, f b h r t ≤ 1 := fun b h r t => chance_le _ _
        have low : ∀ b, E (fun h => E fun t => f b h (lg hG (pt C h) - t * a) t) - miss ℓ K n ≤
            E (fun ω : Fin n → Try ℓ K => (first g (mul g a) inv (List.ofFn ω)).elim 0 fun y => f b y.1 y.2.1 y.2.2) := by
          intro b
          have h1 := first_avg hC hG hI a (f b) n
          rw [h1]
          have h3 : E (fun h => E fun t => f b h (lg hG (pt C h) - t * a) t) ≤ 1 := E_le_one fun h => E_le_one fun t => hf1 _ _ _ _
          nlinarith
        have up : E (fun y : Block 32 × Block 32 => E fun t => ideal hG a ((s, two y) :: L) ((lg hG (pt C y.1) - t * a, t) :: V) (k (two y))) - q * miss ℓ K n ≤
            E (fun b => E (fun h => E fun t => f b h (lg hG (pt C h) - t * a) t)) := by
          rw [E_prod, E_comm]
          have c : ∀ e : ℚ, e = E (fun _ : Block 32 => E fun _ : Block 32 => E fun _ : ZMod ℓ => e) := by
            intro e; rw [E_const, E_const, E_const]
          rw [c (q * miss ℓ K n), E_sub]
          refine E_mono fun b => ?_
          rw [E_sub]
          refine E_mono fun h => ?_
          rw [E_sub]
          refine E_mono fun t => ?_
          exact ih _ q _ _ (hq _)
        have mid : E (fun b : Block 32 => E (fun h => E fun t => f b h (lg hG (pt C h) - t * a) t)) - miss ℓ K n =
            E (fun b : Block 32 => E (fun h => E fun t => f b h (lg hG (pt C h) - t * a) t) - miss ℓ K n) := by
          exact E_sub_const _ _
        have last := le_trans (le_of_eq mid) (E_mono low)
        push_cast
        conv_rhs => rw [E_prod, E_comm]
        refine le_trans (le_trans ?_ last) (E_mono fun b => E_mono fun ω => ?_)
        · linarith
        · cases first g (mul g a) inv (List.ofFn ω) with
          | none => exact chance_nonneg _ _
          | some y => exact le_refl _
end

end Verif.SetHash.Game
