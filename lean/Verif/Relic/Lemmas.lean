import Verif.Relic.Spec
import Mathlib.Data.Nat.Digits.Lemmas
import Mathlib.Tactic.Linarith
import Mathlib.Tactic.Ring
import Mathlib.Tactic.NormNum

/-! # Numbers of RELIC and the operators of scalars, up to the order -/

namespace Verif.Relic

open Verif

theorem mag_digs (n : Nat) : mag (digs n) = n := by
  unfold digs mag
  split
  · next h => subst h; simp
  · rw [List.map_map]
    have : (Nat.digits (2 ^ 64) n).map (UInt64.toNat ∘ UInt64.ofNat) = Nat.digits (2 ^ 64) n := by
      conv_rhs => rw [← List.map_id (Nat.digits (2 ^ 64) n)]
      apply List.map_congr_left
      intro d hd
      have := Nat.digits_lt_base (by norm_num) hd
      simp only [Function.comp, UInt64.toNat_ofNat', id]
      exact Nat.mod_eq_of_lt this
    rw [this, Nat.ofDigits_digits]

theorem digs_ne_nil (n : Nat) : (digs n).length ≠ 0 := by
  unfold digs
  split
  · simp
  · next h => simpa using Nat.digits_ne_nil_iff_ne_zero.2 h

theorem val_nrm (n : Int) : (nrm n).val = n := by
  unfold nrm Bn.val
  simp only [mag_digs, decide_eq_true_eq]
  split <;> omega

theorem neg_nrm (n : Int) : (nrm n).neg = decide (n < 0) := rfl

theorem isZero_nrm (n : Int) : isZero (nrm n) = decide (n = 0) := by
  unfold isZero nrm
  simp only [mag_digs]
  have h := digs_ne_nil n.natAbs
  by_cases h0 : n = 0
  · subst h0; simp [digs]
  · have : n.natAbs ≠ 0 := by omega
    simp [h, h0]

theorem bnNeg_nrm (n : Int) : bnNeg (nrm n) = nrm (-n) := by
  unfold bnNeg
  rw [isZero_nrm]
  by_cases h : n = 0
  · subst h; simp
  · simp only [h, decide_false, Bool.false_eq_true, ↓reduceIte]
    unfold nrm
    simp only [Int.natAbs_neg, Bn.mk.injEq, and_true]
    by_cases h1 : n < 0
    · have : ¬ (-n < 0) := by omega
      simp [h1]; omega
    · have : -n < 0 := by omega
      simp [h1, this]; omega

theorem digs_length_lt {m n : Nat} (h : (digs m).length < (digs n).length) : m < n := by
  have h1 : (digs m).length ≠ 0 := digs_ne_nil m
  have hn : n ≠ 0 := by rintro rfl; have h0 : (digs 0).length = 1 := rfl; omega
  have hl : (digs n).length = (Nat.digits (2 ^ 64) n).length := by simp [digs, hn]
  have hm : m < (2 ^ 64) ^ (digs m).length := by
    by_cases h0 : m = 0
    · subst h0; exact Nat.pow_pos (by norm_num)
    · have : (digs m).length = (Nat.digits (2 ^ 64) m).length := by simp [digs, h0]
      rw [this]
      exact Nat.lt_base_pow_length_digits (by norm_num)
  have hb := Nat.base_pow_length_digits_le (2 ^ 64) n (by norm_num) hn
  rw [← hl] at hb
  have h2 : (2 ^ 64) ^ ((digs m).length + 1) ≤ (2 ^ 64) ^ (digs n).length := Nat.pow_le_pow_right (by norm_num) h
  rw [Nat.pow_succ] at h2
  have h3 : 0 < 2 ^ 64 := by norm_num
  by_contra hc
  have h4 : 2 ^ 64 * n ≤ 2 ^ 64 * m := Nat.mul_le_mul_left _ (by omega)
  have h5 : 2 ^ 64 * m < 2 ^ 64 * (2 ^ 64) ^ (digs m).length := (Nat.mul_lt_mul_left h3).2 hm
  rw [Nat.mul_comm] at h2
  omega

theorem cmpAbs_digs (a b : Bool) (m n : Nat) : cmpAbs ⟨a, digs m⟩ ⟨b, digs n⟩ = compare m n := by
  unfold cmpAbs
  simp only [mag_digs]
  split
  · next h => exact (Nat.compare_eq_gt.2 (digs_length_lt h)).symm
  · split
    · next h => exact (Nat.compare_eq_lt.2 (digs_length_lt h)).symm
    · rfl

theorem cmp_nrm (a b : Int) : cmp (nrm a) (nrm b) = compare a b := by
  unfold cmp
  simp only [nrm]
  by_cases ha : a < 0 <;> by_cases hb : b < 0 <;> simp only [ha, hb, decide_true, decide_false, cmpAbs_digs]
  · rcases lt_trichotomy a b with h | h | h
    · rw [compare_lt_iff_lt.2 h]; exact Nat.compare_eq_lt.2 (by omega)
    · subst h; simp
    · rw [compare_gt_iff_gt.2 h]; exact Nat.compare_eq_gt.2 (by omega)
  · exact (compare_lt_iff_lt.2 (by omega)).symm
  · exact (compare_gt_iff_gt.2 (by omega)).symm
  · rcases lt_trichotomy a b with h | h | h
    · rw [compare_lt_iff_lt.2 h]; exact Nat.compare_eq_lt.2 (by omega)
    · subst h; simp
    · rw [compare_gt_iff_gt.2 h]; exact Nat.compare_eq_gt.2 (by omega)

theorem cmp_eq_val {a b : Bn} (h : cmp a b = .eq) : a.val = b.val := by
  have hA : ∀ x y : Bn, cmpAbs x y = .eq → mag x.dp = mag y.dp := by
    intro x y h
    unfold cmpAbs at h
    split at h
    · cases h
    · split at h
      · cases h
      · exact Nat.compare_eq_eq.1 h
  unfold cmp at h
  unfold Bn.val
  cases ha : a.neg <;> cases hb : b.neg <;> rw [ha, hb] at h <;> simp only at h
  · simp [hA _ _ h]
  · cases h
  · cases h
  · simp [hA _ _ h]

/-! ## Stored numbers have no leading zero digits -/

/-- No leading zero digits. -/
def Trim (b : Bn) : Prop := b = nrm b.val

theorem trim_nrm (n : Int) : Trim (nrm n) := by unfold Trim; rw [val_nrm]

theorem trim_bnNeg {b : Bn} (h : Trim b) : Trim (bnNeg b) := by
  rw [h, bnNeg_nrm]; exact trim_nrm _

theorem val_bnNeg {b : Bn} (h : Trim b) : (bnNeg b).val = -b.val := by
  conv_lhs => rw [h, bnNeg_nrm, val_nrm]

theorem isZero_trim {b : Bn} (h : Trim b) : isZero b = decide (b.val = 0) := by
  conv_lhs => rw [h, isZero_nrm]

theorem trim_neg_iff {b : Bn} (h : Trim b) : b.neg = decide (b.val < 0) := by
  conv_lhs => rw [h, neg_nrm]

variable (P : Prims)

theorem val_order : (order P).val = P.r := val_nrm _

theorem zrInt_ok {x : Int} (h : isInt (-x)) : zrInt x = .ok (nrm x) := by
  unfold zrInt
  by_cases h0 : x < 0
  · simp only [h0, if_true, h, bnNeg_nrm]; rw [neg_neg]
  · simp only [h0, if_false]

theorem zrInt_trim {x : Int} {b : Bn} (h : zrInt x = .ok b) : Trim b := by
  unfold zrInt at h
  split at h
  · split at h
    · cases h; exact trim_bnNeg (trim_nrm _)
    · cases h
  · cases h; exact trim_nrm _

theorem isInt_neg {x : Int} (h : isInt x) (h0 : 0 ≤ x) : isInt (-x) := by
  unfold isInt at *; omega

/-! ## The text of a number -/

theorem readDec_eq (acc : Nat) (s : Bytes) : readDec acc s
    = (s.takeWhile fun c => decide (48 ≤ c.toNat ∧ c.toNat ≤ 57)).foldl (fun a c => a * 10 + (c.toNat - 48)) acc := by
  induction s generalizing acc with
  | nil => rfl
  | cons c s ih =>
    unfold readDec
    by_cases h : 48 ≤ c.toNat ∧ c.toNat ≤ 57
    · rw [if_pos h, ih, List.takeWhile_cons_of_pos (by simpa using h)]; rfl
    · rw [if_neg h, List.takeWhile_cons_of_neg (by simpa using h)]; rfl

theorem zrText_eq (s : Bytes) : zrText s = nrm (textVal s) := by
  unfold zrText textVal
  split
  · simp [readDec_eq]
  · next h =>
    have : s.head? ≠ some 45 := by
      cases s with
      | nil => simp
      | cons c t => intro hc; simp at hc; exact h t (by rw [hc])
    rw [if_neg this, readDec_eq]

/-! ## Each operator on stored numbers -/

section Ops

variable {P} (hP : P.Ok)
include hP

theorem r_pos : (0 : Int) < P.r := by have := hP.prime.pos; omega

theorem mod_residue (x : Int) : ((P.mod x : Int) : ZMod P.r) = (x : ZMod P.r) := by
  rw [ZMod.intCast_eq_intCast_iff]
  unfold Int.ModEq
  rcases lt_or_ge x 0 with h | h
  · exact hP.mod_neg x h
  · rw [hP.mod_pos x h, Int.emod_emod_of_dvd _ (dvd_refl _)]

omit hP in
theorem r_cast : ((P.r : Int) : ZMod P.r) = 0 := by simp

theorem cast_add (x y : Bn) : ((add P x y).val : ZMod P.r) = (x.val : ZMod P.r) + (y.val : ZMod P.r) := by
  unfold add; rw [val_nrm, mod_residue hP, val_nrm]; push_cast; rfl

theorem cast_sub (x y : Bn) : ((sub P x y).val : ZMod P.r) = (x.val : ZMod P.r) - (y.val : ZMod P.r) := by
  unfold sub
  simp only [neg_nrm, val_nrm]
  split
  · rw [val_nrm, val_order]; push_cast; simp
  · rw [val_nrm, mod_residue hP]; push_cast; rfl

omit hP in
theorem cast_neg {x : Bn} (h : Trim x) : ((neg P x).val : ZMod P.r) = -(x.val : ZMod P.r) := by
  unfold neg
  simp only
  split
  · rw [val_nrm, val_order, val_bnNeg h]; push_cast; simp
  · rw [val_bnNeg h]; push_cast; rfl

theorem cast_mul (x y : Bn) : ((mul P x y).val : ZMod P.r) = (x.val : ZMod P.r) * (y.val : ZMod P.r) := by
  unfold mul
  simp only [neg_nrm, val_nrm]
  split
  · rw [val_nrm, val_order]; push_cast; simp
  · rw [val_nrm, mod_residue hP]; push_cast; rfl

theorem cast_shl (x : Bn) (n : Nat) : ((shl P x n).val : ZMod P.r) = 2 ^ n * (x.val : ZMod P.r) := by
  unfold shl
  simp only
  split
  · rw [val_nrm, mod_residue hP, val_nrm]; push_cast; ring
  · rw [val_nrm]; push_cast; ring

theorem cast_hash (m : Bytes) : ((hashToZR P m).val : ZMod P.r) = (beNat (P.sha (0x01 :: m)) : ZMod P.r) := by
  unfold hashToZR inputZR
  simp only
  split
  · rw [val_nrm, mod_residue hP, val_nrm]; push_cast; rfl
  · rw [val_nrm]; push_cast; rfl

/-- A number below the order is the representative of its class. -/
theorem stored_iff {b : Bn} {x : ZMod P.r} : Stored P b x ↔ (0 ≤ b.val ∧ b.val < P.r ∧ Trim b ∧ (b.val : ZMod P.r) = x) := by
  have : NeZero P.r := ⟨hP.prime.ne_zero⟩
  unfold Stored
  constructor
  · rintro ⟨h1, h2⟩
    have := ZMod.val_lt x
    refine ⟨by omega, by omega, h2, ?_⟩
    rw [h1]; simp
  · rintro ⟨h1, h2, h3, h4⟩
    refine ⟨?_, h3⟩
    rw [← h4]
    rw [ZMod.val_intCast, Int.emod_eq_of_lt h1 h2]

theorem range_add {x y : Bn} (hx : 0 ≤ x.val) (hy : 0 ≤ y.val) : 0 ≤ (add P x y).val ∧ (add P x y).val < P.r := by
  have hr := r_pos hP
  unfold add
  rw [val_nrm, val_nrm, hP.mod_pos _ (by omega)]
  exact ⟨Int.emod_nonneg _ (by omega), Int.emod_lt_of_pos _ hr⟩

theorem range_sub {x y : Bn} (hx : 0 ≤ x.val ∧ x.val < P.r) (hy : 0 ≤ y.val ∧ y.val < P.r) : 0 ≤ (sub P x y).val ∧ (sub P x y).val < P.r := by
  have hr := r_pos hP
  unfold sub
  simp only [neg_nrm, val_nrm, decide_eq_true_eq]
  split
  · rw [val_nrm, val_order]; omega
  · rw [val_nrm, hP.mod_pos _ (by omega)]
    exact ⟨Int.emod_nonneg _ (by omega), Int.emod_lt_of_pos _ hr⟩

omit hP in
theorem range_neg {x : Bn} (ht : Trim x) (hx : 0 ≤ x.val ∧ x.val < P.r) : 0 ≤ (neg P x).val ∧ (neg P x).val < P.r := by
  unfold neg
  simp only [trim_neg_iff (trim_bnNeg ht), val_bnNeg ht, decide_eq_true_eq]
  split
  · rw [val_nrm, val_order]; omega
  · rw [val_bnNeg ht]; omega

theorem range_mul {x y : Bn} (hx : 0 ≤ x.val) (hy : 0 ≤ y.val) : 0 ≤ (mul P x y).val ∧ (mul P x y).val < P.r := by
  have hr := r_pos hP
  have h := mul_nonneg hx hy
  unfold mul
  simp only [neg_nrm, val_nrm, decide_eq_true_eq]
  rw [if_neg (by omega), val_nrm, hP.mod_pos _ h]
  exact ⟨Int.emod_nonneg _ (by omega), Int.emod_lt_of_pos _ hr⟩

theorem range_inv {x : Bn} (h0 : 0 < x.val) (h1 : x.val < P.r) : 0 ≤ (invertZR P x).val ∧ (invertZR P x).val < P.r := by
  have := hP.cofactor_abs _ h0 h1
  unfold invertZR
  simp only [neg_nrm, val_nrm, decide_eq_true_eq]
  split
  · rw [val_nrm, val_order]; omega
  · rw [val_nrm]; omega

theorem cast_inv {x : Bn} (h0 : 0 < x.val) (h1 : x.val < P.r) : ((invertZR P x).val : ZMod P.r) = (x.val : ZMod P.r)⁻¹ := by
  have : Fact P.r.Prime := ⟨hP.prime⟩
  have h2 : ((P.cofactor x.val : Int) : ZMod P.r) * (x.val : ZMod P.r) = 1 := by
    have h := hP.cofactor_inv _ h0 h1
    rw [← Int.cast_mul, ← Int.cast_one, ZMod.intCast_eq_intCast_iff]
    unfold Int.ModEq
    rw [h, Int.emod_eq_of_lt (by omega) (by have := hP.prime.one_lt; omega)]
  have h3 : ((invertZR P x).val : ZMod P.r) = ((P.cofactor x.val : Int) : ZMod P.r) := by
    unfold invertZR
    simp only
    split
    · rw [val_nrm, val_order, val_nrm]; push_cast; simp
    · rw [val_nrm]
  rw [h3]
  exact eq_inv_of_mul_eq_one_left h2

theorem range_shl {x : Bn} (hx : 0 ≤ x.val ∧ x.val < P.r) (n : Nat) : 0 ≤ (shl P x n).val ∧ (shl P x n).val < P.r := by
  have hr := r_pos hP
  have h2 : (0 : Int) < 2 ^ n := by positivity
  have h3 : 0 ≤ x.val * 2 ^ n := mul_nonneg hx.1 (le_of_lt h2)
  unfold shl order
  simp only [cmp_nrm]
  split
  · rw [val_nrm, val_nrm, hP.mod_pos _ h3]
    exact ⟨Int.emod_nonneg _ (by omega), Int.emod_lt_of_pos _ hr⟩
  · next h =>
    have h4 : ¬ ((P.r : Int) < x.val * 2 ^ n) := fun hc => h (compare_gt_iff_gt.2 hc)
    rw [val_nrm]
    refine ⟨h3, ?_⟩
    rcases lt_or_eq_of_le (not_lt.1 h4) with h5 | h5
    · exact h5
    · exfalso
      cases n with
      | zero => simp at h5; omega
      | succ n =>
        have h6 : (2 : Int) ∣ P.r := by rw [← h5, pow_succ]; exact ⟨x.val * 2 ^ n, by ring⟩
        have h7 : 2 ∣ P.r := by exact_mod_cast h6
        have h8 := (Nat.prime_dvd_prime_iff_eq Nat.prime_two hP.prime).1 h7
        have := hP.low
        rw [← h8] at this
        norm_num at this

omit hP in
theorem val_shr {x : Bn} (ht : Trim x) (h0 : 0 ≤ x.val) (n : Nat) : (shr x n).val = (x.val.toNat / 2 ^ n : Nat) := by
  have hn : x.neg = false := by rw [trim_neg_iff ht]; simp; omega
  have hm : (mag x.dp : Int) = x.val := by unfold Bn.val; simp [hn]
  unfold shr
  rw [hn]
  simp only [Bool.false_eq_true, if_false, val_nrm]
  have : mag x.dp = x.val.toNat := by omega
  rw [this]

theorem range_hash {m : Bytes} (h : beNat (P.sha (0x01 :: m)) ≠ P.r) : 0 ≤ (hashToZR P m).val ∧ (hashToZR P m).val < P.r := by
  have hr := r_pos hP
  unfold hashToZR inputZR order
  simp only [cmp_nrm]
  split
  · rw [val_nrm, val_nrm, hP.mod_pos _ (by omega)]
    exact ⟨Int.emod_nonneg _ (by omega), Int.emod_lt_of_pos _ hr⟩
  · next h1 =>
    have h4 : ¬ ((P.r : Int) < beNat (P.sha (0x01 :: m))) := fun hc => h1 (compare_gt_iff_gt.2 hc)
    rw [val_nrm]; omega

end Ops

/-! ## No operator leaves leading zero digits -/

theorem trim_add (x y : Bn) : Trim (add P x y) := trim_nrm _

theorem trim_sub (x y : Bn) : Trim (sub P x y) := by
  unfold sub; simp only; split <;> exact trim_nrm _

theorem trim_neg {x : Bn} (h : Trim x) : Trim (neg P x) := by
  unfold neg; simp only; split
  · exact trim_nrm _
  · exact trim_bnNeg h

theorem trim_mul (x y : Bn) : Trim (mul P x y) := by
  unfold mul; simp only; split <;> exact trim_nrm _

theorem trim_invertZR (x : Bn) : Trim (invertZR P x) := by
  unfold invertZR; simp only; split <;> exact trim_nrm _

theorem trim_shl (x : Bn) (n : Nat) : Trim (shl P x n) := by
  unfold shl; simp only; split <;> exact trim_nrm _

theorem trim_shr (x : Bn) (n : Nat) : Trim (shr x n) := by
  unfold shr; simp only; split
  · exact trim_bnNeg (trim_nrm _)
  · exact trim_nrm _

theorem trim_hash (m : Bytes) : Trim (hashToZR P m) := by
  unfold hashToZR; simp only; split <;> exact trim_nrm _

end Verif.Relic
