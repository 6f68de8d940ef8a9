import Verif.Aez.Exchange
import Mathlib.Dynamics.PeriodicPts.Defs
import Mathlib.NumberTheory.LucasPrimality
import Mathlib.Tactic.NormNum.Prime
import Mathlib.Data.Fintype.Card
import Mathlib.Data.Fintype.EquivFin

/-!
# Every block is a power of two

In GF(2^128) with x^128 + x^7 + x^2 + x + 1 the powers of `x` are all elements but 0.
-/

namespace Verif.AezWide

open Verif

/-! ## Powers, quickly -/

/-- The product of `a` and a polynomial of `n` bits. -/
def lin : Nat → Nat → Nat → Nat
  | 0, _, _ => 0
  | n + 1, a, b => (if b % 2 = 1 then a else 0) ^^^ lin n (AezSpec.double a) (b / 2)

/-- The power `e` < 2^n of `x`. -/
def pw : Nat → Nat → Nat
  | 0, _ => 1
  | n + 1, e =>
    let h := pw n (e / 2)
    if e % 2 = 1 then AezSpec.double (lin 128 h h) else lin 128 h h

theorem pow_induction {P : Nat → Prop} (h0 : P 0) (hp : ∀ e < 128, P (2 ^ e))
    (hx : ∀ v < 2 ^ 128, ∀ w < 2 ^ 128, P v → P w → P (v ^^^ w)) : ∀ v < 2 ^ 128, P v := by
  have h : ∀ n ≤ 128, ∀ v < 2 ^ n, P v := by
    intro n
    induction n with
    | zero =>
      intro _ v hv
      rw [show v = 0 by omega]
      exact h0
    | succ n ih =>
      intro hn v hv
      by_cases h : v < 2 ^ n
      · exact ih (by omega) v h
      · have hlt : 2 ^ n < 2 ^ 128 := Nat.pow_lt_pow_right (by decide) (by omega)
        have hw : v - 2 ^ n < 2 ^ n := by rw [Nat.pow_succ] at hv; omega
        rw [split_top (by omega) hw]
        exact hx _ hlt _ (lt_trans hw hlt) (hp n (by omega)) (ih (by omega) _ hw)
  exact h 128 le_rfl

theorem lin_zero : ∀ n a, lin n a 0 = 0
  | 0, _ => rfl
  | n + 1, a => by
    unfold lin
    rw [if_neg (by norm_num), Nat.zero_xor]
    exact lin_zero n _

theorem lin_xor : ∀ n a b c, lin n a (b ^^^ c) = lin n a b ^^^ lin n a c
  | 0, _, _, _ => by
    unfold lin
    exact (Nat.xor_self 0).symm
  | n + 1, a, b, c => by
    unfold lin
    have hm := Nat.xor_mod_two_eq_one (a := b) (b := c)
    rw [Nat.xor_div_two, lin_xor n]
    generalize lin n (AezSpec.double a) (b / 2) = B
    generalize lin n (AezSpec.double a) (c / 2) = C
    by_cases hb : b % 2 = 1 <;> by_cases hc : c % 2 = 1
    · rw [if_neg (by tauto), if_pos hb, if_pos hc, Nat.zero_xor, Nat.xor_assoc, xor_left B a, ← Nat.xor_assoc a a, Nat.xor_self, Nat.zero_xor]
    · rw [if_pos (by tauto), if_pos hb, if_neg hc, Nat.zero_xor, Nat.xor_assoc]
    · rw [if_pos (by tauto), if_neg hb, if_pos hc, Nat.zero_xor, xor_left B]
    · rw [if_neg (by tauto), if_neg hb, if_neg hc, Nat.zero_xor, Nat.zero_xor, Nat.zero_xor]

theorem lin_pow : ∀ n a e, e < n → lin n a (2 ^ e) = AezSpec.shift e a
  | 0, _, _, h => by omega
  | n + 1, a, 0, _ => by
    unfold lin
    rw [pow_zero, if_pos (by norm_num), show 1 / 2 = 0 from rfl, lin_zero, Nat.xor_zero]
    rfl
  | n + 1, a, e + 1, h => by
    unfold lin
    rw [if_neg (by rw [pow_succ]; omega), Nat.zero_xor, pow_succ, Nat.mul_div_cancel _ (by norm_num), lin_pow n _ e (by omega)]
    exact (shift_add e 1 a).symm

theorem shift_double (e v : Nat) : AezSpec.shift e (AezSpec.double v) = AezSpec.double (AezSpec.shift e v) := by
  have h1 := shift_add e 1 v
  have h2 := shift_add 1 e v
  rw [Nat.add_comm] at h2
  exact h1.symm.trans h2

theorem lin_lt {a : Nat} (ha : a < 2 ^ 128) : ∀ n b, lin n a b < 2 ^ 128 := by
  intro n
  induction n generalizing a with
  | zero => intro b; exact Nat.two_pow_pos 128
  | succ n ih =>
    intro b
    unfold lin
    refine Nat.xor_lt_two_pow ?_ (ih (double_lt ha) _)
    split
    · exact ha
    · exact Nat.two_pow_pos 128

theorem lin_double {a : Nat} (ha : a < 2 ^ 128) : ∀ b < 2 ^ 128, lin 128 a (AezSpec.double b) = AezSpec.double (lin 128 a b) := by
  refine pow_induction ?_ ?_ ?_
  · rw [show AezSpec.double 0 = 0 from rfl, lin_zero]
    rfl
  · intro e he
    rw [lin_pow 128 a e he]
    by_cases h : e < 127
    · have : AezSpec.double (2 ^ e) = 2 ^ (e + 1) := by
        unfold AezSpec.double
        rw [if_pos (Nat.pow_lt_pow_right (by decide) h), pow_succ]
        ring
      rw [this, lin_pow 128 a (e + 1) (by omega)]
      rfl
    · have e127 : e = 127 := by omega
      have h87 : AezSpec.double (2 ^ e) = 2 ^ 7 ^^^ 2 ^ 2 ^^^ 2 ^ 1 ^^^ 2 ^ 0 := by
        rw [e127]
        decide +kernel
      have hs := shift_128 a ha
      rw [h87, lin_xor, lin_xor, lin_xor, lin_pow 128 a 7 (by norm_num), lin_pow 128 a 2 (by norm_num), lin_pow 128 a 1 (by norm_num),
        lin_pow 128 a 0 (by norm_num), e127]
      exact hs.symm
  · intro v hv w hw iv iw
    rw [double_xor hv hw, lin_xor, lin_xor, iv, iw, double_xor (lin_lt ha _ _) (lin_lt ha _ _)]

theorem lin_shift {a : Nat} (ha : a < 2 ^ 128) : ∀ e, lin 128 a (AezSpec.shift e 1) = AezSpec.shift e a
  | 0 => lin_pow 128 a 0 (by norm_num)
  | e + 1 => by
    show lin 128 a (AezSpec.double _) = AezSpec.double _
    rw [lin_double ha _ (shift_lt (by norm_num) e), lin_shift ha e]

theorem pw_eq : ∀ n e, e < 2 ^ n → pw n e = AezSpec.shift e 1
  | 0, e, h => by
    rw [show e = 0 by omega]
    rfl
  | n + 1, e, h => by
    unfold pw
    rw [pw_eq n (e / 2) (by rw [pow_succ] at h; omega)]
    dsimp only
    rw [lin_shift (shift_lt (by norm_num) _), ← shift_add]
    split
    · next h1 =>
      show AezSpec.shift (e / 2 + e / 2 + 1) 1 = _
      rw [show e / 2 + e / 2 + 1 = e by omega]
    · next h1 => rw [show e / 2 + e / 2 = e by omega]

/-! ## The order of `x` -/

/-- `b ^ e` modulo `m`, for `e` < 2^n. -/
def powMod (m b : Nat) : Nat → Nat → Nat
  | 0, _ => 1 % m
  | n + 1, e =>
    let h := powMod m b n (e / 2)
    if e % 2 = 1 then h * h * b % m else h * h % m

theorem powMod_eq (m b : Nat) : ∀ n e, e < 2 ^ n → powMod m b n e = b ^ e % m
  | 0, e, h => by
    rw [show e = 0 by omega]
    rfl
  | n + 1, e, h => by
    unfold powMod
    rw [powMod_eq m b n (e / 2) (by rw [pow_succ] at h; omega)]
    dsimp only
    split
    · next h1 =>
      conv_rhs => rw [show e = e / 2 + e / 2 + 1 by omega, pow_succ, pow_add]
      rw [Nat.mul_mod, ← Nat.mul_mod (b ^ (e / 2)), ← Nat.mul_mod]
    · next h1 =>
      conv_rhs => rw [show e = e / 2 + e / 2 by omega, pow_add]
      rw [← Nat.mul_mod]

theorem zmod_pow {m b e n : Nat} (he : e < 2 ^ n) (c : Nat) : powMod m b n e = c % m ↔ (b : ZMod m) ^ e = (c : ZMod m) := by
  rw [powMod_eq m b n e he, ← Nat.cast_pow, ZMod.natCast_eq_natCast_iff']

theorem prime_last : Nat.Prime 67280421310721 := by
  have hf : ∀ q : Nat, q.Prime → q ∣ 67280421310720 → q = 2 ∨ q = 5 ∨ q = 47 ∨ q = 373 ∨ q = 2998279 := by
    intro q hq hd
    rw [show 67280421310720 = 2 ^ 8 * 5 * 47 * 373 * 2998279 by norm_num] at hd
    rcases (Nat.Prime.dvd_mul hq).1 hd with hd | hd
    · rcases (Nat.Prime.dvd_mul hq).1 hd with hd | hd
      · rcases (Nat.Prime.dvd_mul hq).1 hd with hd | hd
        · rcases (Nat.Prime.dvd_mul hq).1 hd with hd | hd
          · exact Or.inl ((Nat.prime_dvd_prime_iff_eq hq Nat.prime_two).1 (hq.dvd_of_dvd_pow hd))
          · exact Or.inr (Or.inl ((Nat.prime_dvd_prime_iff_eq hq (by norm_num)).1 hd))
        · exact Or.inr (Or.inr (Or.inl ((Nat.prime_dvd_prime_iff_eq hq (by norm_num)).1 hd)))
      · exact Or.inr (Or.inr (Or.inr (Or.inl ((Nat.prime_dvd_prime_iff_eq hq (by norm_num)).1 hd))))
    · exact Or.inr (Or.inr (Or.inr (Or.inr ((Nat.prime_dvd_prime_iff_eq hq (by norm_num)).1 hd))))
  refine lucas_primality 67280421310721 ((3 : Nat) : ZMod 67280421310721) ?_ ?_
  · rw [show 67280421310721 - 1 = 67280421310720 from rfl, ← Nat.cast_one, ← zmod_pow (n := 47) (by norm_num)]
    decide +kernel
  · intro q hq hd
    rw [show 67280421310721 - 1 = 67280421310720 from rfl] at hd ⊢
    rw [← Nat.cast_one, ne_eq, ← zmod_pow (n := 47) (lt_of_le_of_lt (Nat.div_le_self _ _) (by norm_num))]
    rcases hf q hq hd with rfl | rfl | rfl | rfl | rfl
    · decide +kernel
    · decide +kernel
    · decide +kernel
    · decide +kernel
    · decide +kernel

/-- The prime divisors of 2^128 - 1. -/
def factors : List Nat := [3, 5, 17, 257, 641, 65537, 274177, 6700417, 67280421310721]

theorem factors_prime : ∀ p ∈ factors, p.Prime := by
  unfold factors
  simp only [List.mem_cons, List.not_mem_nil, or_false]
  rintro p (rfl | rfl | rfl | rfl | rfl | rfl | rfl | rfl | rfl)
  · norm_num
  · norm_num
  · norm_num
  · norm_num
  · norm_num
  · norm_num
  · norm_num
  · norm_num
  · exact prime_last

theorem factors_prod : factors.prod = 2 ^ 128 - 1 := by decide +kernel

theorem pw_full : pw 128 (2 ^ 128 - 1) = 1 := by decide +kernel

theorem pw_part : ∀ p ∈ factors, pw 128 ((2 ^ 128 - 1) / p) ≠ 1 := by
  unfold factors
  simp only [List.mem_cons, List.not_mem_nil, or_false]
  rintro p (rfl | rfl | rfl | rfl | rfl | rfl | rfl | rfl | rfl)
  · decide +kernel
  · decide +kernel
  · decide +kernel
  · decide +kernel
  · decide +kernel
  · decide +kernel
  · decide +kernel
  · decide +kernel
  · decide +kernel

theorem shift_iterate (e v : Nat) : AezSpec.shift e v = AezSpec.double^[e] v := by
  induction e with
  | zero => rfl
  | succ e ih => rw [Function.iterate_succ_apply', ← ih]; rfl

theorem period : Function.minimalPeriod AezSpec.double 1 = 2 ^ 128 - 1 := by
  have hN : (0 : Nat) < 2 ^ 128 - 1 := by norm_num
  have hp : Function.IsPeriodicPt AezSpec.double (2 ^ 128 - 1) 1 := by
    show AezSpec.double^[2 ^ 128 - 1] 1 = 1
    rw [← shift_iterate, ← pw_eq 128 _ (by norm_num), pw_full]
  have hd := hp.minimalPeriod_dvd
  have hpart : ∀ p ∈ factors, ¬ Function.minimalPeriod AezSpec.double 1 ∣ (2 ^ 128 - 1) / p := by
    intro p hpm hdv
    have h : AezSpec.double^[(2 ^ 128 - 1) / p] 1 = 1 := Function.isPeriodicPt_iff_minimalPeriod_dvd.2 hdv
    rw [← shift_iterate, ← pw_eq 128 _ (lt_of_le_of_lt (Nat.div_le_self _ _) (by norm_num))] at h
    exact pw_part p hpm h
  have hprod := factors_prod
  generalize 2 ^ 128 - 1 = N at hN hd hpart hprod ⊢
  generalize Function.minimalPeriod AezSpec.double 1 = n at hd hpart ⊢
  by_contra hne
  obtain ⟨c, rfl⟩ := hd
  have hc : c ≠ 1 := by
    rintro rfl
    rw [Nat.mul_one] at hne
    exact hne rfl
  obtain ⟨p, hp1, hp2⟩ := Nat.exists_prime_and_dvd hc
  have hpf : p ∈ factors := by
    have : p ∣ factors.prod := by rw [hprod]; exact dvd_mul_of_dvd_right hp2 n
    obtain ⟨a, ha1, ha2⟩ := (Prime.dvd_prod_iff hp1.prime).1 this
    rw [(Nat.prime_dvd_prime_iff_eq hp1 (factors_prime a ha1)).1 ha2]
    exact ha1
  refine hpart p hpf ?_
  obtain ⟨d, rfl⟩ := hp2
  rw [show n * (p * d) = n * d * p by ring, Nat.mul_div_cancel _ hp1.pos]
  exact dvd_mul_right n d

theorem shift_full {v : Nat} (hv : v < 2 ^ 128) : AezSpec.shift (2 ^ 128 - 1) v = v := by
  rw [← lin_shift hv, ← pw_eq 128 _ (by norm_num), pw_full]
  exact lin_pow 128 v 0 (by norm_num)

theorem double_inj {v w : Nat} (hv : v < 2 ^ 128) (hw : w < 2 ^ 128) (h : AezSpec.double v = AezSpec.double w) : v = w := by
  have h1 := shift_full hv
  have h2 := shift_full hw
  have hN : (2 : Nat) ^ 128 - 1 = (2 ^ 128 - 2) + 1 := by norm_num
  rw [hN] at h1 h2
  generalize 2 ^ 128 - 2 = N at h1 h2
  rw [shift_add N 1] at h1 h2
  rw [← h1, ← h2]
  exact congrArg (AezSpec.shift N) h

theorem shift_inj (e : Nat) {v w : Nat} (hv : v < 2 ^ 128) (hw : w < 2 ^ 128) (h : AezSpec.shift e v = AezSpec.shift e w) : v = w := by
  induction e with
  | zero => exact h
  | succ e ih => exact ih (double_inj (shift_lt hv e) (shift_lt hw e) h)

/-- Every block but 0 is a power of `x`. -/
theorem exists_shift {v : Nat} (h0 : v ≠ 0) (hv : v < 2 ^ 128) : ∃ e, AezSpec.shift e 1 = v := by
  have hper := period
  have hinj := Function.iterate_injOn_Iio_minimalPeriod (f := AezSpec.double) (x := 1)
  rw [hper] at hinj
  have hsub : (Finset.range (2 ^ 128 - 1)).image (fun e => AezSpec.shift e 1) ⊆ (Finset.range (2 ^ 128)).erase 0 := by
    intro x hx
    obtain ⟨e, he, rfl⟩ := Finset.mem_image.1 hx
    refine Finset.mem_erase.2 ⟨?_, Finset.mem_range.2 (shift_lt (by norm_num) e)⟩
    intro hz
    have : AezSpec.shift e 0 = 0 := by
      clear hx hz he
      induction e with
      | zero => rfl
      | succ e ih =>
        show AezSpec.double (AezSpec.shift e 0) = 0
        rw [ih]
        rfl
    exact absurd (shift_inj e (by norm_num) (by norm_num) (hz.trans this.symm)) (by norm_num)
  have hcard : ((Finset.range (2 ^ 128)).erase 0).card ≤ ((Finset.range (2 ^ 128 - 1)).image (fun e => AezSpec.shift e 1)).card := by
    rw [Finset.card_erase_of_mem (Finset.mem_range.2 (Nat.two_pow_pos 128)), Finset.card_range, Finset.card_image_of_injOn, Finset.card_range]
    intro a ha b hb hab
    refine hinj (Finset.mem_range.1 ha) (Finset.mem_range.1 hb) ?_
    show AezSpec.double^[a] 1 = AezSpec.double^[b] 1
    rw [← shift_iterate, ← shift_iterate]
    exact hab
  have heq := Finset.eq_of_subset_of_card_le hsub hcard
  have hm : v ∈ (Finset.range (2 ^ 128)).erase 0 := Finset.mem_erase.2 ⟨h0, Finset.mem_range.2 hv⟩
  rw [← heq] at hm
  obtain ⟨e, _, he⟩ := Finset.mem_image.1 hm
  exact ⟨e, he⟩

end Verif.AezWide
