import Verif.Bignum.Ints
import Verif.Tdp.Model
import Mathlib.Data.Nat.Bitwise

/-!
# Bits and bytes: bit length, shifts, reading and writing
-/

namespace Verif.Bignum

open Verif
open Verif.Tdp (bitlen mpiSize)

/-! ## Bit length -/

theorem bitlen_le_iff (n k : Nat) : bitlen n ≤ k ↔ n < 2 ^ k := by
  unfold bitlen
  by_cases h : n = 0
  · subst h; simp
  · rw [if_neg h, ← Nat.log2_lt h]; omega

theorem bitlen_mul_add {i t a : Nat} (ha : a < W64 ^ i) (ht : t ≠ 0) : bitlen (a + W64 ^ i * t) = i * 64 + bitlen t := by
  have hW : W64 ^ i = 2 ^ (i * 64) := by rw [show (W64 : Nat) = 2 ^ 64 by norm_num, ← pow_mul, Nat.mul_comm]
  have key : ∀ k, bitlen (a + W64 ^ i * t) ≤ i * 64 + k ↔ bitlen t ≤ k := by
    intro k
    rw [bitlen_le_iff, bitlen_le_iff, pow_add, ← hW]
    constructor
    · intro h
      have : W64 ^ i * t < W64 ^ i * 2 ^ k := by omega
      exact Nat.lt_of_mul_lt_mul_left this
    · intro h
      have : W64 ^ i * (t + 1) ≤ W64 ^ i * 2 ^ k := Nat.mul_le_mul_left _ h
      rw [Nat.mul_add] at this
      omega
  apply le_antisymm
  · exact (key _).2 (le_refl _)
  · have h1 : ¬ bitlen (a + W64 ^ i * t) ≤ i * 64 := by
      have := (key 0).not
      rw [Nat.add_zero] at this
      rw [this, bitlen_le_iff]; omega
    have h2 := (key (bitlen (a + W64 ^ i * t) - i * 64)).1 (by omega)
    omega

theorem and_one_shl (x k : Nat) : (x &&& (1 <<< k) != 0) = x.testBit k := by
  rw [Nat.one_shiftLeft, Nat.and_two_pow]
  cases x.testBit k <;> simp

theorem shr_and_one (x k : Nat) : ((x >>> k) &&& 1 != 0) = x.testBit k := by
  simp [Nat.testBit, Nat.and_comm]

theorem clz_spec {x : Nat} (h : x < W64) : 64 - clz x = bitlen x := by
  unfold clz
  by_cases h0 : x = 0
  · subst h0
    rw [List.find?_eq_none.2 (by simp)]; rfl
  · have hl : x.log2 < 64 := (Nat.log2_lt h0).2 (by simpa using h)
    have : (List.range 64).find? (fun j => x &&& (1 <<< (63 - j)) != 0) = some (63 - x.log2) := by
      rw [List.find?_range_eq_some]
      refine ⟨?_, by simp; omega, ?_⟩
      · rw [and_one_shl, show 63 - (63 - x.log2) = x.log2 by omega]
        exact Nat.testBit_log2 h0
      · intro j hj
        rw [and_one_shl]
        have : x < 2 ^ (63 - j) := by
          rw [← Nat.log2_lt h0]; omega
        rw [Nat.testBit_lt_two_pow this]; rfl
    rw [this]
    unfold bitlen
    rw [if_neg h0]
    simp only [Option.getD_some]; omega

/-- `mbedtls_mpi_bitlen` is the bit length. -/
theorem bitlenL_spec {X : Mpi} (hX : X.WF) : bitlenL X = bitlen X.mag := by
  unfold bitlenL Mpi.mag
  by_cases h : X.p.length = 0
  · rw [if_pos h]
    have : X.p = [] := List.length_eq_zero_iff.1 h
    rw [this]; rfl
  · rw [if_neg h]
    simp only
    rw [clz_spec (hX.ok.getD _)]
    by_cases hs : sig X.p = 0
    · have hv := (sig_zero_iff _).1 hs
      rw [hs, hv]
      have : X.p.getD 0 0 = 0 := by
        cases hp : X.p with
        | nil => rfl
        | cons x r =>
          rw [hp, val] at hv
          simp only [List.getD_cons_zero]; omega
      simp only [Nat.max_eq_right (Nat.zero_le 1), Nat.sub_self, this]
      rfl
    · have hm : max (sig X.p) 1 - 1 = sig X.p - 1 := by omega
      have hl := sig_le X.p
      rw [hm]
      have e : val X.p = val (X.p.take (sig X.p - 1)) + W64 ^ (sig X.p - 1) * X.p.getD (sig X.p - 1) 0 := by
        rw [← val_take_succ (by omega), show sig X.p - 1 + 1 = sig X.p by omega, val_take_sig]
      rw [e, bitlen_mul_add _ (sig_top _ hs)]
      have := val_lt (hX.ok.take (sig X.p - 1))
      rwa [List.length_take, Nat.min_eq_left (by omega)] at this

theorem size_spec {X : Mpi} (hX : X.WF) : size X = mpiSize X.mag := by
  unfold size mpiSize
  rw [bitlenL_spec hX, Nat.shiftRight_eq_div_pow]

/-! ## Single bits -/

theorem val_div (p : List Nat) (hp : LOk p) (k : Nat) : val p / W64 ^ k = val (p.drop k) := by
  by_cases h : k ≤ p.length
  · rw [val_take_drop p k h]
    have := val_lt (hp.take k)
    rw [List.length_take, Nat.min_eq_left h] at this
    rw [Nat.add_mul_div_left _ _ (Nat.pow_pos (by decide)), Nat.div_eq_of_lt this, Nat.zero_add]
  · rw [List.drop_of_length_le (by omega)]
    have h1 := val_lt hp
    have h2 : W64 ^ p.length ≤ W64 ^ k := Nat.pow_le_pow_right (by decide) (by omega)
    rw [Nat.div_eq_of_lt (by omega)]; rfl

theorem val_take (p : List Nat) (hp : LOk p) (k : Nat) : val (p.take k) = val p % W64 ^ k := by
  by_cases h : k ≤ p.length
  · rw [val_take_drop p k h]
    have := val_lt (hp.take k)
    rw [List.length_take, Nat.min_eq_left h] at this
    rw [Nat.add_mul_mod_self_left, Nat.mod_eq_of_lt this]
  · rw [List.take_of_length_le (by omega)]
    have h1 := val_lt hp
    have h2 : W64 ^ p.length ≤ W64 ^ k := Nat.pow_le_pow_right (by decide) (by omega)
    rw [Nat.mod_eq_of_lt (by omega)]

/-- A limb is a digit of the value. -/
theorem limb_eq {p : List Nat} (hp : LOk p) (k : Nat) : p.getD k 0 = val p / W64 ^ k % W64 := by
  rw [val_div p hp]
  by_cases h : k < p.length
  · rw [List.drop_eq_getElem_cons h, val, List.getD_eq_getElem?_getD, List.getElem?_eq_getElem h]
    have := hp _ (List.getElem_mem h)
    simp only [Option.getD_some]
    omega
  · rw [List.drop_of_length_le (by omega), List.getD_eq_getElem?_getD, List.getElem?_eq_none (by omega)]; rfl

theorem W64_pow (k : Nat) : W64 ^ k = 2 ^ (64 * k) := by
  rw [show (W64 : Nat) = 2 ^ 64 by norm_num, ← pow_mul]

/-- The bits of the limbs are those of the value. -/
theorem testBit_limb {p : List Nat} (hp : LOk p) (k i : Nat) (hi : i < 64) : (p.getD k 0).testBit i = (val p).testBit (64 * k + i) := by
  rw [limb_eq hp, W64_pow, show (W64 : Nat) = 2 ^ 64 by norm_num, Nat.testBit_mod_two_pow, ← Nat.shiftRight_eq_div_pow, Nat.testBit_shiftRight]
  simp [hi]

theorem getBit_spec {X : Mpi} (hX : X.WF) (pos : Nat) : getBit X pos = X.mag / 2 ^ pos % 2 := by
  have h1 : getBit X pos = (X.p.getD (pos / 64) 0 >>> (pos % 64)) &&& 1 := by
    unfold getBit
    rw [List.getD_eq_getElem?_getD]
    cases X.p[pos / 64]? <;> simp
  have h2 := testBit_limb hX.ok (pos / 64) (pos % 64) (Nat.mod_lt _ (by decide))
  rw [show 64 * (pos / 64) + pos % 64 = pos by omega] at h2
  rw [h1, Nat.and_one_is_mod, Nat.shiftRight_eq_div_pow]
  have h3 := Nat.testBit_eq_decide_div_mod_eq (x := X.p.getD (pos / 64) 0) (i := pos % 64)
  have h4 := Nat.testBit_eq_decide_div_mod_eq (x := X.mag) (i := pos)
  have h5 : X.mag = val X.p := rfl
  rw [h5] at h4 ⊢
  rw [h3, h4] at h2
  have := decide_eq_decide.1 h2
  omega

theorem two_pow_dvd_of_testBit {x j : Nat} (h : ∀ i < j, x.testBit i = false) : x % 2 ^ j = 0 := by
  apply Nat.eq_of_testBit_eq
  intro i
  rw [Nat.testBit_mod_two_pow, Nat.zero_testBit]
  by_cases hi : i < j
  · simp [h i hi]
  · simp [hi]

/-- `mbedtls_mpi_lsb` is the number of factors 2. -/
theorem lsbLoop_spec {p : List Nat} (hp : LOk p) (h0 : val p ≠ 0) : ∀ c, ∃ k, lsbLoop p c = c + k ∧ ∃ m, val p = 2 ^ k * m ∧ m % 2 = 1 := by
  induction p with
  | nil => exact absurd rfl h0
  | cons x r ih =>
    intro c
    rw [lsbLoop]
    cases hf : (List.range 64).find? fun j => (x >>> j) &&& 1 != 0 with
    | some j =>
      rw [List.find?_range_eq_some] at hf
      obtain ⟨f1, f2, f3⟩ := hf
      rw [shr_and_one] at f1
      have hlow : x % 2 ^ j = 0 := two_pow_dvd_of_testBit (fun i hi => by
        have := f3 i hi
        rw [shr_and_one] at this
        simpa using this)
      have hj : j < 64 := by simpa using f2
      have hodd : x / 2 ^ j % 2 = 1 := by
        have := Nat.testBit_eq_decide_div_mod_eq (x := x) (i := j)
        rw [f1] at this
        simpa using this.symm
      refine ⟨j, rfl, x / 2 ^ j + 2 ^ (64 - j) * val r, ?_, ?_⟩
      · rw [val, Nat.mul_add, Nat.mul_div_cancel' (Nat.dvd_of_mod_eq_zero hlow), ← Nat.mul_assoc, ← pow_add, show j + (64 - j) = 64 by omega,
          show (2 : Nat) ^ 64 = W64 by norm_num]
      · rw [show 64 - j = (63 - j) + 1 by omega, pow_succ]
        have : 2 ^ (63 - j) * 2 * val r = 2 * (2 ^ (63 - j) * val r) := by ring
        omega
    | none =>
      simp only
      rw [List.find?_eq_none] at hf
      have hx : x = 0 := by
        have h := two_pow_dvd_of_testBit (x := x) (j := 64) (fun i hi => by
          have := hf i (by simpa using hi)
          rw [shr_and_one] at this
          simpa using this)
        have := hp.head
        omega
      subst hx
      rw [val, Nat.zero_add] at h0
      obtain ⟨k, k1, m, k2, k3⟩ := ih hp.tail (by intro h; rw [h] at h0; exact h0 rfl) (c + 64)
      refine ⟨64 + k, by rw [k1]; omega, m, ?_, k3⟩
      rw [val, k2, pow_add]; ring

theorem lsb_spec {X : Mpi} (hX : X.WF) (h : X.mag ≠ 0) : ∃ m, X.mag = 2 ^ lsb X * m ∧ m % 2 = 1 := by
  obtain ⟨k, k1, m, k2, k3⟩ := lsbLoop_spec hX.ok h 0
  rw [Nat.zero_add] at k1
  exact ⟨m, by unfold lsb; rw [k1]; exact k2, k3⟩

theorem lsbLoop_zero {p : List Nat} (hp : LOk p) (h0 : val p = 0) : ∀ c, lsbLoop p c = 0 := by
  induction p with
  | nil => intro c; rfl
  | cons x r ih =>
    intro c
    rw [val] at h0
    have hx : x = 0 := by omega
    subst hx
    rw [lsbLoop, List.find?_eq_none.2 (by simp)]
    exact ih hp.tail (by omega) _

theorem lsb_zero {X : Mpi} (hX : X.WF) (h : X.mag = 0) : lsb X = 0 := lsbLoop_zero hX.ok h 0

/-! ## Shifts -/

theorem shlLimbs_val {p : List Nat} (hp : LOk p) (v : Nat) :
    val (shlLimbs v p) = W64 ^ v * val p % W64 ^ p.length ∧ LOk (shlLimbs v p) ∧ (shlLimbs v p).length = p.length ∧
      val ((shlLimbs v p).take v) = 0 := by
  unfold shlLimbs
  refine ⟨?_, (LOk.zeros _).append (hp.take _), by simp; omega, ?_⟩
  · rw [val_append, val_zeros, List.length_replicate, Nat.zero_add, val_take _ hp]
    by_cases h : v ≤ p.length
    · rw [Nat.min_eq_left h]
      conv_rhs => rw [show p.length = v + (p.length - v) by omega, pow_add, Nat.mul_mod_mul_left]
    · rw [show p.length - v = 0 by omega, pow_zero, Nat.mod_one, Nat.mul_zero]
      symm
      apply Nat.mod_eq_zero_of_dvd
      exact Dvd.dvd.mul_right (pow_dvd_pow _ (by omega)) _
  · rw [List.take_append, List.take_replicate, val_append, val_zeros, List.take_take]
    by_cases h : v ≤ p.length
    · simp [h, val]
    · rw [show min (v - (List.replicate (min v p.length) 0).length) (p.length - v) = 0 by simp; omega]
      simp [val]

theorem shlBits_val {t : Nat} (ht : t < 64) {p : List Nat} (hp : LOk p) : ∀ {r0 : Nat}, r0 < 2 ^ t →
    val (shlBits t r0 p) = (2 ^ t * val p + r0) % W64 ^ p.length ∧ LOk (shlBits t r0 p) ∧ (shlBits t r0 p).length = p.length := by
  have hW : (W64 : Nat) = 2 ^ t * 2 ^ (64 - t) := by rw [← pow_add, show t + (64 - t) = 64 by omega]; norm_num
  induction p with
  | nil => intro r0 _; simp [shlBits, val, LOk.nil, Nat.mod_one]
  | cons x r ih =>
    intro r0 hr
    have hx := hp.head
    have hhi : x >>> (64 - t) = 2 ^ t * x / W64 := by
      rw [Nat.shiftRight_eq_div_pow, hW, Nat.mul_div_mul_left _ _ (Nat.pow_pos (by decide))]
    have hlo : ((x <<< t) % W64 ||| r0) = 2 ^ t * x % W64 + r0 := by
      rw [Nat.shiftLeft_eq, Nat.mul_comm]
      have : 2 ^ t * x % W64 = (x % 2 ^ (64 - t)) <<< t := by
        rw [hW, Nat.mul_mod_mul_left, Nat.shiftLeft_eq, Nat.mul_comm]
      rw [this, Nat.shiftLeft_add_eq_or_of_lt hr]
    have hlt : 2 ^ t * x % W64 + r0 < W64 := by
      have : 2 ^ t * x % W64 = 2 ^ t * (x % 2 ^ (64 - t)) := by rw [hW, Nat.mul_mod_mul_left]
      rw [this]
      have h1 : x % 2 ^ (64 - t) + 1 ≤ 2 ^ (64 - t) := Nat.mod_lt _ (Nat.pow_pos (by decide))
      have h2 := Nat.mul_le_mul_left (2 ^ t) h1
      rw [← hW, Nat.mul_add] at h2
      omega
    have hnext : x >>> (64 - t) < 2 ^ t := by
      rw [Nat.shiftRight_eq_div_pow]
      apply Nat.div_lt_of_lt_mul
      rw [Nat.mul_comm, ← hW]; exact hx
    obtain ⟨h1, h2, h3⟩ := ih hp.tail hnext
    rw [shlBits]
    refine ⟨?_, LOk.cons (by rw [hlo]; exact hlt) h2, by simp [h3]⟩
    rw [val, h1, hlo, hhi, val, List.length_cons, pow_succ, Nat.mul_comm (W64 ^ r.length), Nat.mod_mul]
    have e : 2 ^ t * (x + W64 * val r) + r0 = (2 ^ t * x % W64 + r0) + W64 * (2 ^ t * val r + 2 ^ t * x / W64) := by
      have := Nat.mod_add_div (2 ^ t * x) W64
      calc 2 ^ t * (x + W64 * val r) + r0 = (2 ^ t * x) + W64 * (2 ^ t * val r) + r0 := by ring
        _ = _ := by rw [Nat.mul_add]; omega
    rw [e, Nat.add_mul_mod_self_left, Nat.mod_eq_of_lt hlt, Nat.add_mul_div_left _ _ (by decide), Nat.div_eq_of_lt hlt, Nat.zero_add]

theorem shiftL_limbs {p : List Nat} (hp : LOk p) (count : Nat) :
    val (shlAll (count / 64) (count % 64) p) = 2 ^ count * val p % W64 ^ p.length ∧ LOk (shlAll (count / 64) (count % 64) p) ∧
      (shlAll (count / 64) (count % 64) p).length = p.length := by
  unfold shlAll
  set q := if count / 64 > 0 then shlLimbs (count / 64) p else p
  set r := if count % 64 > 0 then q.take (count / 64) ++ shlBits (count % 64) 0 (q.drop (count / 64)) else q
  have hq : val q = W64 ^ (count / 64) * val p % W64 ^ p.length ∧ LOk q ∧ q.length = p.length ∧ val (q.take (count / 64)) = 0 := by
    by_cases h : count / 64 > 0
    · have : q = shlLimbs (count / 64) p := if_pos h
      rw [this]; exact shlLimbs_val hp _
    · have hz : count / 64 = 0 := by omega
      have : q = p := if_neg h
      rw [this, hz]
      refine ⟨?_, hp, rfl, rfl⟩
      rw [pow_zero, Nat.one_mul, Nat.mod_eq_of_lt (val_lt hp)]
  have hcount : (2 : Nat) ^ count = 2 ^ (count % 64) * W64 ^ (count / 64) := by
    rw [W64_pow, ← pow_add]; congr 1; omega
  obtain ⟨q1, q2, q3, q4⟩ := hq
  by_cases ht : count % 64 > 0
  · have : r = q.take (count / 64) ++ shlBits (count % 64) 0 (q.drop (count / 64)) := if_pos ht
    obtain ⟨s1, s2, s3⟩ := shlBits_val (t := count % 64) (by omega) (q2.drop (count / 64)) (r0 := 0) (Nat.pow_pos (by decide))
    rw [this]
    refine ⟨?_, (q2.take _).append s2, ?_⟩
    · rw [val_append, q4, s1, Nat.zero_add, Nat.add_zero, List.length_take, List.length_drop]
      by_cases hv : count / 64 ≤ q.length
      · rw [Nat.min_eq_left hv, ← Nat.mul_mod_mul_left, ← pow_add, show count / 64 + (q.length - count / 64) = p.length by omega]
        have hd := val_take_drop q _ hv
        rw [q4, Nat.zero_add, q1] at hd
        have : W64 ^ (count / 64) * (2 ^ (count % 64) * val (q.drop (count / 64))) = 2 ^ (count % 64) * (W64 ^ (count / 64) * val p % W64 ^ p.length) := by
          rw [hd]; ring
        rw [this, hcount, Nat.mul_mod_mod, Nat.mul_assoc]
      · rw [show q.length - count / 64 = 0 by omega, pow_zero, Nat.mod_one, Nat.mul_zero]
        symm
        apply Nat.mod_eq_zero_of_dvd
        rw [hcount, Nat.mul_assoc]
        exact Dvd.dvd.mul_left (Dvd.dvd.mul_right (pow_dvd_pow _ (by omega)) _) _
    · rw [List.length_append, s3, List.length_take, List.length_drop]; omega
  · have : r = q := if_neg ht
    rw [this, hcount, show count % 64 = 0 by omega, pow_zero, Nat.one_mul]
    exact ⟨q1, q2, q3⟩

theorem bitsToLimbs_le (i k : Nat) : bitsToLimbs i ≤ k ↔ i ≤ k * 64 := by
  unfold bitsToLimbs; split <;> omega

theorem shiftL_spec {X : Mpi} (hX : X.WF) (count : Nat) (hc : 64 * maxLimbs + count < W64) :
    (bitlen X.mag + count ≤ 64 * maxLimbs →
      ∃ R, shiftL X count = .ok R ∧ R.WF ∧ R.mag = X.mag * 2 ^ count ∧ R.neg = X.neg ∧ R.p.length = max X.p.length (bitsToLimbs (bitlen X.mag + count))) ∧
    (64 * maxLimbs < bitlen X.mag + count → shiftL X count = .err .alloc) := by
  have hbl : bitlen X.mag ≤ 64 * maxLimbs := by
    rw [bitlen_le_iff, ← W64_pow]; exact hX.mag_lt
  have hlen := hX.len
  unfold shiftL growIf
  rw [bitlenL_spec hX]
  simp only
  rw [Nat.mod_eq_of_lt (show bitlen X.mag + count < W64 by omega)]
  constructor
  · intro hle
    have core : ∀ Y : Mpi, Y.WF → Y.mag = X.mag → Y.neg = X.neg → bitlen X.mag + count ≤ Y.p.length * 64 →
        ∃ R, (Out.ok { Y with p := shlAll (count / 64) (count % 64) Y.p } : Out Mpi) = .ok R ∧
          R.WF ∧ R.mag = X.mag * 2 ^ count ∧ R.neg = X.neg ∧ R.p.length = Y.p.length := by
      intro Y hY hm hn hl
      obtain ⟨h1, h2, h3⟩ := shiftL_limbs hY.ok count
      refine ⟨_, rfl, ⟨h2, by rw [h3]; exact hY.len⟩, ?_, hn, h3⟩
      unfold Mpi.mag at *
      rw [h1, hm, Nat.mul_comm]
      apply Nat.mod_eq_of_lt
      rw [W64_pow, ← bitlen_le_iff]
      by_cases hz : val X.p = 0
      · rw [hz]; simp [bitlen]
      · have : val X.p * 2 ^ count < 2 ^ (bitlen (val X.p) + count) := by
          rw [pow_add]
          exact Nat.mul_lt_mul_of_pos_right ((bitlen_le_iff _ _).1 (le_refl _)) (Nat.pow_pos (by decide))
        have := (bitlen_le_iff _ _).2 this
        omega
    by_cases hg : X.p.length * 64 < bitlen X.mag + count
    · rw [if_pos (by simpa using hg)]
      obtain ⟨Y, y1, y2, y3, y4, y5, -⟩ := (grow_spec X hX (bitsToLimbs (bitlen X.mag + count))).1 (by rw [bitsToLimbs_le]; omega)
      simp only [y1, Out.bind_ok, Out.pure_eq]
      obtain ⟨R, r1, r2, r3, r4, r5⟩ := core Y y2 y3 y4 (by
        have := (bitsToLimbs_le (bitlen X.mag + count) Y.p.length).1 (by omega)
        exact this)
      exact ⟨R, r1, r2, r3, r4, by omega⟩
    · rw [if_neg (by simpa using hg)]
      simp only [Out.bind_ok, Out.pure_eq]
      obtain ⟨R, r1, r2, r3, r4, r5⟩ := core X hX rfl rfl (by omega)
      refine ⟨R, r1, r2, r3, r4, ?_⟩
      have := (bitsToLimbs_le (bitlen X.mag + count) X.p.length).2 (by omega)
      omega
  · intro hgt
    rw [if_pos (by simp; omega), (grow_spec X hX _).2 (by
      by_contra h
      have := (bitsToLimbs_le _ _).1 (Nat.le_of_not_lt h)
      omega)]
    rfl

theorem shrBits_val {t : Nat} (ht0 : 0 < t) (ht : t < 64) {p : List Nat} (hp : LOk p) : ∀ {q : Nat}, q < 2 ^ t →
    val (shrBits t (q * 2 ^ (64 - t)) p).reverse = (q * W64 ^ p.length + val p.reverse) / 2 ^ t ∧
      LOk (shrBits t (q * 2 ^ (64 - t)) p) ∧ (shrBits t (q * 2 ^ (64 - t)) p).length = p.length := by
  have hW : (W64 : Nat) = 2 ^ t * 2 ^ (64 - t) := by rw [← pow_add, show t + (64 - t) = 64 by omega]; norm_num
  have hW' : (W64 : Nat) = 2 ^ (64 - t) * 2 ^ t := by rw [hW, Nat.mul_comm]
  have hp2 : 0 < 2 ^ t := Nat.pow_pos (by decide)
  induction p with
  | nil =>
    intro q hq
    simp only [shrBits, List.reverse_nil, val, List.length_nil, pow_zero, Nat.mul_one, Nat.add_zero]
    exact ⟨(Nat.div_eq_of_lt hq).symm, LOk.nil, trivial⟩
  | cons x r ih =>
    intro q hq
    have hx := hp.head
    have hxl : x % 2 ^ t < 2 ^ t := Nat.mod_lt _ hp2
    have hnext : (x <<< (64 - t)) % W64 = x % 2 ^ t * 2 ^ (64 - t) := by
      rw [Nat.shiftLeft_eq, hW, Nat.mul_mod_mul_right]
    have hxh : x / 2 ^ t < 2 ^ (64 - t) := Nat.div_lt_of_lt_mul (by rw [← hW]; exact hx)
    have hor : ((x >>> t) ||| (q * 2 ^ (64 - t))) = x / 2 ^ t + q * 2 ^ (64 - t) := by
      rw [Nat.shiftRight_eq_div_pow, Nat.or_comm, ← Nat.shiftLeft_eq, ← Nat.shiftLeft_add_eq_or_of_lt hxh, Nat.add_comm]
    have hlt : x / 2 ^ t + q * 2 ^ (64 - t) < W64 := by
      have h2 : (q + 1) * 2 ^ (64 - t) ≤ 2 ^ t * 2 ^ (64 - t) := Nat.mul_le_mul_right _ hq
      rw [← hW, Nat.add_mul] at h2
      omega
    obtain ⟨h1, h2, h3⟩ := ih hp.tail hxl
    rw [shrBits, hnext, hor]
    refine ⟨?_, LOk.cons hlt h2, by simp [h3]⟩
    have e1 : val (x :: r).reverse = val r.reverse + W64 ^ r.length * x := by
      rw [List.reverse_cons, val_append, List.length_reverse]; simp [val]
    rw [List.reverse_cons, val_append, List.length_reverse, h1, h3, e1, List.length_cons, pow_succ]
    have e2 : q * (W64 ^ r.length * W64) + (val r.reverse + W64 ^ r.length * x)
        = (x % 2 ^ t * W64 ^ r.length + val r.reverse) + 2 ^ t * (W64 ^ r.length * (x / 2 ^ t + q * 2 ^ (64 - t))) := by
      have hd := Nat.mod_add_div x (2 ^ t)
      calc q * (W64 ^ r.length * W64) + (val r.reverse + W64 ^ r.length * x)
          = q * (W64 ^ r.length * (2 ^ t * 2 ^ (64 - t))) + (val r.reverse + W64 ^ r.length * (x % 2 ^ t + 2 ^ t * (x / 2 ^ t))) := by
            rw [hd, ← hW]
        _ = _ := by ring
    rw [e2, Nat.add_mul_div_left _ _ hp2]
    simp [val]

theorem shiftR_spec {X : Mpi} (hX : X.WF) (count : Nat) :
    ∃ R, shiftR X count = .ok R ∧ R.WF ∧ R.mag = X.mag / 2 ^ count ∧ (X.neg = false → R.neg = false) ∧
      R.toInt = if X.neg then -((X.mag / 2 ^ count : Nat) : Int) else (X.mag / 2 ^ count : Nat) := by
  have hcount : (2 : Nat) ^ count = W64 ^ (count / 64) * 2 ^ (count % 64) := by
    rw [W64_pow, ← pow_add]; congr 1; omega
  unfold shiftR
  simp only
  by_cases h : count / 64 > X.p.length ∨ (count / 64 = X.p.length ∧ count % 64 > 0)
  · rw [if_pos h]
    obtain ⟨R, r1, r2, r3, r4, r5, r6⟩ := lset_spec hX (z := 0) (by decide)
    have hz : X.mag / 2 ^ count = 0 := by
      apply Nat.div_eq_of_lt
      have h1 := val_lt hX.ok
      have h2 : W64 ^ X.p.length ≤ W64 ^ (count / 64) := Nat.pow_le_pow_right (by decide) (by omega)
      have h3 : W64 ^ (count / 64) * 1 ≤ W64 ^ (count / 64) * 2 ^ (count % 64) := Nat.mul_le_mul_left _ (Nat.pow_pos (by decide))
      rw [hcount]; unfold Mpi.mag; omega
    refine ⟨R, r1, r2, by rw [hz, r6]; rfl, fun _ => by rw [r5]; rfl, ?_⟩
    rw [r3, hz]; simp
  · rw [if_neg h]
    have hle : count / 64 ≤ X.p.length := by omega
    have hq : ∃ q, (if count / 64 > 0 then X.p.drop (count / 64) ++ List.replicate (count / 64) 0 else X.p) = q ∧
        val q = val X.p / W64 ^ (count / 64) ∧ LOk q ∧ q.length = X.p.length := by
      refine ⟨_, rfl, ?_⟩
      by_cases hv : count / 64 > 0
      · rw [if_pos hv]
        refine ⟨?_, (hX.ok.drop _).append (LOk.zeros _), by simp; omega⟩
        rw [val_append, val_zeros, val_div _ hX.ok]; simp
      · rw [if_neg hv, show count / 64 = 0 by omega]
        exact ⟨by simp, hX.ok, rfl⟩
    obtain ⟨q, q0, q1, q2, q3⟩ := hq
    rw [q0]
    have hr : ∃ r, (if count % 64 > 0 then (shrBits (count % 64) 0 q.reverse).reverse else q) = r ∧
        val r = val X.p / 2 ^ count ∧ LOk r ∧ r.length = X.p.length := by
      refine ⟨_, rfl, ?_⟩
      by_cases hv : count % 64 > 0
      · rw [if_pos hv]
        obtain ⟨s1, s2, s3⟩ := shrBits_val hv (by omega) q2.reverse (q := 0) (Nat.pow_pos (by decide))
        rw [Nat.zero_mul, List.reverse_reverse, Nat.zero_mul, Nat.zero_add, q1, Nat.div_div_eq_div_mul, ← hcount] at s1
        rw [Nat.zero_mul] at s2 s3
        exact ⟨s1, s2.reverse, by simp [s3, q3]⟩
      · rw [if_neg hv, hcount, show count % 64 = 0 by omega, pow_zero, Nat.mul_one]
        exact ⟨q1, q2, q3⟩
    obtain ⟨r, r0, r1, r2, r3⟩ := hr
    rw [r0]
    refine ⟨_, rfl, ⟨r2, by rw [r3]; exact hX.len⟩, r1, fun h => h, ?_⟩
    simp only [Mpi.toInt, Mpi.mag, r1]

/-! ## Reading and writing bytes -/

theorem val_set {p : List Nat} {k : Nat} (hk : k < p.length) (y : Nat) : val (p.set k y) + W64 ^ k * p.getD k 0 = val p + W64 ^ k * y := by
  induction p generalizing k with
  | nil => simp at hk
  | cons x r ih =>
    cases k with
    | zero => simp [val]; omega
    | succ k =>
      have := ih (k := k) (by simpa using hk)
      rw [List.set_cons_succ, val, val, List.getD_cons_succ, pow_succ]
      calc x + W64 * val (r.set k y) + W64 ^ k * W64 * r.getD k 0 = x + W64 * (val (r.set k y) + W64 ^ k * r.getD k 0) := by ring
        _ = x + W64 * (val r + W64 ^ k * y) := by rw [this]
        _ = _ := by ring

theorem LOk.set {p : List Nat} (h : LOk p) (k : Nat) {y : Nat} (hy : y < W64) : LOk (p.set k y) := by
  intro z hz
  rcases List.mem_or_eq_of_mem_set hz with h1 | h1
  · exact h z h1
  · rw [h1]; exact hy

theorem pow256 (j : Nat) : (256 : Nat) ^ j = W64 ^ (j / 8) * 2 ^ (8 * (j % 8)) := by
  rw [W64_pow, ← pow_add, show (256 : Nat) = 2 ^ 8 by norm_num, ← pow_mul]
  congr 1; omega

theorem readLoop_spec (bs : Bytes) : ∀ (j : Nat) {p : List Nat}, LOk p → val p < 256 ^ j → j + bs.length ≤ 8 * p.length →
    ∃ r, readLoop bs j p = .ok r ∧ val r = val p + 256 ^ j * leNat bs ∧ LOk r ∧ r.length = p.length := by
  induction bs with
  | nil => intro j p hp _ _; exact ⟨p, rfl, by simp [leNat], hp, rfl⟩
  | cons b r ih =>
    intro j p hp hv hl
    rw [List.length_cons] at hl
    have hk : j / 8 < p.length := by omega
    have hg : p[j / 8]? = some (p.getD (j / 8) 0) := by
      rw [List.getD_eq_getElem?_getD, List.getElem?_eq_getElem hk]; rfl
    rw [readLoop, hg]
    simp only
    have hb : b.toNat < 256 := b.toNat_lt
    have hsh : (j % 8) <<< 3 = 8 * (j % 8) := by rw [Nat.shiftLeft_eq]; omega
    have hsmall : p.getD (j / 8) 0 < 2 ^ (8 * (j % 8)) := by
      have h1 := val_set hk 0
      rw [Nat.mul_zero, Nat.add_zero] at h1
      rw [pow256] at hv
      have : W64 ^ (j / 8) * p.getD (j / 8) 0 < W64 ^ (j / 8) * 2 ^ (8 * (j % 8)) := by omega
      exact Nat.lt_of_mul_lt_mul_left this
    have hor : (p.getD (j / 8) 0 ||| (b.toNat <<< ((j % 8) <<< 3))) = p.getD (j / 8) 0 + b.toNat * 2 ^ (8 * (j % 8)) := by
      rw [hsh, Nat.or_comm, ← Nat.shiftLeft_add_eq_or_of_lt hsmall, Nat.shiftLeft_eq, Nat.add_comm]
    have hlt : p.getD (j / 8) 0 + b.toNat * 2 ^ (8 * (j % 8)) < W64 := by
      have h1 : b.toNat * 2 ^ (8 * (j % 8)) ≤ 255 * 2 ^ (8 * (j % 8)) := Nat.mul_le_mul_right _ (by omega)
      have h2 : 256 * 2 ^ (8 * (j % 8)) ≤ 2 ^ 64 := by
        rw [show (256 : Nat) = 2 ^ 8 by norm_num, ← pow_add]
        exact Nat.pow_le_pow_right (by decide) (by omega)
      rw [show (2 : Nat) ^ 64 = W64 by norm_num] at h2
      omega
    rw [hor]
    have hval := val_set hk (p.getD (j / 8) 0 + b.toNat * 2 ^ (8 * (j % 8)))
    have hval' : val (p.set (j / 8) (p.getD (j / 8) 0 + b.toNat * 2 ^ (8 * (j % 8)))) = val p + 256 ^ j * b.toNat := by
      have e : W64 ^ (j / 8) * (p.getD (j / 8) 0 + b.toNat * 2 ^ (8 * (j % 8))) = W64 ^ (j / 8) * p.getD (j / 8) 0 + 256 ^ j * b.toNat := by
        rw [pow256]; ring
      rw [e] at hval
      omega
    obtain ⟨s, s1, s2, s3, s4⟩ := ih (j + 1) (hp.set (j / 8) hlt) (by
      rw [hval', pow_succ]
      have : 256 ^ j * b.toNat ≤ 256 ^ j * 255 := Nat.mul_le_mul_left _ (by omega)
      omega) (by rw [List.length_set]; omega)
    refine ⟨s, s1, ?_, s3, by rw [s4, List.length_set]⟩
    rw [s2, hval', leNat, pow_succ]; ring

theorem leNat_zeros_append (bs : Bytes) (h : ∀ b ∈ bs, b = 0) : leNat bs = 0 := by
  induction bs with
  | nil => rfl
  | cons b r ih =>
    rw [leNat, ih (fun x hx => h x (List.mem_cons_of_mem _ hx)), h b (List.mem_cons_self ..)]; rfl

theorem beNat_dropWhile (buf : Bytes) : beNat (buf.dropWhile (· == 0)) = beNat buf := by
  rw [beNat_eq_leNat_reverse, beNat_eq_leNat_reverse]
  conv_rhs => rw [← List.takeWhile_append_dropWhile (p := (· == 0)) (l := buf), List.reverse_append, leNat_append]
  rw [leNat_zeros_append (buf.takeWhile (· == 0)).reverse]
  · simp
  · intro b hb
    have := List.all_takeWhile (p := (· == 0)) (l := buf)
    rw [List.all_eq_true] at this
    simpa using this b (List.mem_reverse.1 hb)

theorem charsToLimbs_le (i k : Nat) : charsToLimbs i ≤ k ↔ i ≤ k * 8 := by
  unfold charsToLimbs; split <;> omega

/-- `mbedtls_mpi_read_binary` reads the number, whatever the destination was. -/
theorem readBinary_spec {X : Mpi} (hX : X.WF) (buf : Bytes) :
    ((buf.dropWhile (· == 0)).length ≤ 8 * maxLimbs → ∃ R, readBinary X buf = .ok R ∧ R.WF ∧ R.mag = beNat buf ∧ R.neg = false ∧
      R.p.length = max 1 (max (charsToLimbs (buf.dropWhile (· == 0)).length) X.p.length)) ∧
    (8 * maxLimbs < (buf.dropWhile (· == 0)).length → readBinary X buf = .err .alloc) := by
  unfold readBinary
  constructor
  · intro h
    obtain ⟨Y, y1, y2, -, -, y3, -⟩ := (grow_spec X hX (charsToLimbs (buf.dropWhile (· == 0)).length)).1 (by rw [charsToLimbs_le]; omega)
    obtain ⟨Z, z1, z2, z3, z4, z5, z6⟩ := lset_spec y2 (z := 0) (by decide)
    simp only [y1, z1, Out.bind_ok]
    have hz : val Z.p = 0 := by simpa [Mpi.mag] using z6
    have hlen := (charsToLimbs_le (buf.dropWhile (· == 0)).length Z.p.length).1 (by omega)
    obtain ⟨r, r1, r2, r3, r4⟩ := readLoop_spec (buf.dropWhile (· == 0)).reverse 0 z2.ok (by rw [hz]; simp)
      (by rw [List.length_reverse]; omega)
    rw [r1]
    simp only [Out.bind_ok, Out.pure_eq]
    refine ⟨_, rfl, ⟨r3, by rw [r4]; exact z2.len⟩, ?_, by rw [z5]; rfl, by simp only [r4]; omega⟩
    show val r = _
    rw [r2, hz, ← beNat_eq_leNat_reverse, beNat_dropWhile]; simp
  · intro h
    simp only
    rw [(grow_spec X hX (charsToLimbs (buf.dropWhile (· == 0)).length)).2 (by
      by_contra hc
      have := (charsToLimbs_le _ _).1 (Nat.le_of_not_lt hc)
      omega)]
    rfl

theorem ofNat_mod (x : Nat) : UInt8.ofNat (x % 256) = UInt8.ofNat x := by
  apply UInt8.toNat_inj.1
  rw [UInt8.toNat_ofNat', UInt8.toNat_ofNat']
  omega

theorem leBytes_eq_map (n x : Nat) : leBytes n x = (List.range n).map fun j => UInt8.ofNat (x / 256 ^ j) := by
  induction n generalizing x with
  | zero => rfl
  | succ n ih =>
    rw [leBytes, ih, List.range_succ_eq_map, List.map_cons, List.map_map]
    congr 1
    · simp [ofNat_mod]
    · apply List.map_congr_left
      intro j _
      simp only [Function.comp]
      rw [Nat.div_div_eq_div_mul, pow_succ, Nat.mul_comm]

theorem byte_eq {p : List Nat} (hp : LOk p) (j : Nat) : UInt8.ofNat (p.getD (j / 8) 0 >>> ((j % 8) <<< 3)) = UInt8.ofNat (val p / 256 ^ j) := by
  have hsh : (j % 8) <<< 3 = 8 * (j % 8) := by rw [Nat.shiftLeft_eq]; omega
  rw [← ofNat_mod, ← ofNat_mod (val p / 256 ^ j), hsh, Nat.shiftRight_eq_div_pow, limb_eq hp, pow256, ← Nat.div_div_eq_div_mul]
  congr 1
  generalize val p / W64 ^ (j / 8) = v
  have hj : j % 8 < 8 := Nat.mod_lt _ (by decide)
  generalize j % 8 = k at *
  have hW : (W64 : Nat) = 2 ^ (8 * k) * (2 ^ (56 - 8 * k) * 256) := by
    rw [show (256 : Nat) = 2 ^ 8 by norm_num, ← pow_add, ← pow_add, show 8 * k + (56 - 8 * k + 8) = 64 by omega]; norm_num
  rw [hW, Nat.mod_mul, Nat.add_mul_div_left _ _ (Nat.pow_pos (by decide)), Nat.div_eq_of_lt (Nat.mod_lt _ (Nat.pow_pos (by decide))),
    Nat.zero_add, Nat.mod_mul_left_mod]

theorem leBytes_pad {n m x : Nat} (h : x < 256 ^ n) (hm : n ≤ m) : leBytes n x ++ List.replicate (m - n) 0 = leBytes m x := by
  rw [leBytes_eq_map, leBytes_eq_map]
  conv_rhs => rw [show m = n + (m - n) by omega, List.range_add, List.map_append, List.map_map]
  congr 1
  symm
  rw [List.eq_replicate_iff]
  refine ⟨by simp, ?_⟩
  intro b hb
  obtain ⟨j, -, rfl⟩ := List.mem_map.1 hb
  simp only [Function.comp]
  rw [Nat.div_eq_of_lt]
  · rfl
  · exact lt_of_lt_of_le h (Nat.pow_le_pow_right (by decide) (by omega))

theorem mpiSize_le_iff (x n : Nat) : mpiSize x ≤ n ↔ x < 256 ^ n := by
  rw [show (256 : Nat) = 2 ^ 8 by norm_num, ← pow_mul, ← bitlen_le_iff]
  unfold mpiSize; omega

/-- `mbedtls_mpi_write_binary` writes the big-endian number, or fails if it does not fit. -/
theorem writeBinary_spec {X : Mpi} (hX : X.WF) (n : Nat) :
    writeBinary X n = if X.mag < 256 ^ n then .ok (beBytes n X.mag) else .err .tooSmall := by
  unfold writeBinary
  simp only
  rw [size_spec hX]
  by_cases h : X.mag < 256 ^ n
  · have h' := (mpiSize_le_iff _ _).2 h
    rw [if_pos h, if_neg (by omega)]
    have hs : mpiSize X.mag ≤ 8 * X.p.length := by
      rw [mpiSize_le_iff, pow_mul, show (256 : Nat) ^ 8 = W64 by norm_num]
      exact val_lt hX.ok
    rw [if_neg (by omega)]
    unfold beBytes
    rw [← leBytes_pad ((mpiSize_le_iff _ _).1 (le_refl _)) h']
    congr 3
    rw [leBytes_eq_map]
    apply List.map_congr_left
    intro j _
    exact byte_eq hX.ok j
  · have h' := (mpiSize_le_iff X.mag n).not.2 h
    rw [if_neg h, if_pos (by omega)]

end Verif.Bignum
