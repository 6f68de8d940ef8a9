import Verif.Bignum.ModelWord
import Verif.Bignum.Props
import Mathlib.Tactic.Ring
import Mathlib.Tactic.Linarith

/-!
# Division without a double-width type gives the same results (C81)
-/

namespace Verif.Bignum

open Verif
open Verif.Tdp (bitlen mpiSize)

theorem wsub_eq {a b : Nat} (h : b ≤ a) (ha : a < W64) : wsub a b = a - b := by
  unfold wsub; omega

/-- The loop finds the half digit: `n = u1 * 2^32 + u` over the normalised divisor `d1 * 2^32 + d0`. -/
theorem digitLoop_spec {d0 d1 u u1 : Nat} (h0 : d0 < 4294967296) (h1 : 2147483648 ≤ d1) (h1' : d1 < 4294967296) (hu : u < 4294967296)
    (hlt : u1 < d1 * 4294967296 + d0) : ∀ (f q r : Nat), 4294967296 ≤ r + f * d1 → r < 4294967296 → u1 = q * d1 + r → q ≤ 4294967297 →
    (u1 * 4294967296 + u) / (d1 * 4294967296 + d0) ≤ q →
    digitLoop d0 d1 u f q r = .ok ((u1 * 4294967296 + u) / (d1 * 4294967296 + d0)) := by
  have hdpos : 0 < d1 * 4294967296 + d0 := by omega
  have hqlt : (u1 * 4294967296 + u) / (d1 * 4294967296 + d0) < 4294967296 := by
    apply Nat.div_lt_of_lt_mul
    have : (u1 + 1) * 4294967296 ≤ (d1 * 4294967296 + d0) * 4294967296 := Nat.mul_le_mul_right _ hlt
    omega
  set n := u1 * 4294967296 + u with hn
  set d := d1 * 4294967296 + d0 with hd
  intro f
  induction f with
  | zero => intro q r h1 h2; omega
  | succ f ih =>
    intro q r hf hr hu1 hq hle
    have hqd : q * d0 < W64 := by
      have : q * d0 ≤ 4294967297 * 4294967295 := Nat.mul_le_mul hq (by omega)
      omega
    have hrr : radix * r % W64 = 4294967296 * r := by unfold radix; omega
    have hru : (radix * r % W64 + u) % W64 = 4294967296 * r + u := by rw [hrr]; omega
    have hnq : n + q * d0 = q * d + (4294967296 * r + u) := by rw [hn, hd, hu1]; ring
    rw [digitLoop, hru, Nat.mod_eq_of_lt hqd]
    have hr32 : radix = 4294967296 := rfl
    by_cases hc : radix ≤ q ∨ 4294967296 * r + u < q * d0
    · rw [if_pos hc]
      -- q is too large
      have hgt : n / d < q := by
        rcases hc with hc | hc
        · omega
        · apply Nat.div_lt_of_lt_mul
          rw [Nat.mul_comm]; omega
      have hq1 : 1 ≤ q := Nat.lt_of_le_of_lt (Nat.zero_le _) hgt
      have hs : wsub q 1 = q - 1 := wsub_eq hq1 (by omega)
      have hrd : (r + d1) % W64 = r + d1 := by omega
      simp only [hs, hrd]
      obtain ⟨p, rfl⟩ : ∃ p, q = p + 1 := ⟨q - 1, by omega⟩
      rw [Nat.add_sub_cancel]
      have hu1' : u1 = p * d1 + (r + d1) := by rw [hu1]; ring
      by_cases hb : radix ≤ r + d1
      · rw [if_pos hb]
        have hpd : p * d0 ≤ 4294967296 * 4294967295 := Nat.mul_le_mul (by omega) (by omega)
        have hnp : n + p * d0 = p * d + (4294967296 * (r + d1) + u) := by rw [hn, hd, hu1']; ring
        have : p ≤ n / d := by rw [Nat.le_div_iff_mul_le hdpos]; omega
        rw [show p = n / d by omega]
      · rw [if_neg hb]
        exact ih p (r + d1) (by rw [Nat.succ_mul] at hf; omega) (by omega) hu1' (by omega) (by omega)
    · rw [if_neg hc]
      have : q ≤ n / d := by rw [Nat.le_div_iff_mul_le hdpos]; omega
      rw [show q = n / d by omega]

/-- One half digit and the rest. -/
theorem halfDigit_spec {d0 d1 u u1 f : Nat} (h0 : d0 < 4294967296) (h1 : 2147483648 ≤ d1) (h1' : d1 < 4294967296) (hu : u < 4294967296)
    (hlt : u1 < d1 * 4294967296 + d0) (hf : 2 ≤ f) :
    digitLoop d0 d1 u f (u1 / d1) (wsub u1 (d1 * (u1 / d1) % W64)) = .ok ((u1 * 4294967296 + u) / (d1 * 4294967296 + d0)) := by
  have hm : d1 * (u1 / d1) ≤ u1 := Nat.mul_div_le _ _
  have hW : u1 < W64 := by omega
  rw [Nat.mod_eq_of_lt (lt_of_le_of_lt hm hW), wsub_eq hm hW]
  have hdm := Nat.div_add_mod u1 d1
  have hrl : u1 % d1 < d1 := Nat.mod_lt _ (by omega)
  have hre : u1 - d1 * (u1 / d1) = u1 % d1 := by omega
  rw [hre]
  apply digitLoop_spec h0 h1 h1' hu hlt f
  · have : 2 * d1 ≤ f * d1 := Nat.mul_le_mul_right _ hf
    omega
  · omega
  · rw [Nat.mul_comm]; omega
  · have : u1 / d1 < 4294967298 := by
      apply Nat.div_lt_of_lt_mul
      rw [show d1 * 4294967298 = d1 * 4294967296 + d1 * 2 by ring]
      omega
    omega
  · have hd : 0 < d1 * 4294967296 + d0 := by omega
    rw [Nat.le_div_iff_mul_le (by omega : 0 < d1)]
    set q := (u1 * 4294967296 + u) / (d1 * 4294967296 + d0) with hq
    have hqn : q * (d1 * 4294967296 + d0) ≤ u1 * 4294967296 + u := Nat.div_mul_le_self _ _
    have : q * d1 * 4294967296 ≤ u1 * 4294967296 + u := by
      calc q * d1 * 4294967296 = q * (d1 * 4294967296) := by ring
        _ ≤ q * (d1 * 4294967296 + d0) := Nat.mul_le_mul_left _ (by omega)
        _ ≤ _ := hqn
    omega

theorem rest_aux {u1 u a b : Nat} (e : a + b = u1 * 4294967296 + u) (hb : b < W64) : (u1 * radix % W64 + wsub u (a % W64)) % W64 = b := by
  unfold radix wsub
  omega

theorem rest_aux' {u1 u a b : Nat} (e : a + b = u1 * 4294967296 + u) (hb : b < W64) : wsub ((u1 * radix % W64 + u) % W64) (a % W64) = b := by
  unfold radix wsub
  omega

/-- The rest after a half digit, on words. -/
theorem halfRest {u1 u d : Nat} (hd : 0 < d) (hdW : d < W64) (hu : u < 4294967296) (hlt : u1 < d) :
    ∀ q, q = (u1 * 4294967296 + u) / d → (u1 * radix % W64 + wsub u (q * d % W64)) % W64 = (u1 * 4294967296 + u) % d := by
  intro q hq
  have e := Nat.div_add_mod (u1 * 4294967296 + u) d
  rw [← hq, Nat.mul_comm] at e
  have hm := Nat.mod_lt (u1 * 4294967296 + u) hd
  exact rest_aux e (by omega)

theorem halfRest' {u1 u d : Nat} (hd : 0 < d) (hdW : d < W64) (hu : u < 4294967296) :
    ∀ q, q = (u1 * 4294967296 + u) / d → wsub ((u1 * radix % W64 + u) % W64) (q * d % W64) = (u1 * 4294967296 + u) % d := by
  intro q hq
  have e := Nat.div_add_mod (u1 * 4294967296 + u) d
  rw [← hq, Nat.mul_comm] at e
  have hm := Nat.mod_lt (u1 * 4294967296 + u) hd
  exact rest_aux' e (by omega)

theorem clz_norm {d : Nat} (h0 : 0 < d) (hW : d < W64) : clz d ≤ 63 ∧ d * 2 ^ clz d < W64 ∧ 9223372036854775808 ≤ d * 2 ^ clz d := by
  have hb := clz_spec hW
  have hp : 1 ≤ bitlen d := by
    by_contra h
    have := (bitlen_le_iff d 0).1 (by omega)
    omega
  have hle : bitlen d ≤ 64 := (bitlen_le_iff d 64).2 (by simpa using hW)
  have hs := bitlen_shl (x := d) (by omega) (clz d)
  have h64 : bitlen (d * 2 ^ clz d) = 64 := by omega
  refine ⟨by omega, ?_, ?_⟩
  · have := (bitlen_le_iff (d * 2 ^ clz d) 64).1 (by omega)
    simpa using this
  · by_contra h
    have := (bitlen_le_iff (d * 2 ^ clz d) 63).2 (by simpa using h)
    omega

/-- The dividend shifted: two words. -/
theorem shifted {over : Option Nat} {u1 u0 d : Nat} (hd : 0 < d) (hW : d < W64) (h1 : u1 < d) (h0 : u0 < W64) (hs : clz d = 0 → over.isSome) :
    ∃ low, shrWord over u0 (64 - clz d) = .ok low ∧
      ((u1 <<< clz d % W64) ||| (low &&& signMask (clz d))) = u1 * 2 ^ clz d + u0 * 2 ^ clz d / W64 ∧
      u1 * 2 ^ clz d + u0 * 2 ^ clz d / W64 < d * 2 ^ clz d := by
  obtain ⟨c1, c2, c3⟩ := clz_norm hd hW
  have hle : (u1 + 1) * 2 ^ clz d ≤ d * 2 ^ clz d := Nat.mul_le_mul_right _ h1
  rw [Nat.add_mul, Nat.one_mul] at hle
  have hlow : u0 * 2 ^ clz d / W64 < 2 ^ clz d := by
    apply Nat.div_lt_of_lt_mul
    exact Nat.mul_lt_mul_of_pos_right h0 (Nat.pow_pos (by decide))
  have hw : u1 <<< clz d % W64 = u1 <<< clz d := Nat.mod_eq_of_lt (by rw [Nat.shiftLeft_eq]; omega)
  unfold shrWord
  by_cases hz : clz d = 0
  · obtain ⟨v, hv⟩ := Option.isSome_iff_exists.1 (hs hz)
    refine ⟨v, ?_, ?_, by omega⟩
    · rw [hz, if_neg (by decide), hv]; rfl
    · rw [hw, hz]
      unfold signMask
      rw [if_pos rfl, Nat.and_zero, Nat.or_zero, Nat.shiftLeft_zero, pow_zero, Nat.mul_one, Nat.mul_one, Nat.div_eq_of_lt h0, Nat.add_zero]
  · refine ⟨u0 >>> (64 - clz d), if_pos (by omega), ?_, by omega⟩
    have hsh : u0 >>> (64 - clz d) = u0 * 2 ^ clz d / W64 := by
      rw [Nat.shiftRight_eq_div_pow, show (W64 : Nat) = 2 ^ (64 - clz d) * 2 ^ clz d by rw [← pow_add, show 64 - clz d + clz d = 64 by omega]; norm_num,
        Nat.mul_div_mul_right _ _ (Nat.pow_pos (by decide))]
    have hmask : u0 * 2 ^ clz d / W64 &&& signMask (clz d) = u0 * 2 ^ clz d / W64 := by
      unfold signMask
      rw [if_neg hz, show (W64 - 1 : Nat) = 2 ^ 64 - 1 by norm_num, Nat.and_two_pow_sub_one_eq_mod]
      apply Nat.mod_eq_of_lt
      have : u0 * 2 ^ clz d / W64 < 2 ^ 64 := lt_of_lt_of_le hlow (Nat.pow_le_pow_right (by decide) (by omega))
      exact this
    rw [hw, hsh, hmask, ← Nat.shiftLeft_add_eq_or_of_lt hlow, Nat.shiftLeft_eq]

theorem two_words (u w : Nat) : u * W64 + w = (u * 4294967296 + w / 4294967296) * 4294967296 + w % 4294967296 := by omega

theorem two_digits {a b : Nat} (h : a * 4294967296 + b < W64) : (a * radix % W64 + b) % W64 = a * 4294967296 + b := by
  unfold radix
  omega

/-- The two half digits of a normalised division. -/
theorem word_core {f u w e s : Nat} (hf : 2 ≤ f) (c2 : e < W64) (c3 : 9223372036854775808 ≤ e) (l3 : u < e) (hlw : w < W64) (h2 : 0 < 2 ^ s) :
    (do
      let q1 ← digitLoop (e &&& (radix - 1)) (e >>> 32) (w >>> 32) f (u / (e >>> 32)) (wsub u ((e >>> 32) * (u / (e >>> 32)) % W64))
      let q0 ← digitLoop (e &&& (radix - 1)) (e >>> 32) (w &&& (radix - 1)) f ((u * radix % W64 + wsub (w >>> 32) (q1 * e % W64)) % W64 / (e >>> 32))
        (wsub ((u * radix % W64 + wsub (w >>> 32) (q1 * e % W64)) % W64)
          ((u * radix % W64 + wsub (w >>> 32) (q1 * e % W64)) % W64 / (e >>> 32) * (e >>> 32) % W64))
      pure ((q1 * radix % W64 + q0) % W64,
        wsub ((((u * radix % W64 + wsub (w >>> 32) (q1 * e % W64)) % W64) * radix % W64 + (w &&& (radix - 1))) % W64) (q0 * e % W64) >>> s) : Out (Nat × Nat)) =
    .ok ((u * W64 + w) / e, (u * W64 + w) % e / 2 ^ s) := by
  have hd1 : e >>> 32 = e / 4294967296 := by rw [Nat.shiftRight_eq_div_pow]
  have hd0 : e &&& (radix - 1) = e % 4294967296 := by
    rw [show radix - 1 = 2 ^ 32 - 1 from rfl, Nat.and_two_pow_sub_one_eq_mod]
  have hw1 : w >>> 32 = w / 4294967296 := by rw [Nat.shiftRight_eq_div_pow]
  have hw0 : w &&& (radix - 1) = w % 4294967296 := by
    rw [show radix - 1 = 2 ^ 32 - 1 from rfl, Nat.and_two_pow_sub_one_eq_mod]
  have he : e / 4294967296 * 4294967296 + e % 4294967296 = e := by omega
  rw [hd1, hd0, hw1, hw0]
  have hd1a : 2147483648 ≤ e / 4294967296 := by omega
  have hd1b : e / 4294967296 < 4294967296 := by omega
  have hd0b : e % 4294967296 < 4294967296 := Nat.mod_lt _ (by decide)
  have hwb : w / 4294967296 < 4294967296 := by omega
  have hwb0 : w % 4294967296 < 4294967296 := Nat.mod_lt _ (by decide)
  have hepos : 0 < e := by omega
  have k1 := halfDigit_spec (u := w / 4294967296) (u1 := u) hd0b hd1a hd1b hwb (by rw [he]; exact l3) hf
  rw [he] at k1
  rw [k1]
  simp only [Out.bind_ok]
  rw [halfRest hepos c2 hwb l3 _ rfl]
  set n := u * 4294967296 + w / 4294967296 with hn
  have hm : n % e < e := Nat.mod_lt _ hepos
  have k2 := halfDigit_spec (u := w % 4294967296) (u1 := n % e) hd0b hd1a hd1b hwb0 (by rw [he]; exact hm) hf
  rw [he] at k2
  rw [Nat.mul_comm (n % e / (e / 4294967296)), k2]
  simp only [Out.bind_ok, Out.pure_eq]
  rw [halfRest' hepos c2 hwb0 _ rfl, Nat.shiftRight_eq_div_pow]
  have hall : u * W64 + w = n * 4294967296 + w % 4294967296 := two_words u w
  have hnd := Nat.div_add_mod n e
  have hsplit : u * W64 + w = e * (n / e * 4294967296) + (n % e * 4294967296 + w % 4294967296) := by
    rw [hall]
    conv_lhs => rw [← hnd]
    ring
  have hq : (u * W64 + w) / e = n / e * 4294967296 + (n % e * 4294967296 + w % 4294967296) / e := by
    rw [hsplit, Nat.mul_add_div hepos]
  have hr : (u * W64 + w) % e = (n % e * 4294967296 + w % 4294967296) % e := by
    rw [hsplit, Nat.mul_add_mod]
  rw [hq, hr]
  have hb : (u * W64 + w) / e < W64 := by
    apply Nat.div_lt_of_lt_mul
    have : (u + 1) * W64 ≤ e * W64 := Nat.mul_le_mul_right _ l3
    omega
  rw [hq] at hb
  have : (n / e * radix % W64 + (n % e * 4294967296 + w % 4294967296) / e) % W64 = n / e * 4294967296 + (n % e * 4294967296 + w % 4294967296) / e :=
    two_digits hb
  rw [this]

theorem word_spec {over : Option Nat} {f u1 u0 d : Nat} (hf : 2 ≤ f) (hd : 0 < d) (hW : d < W64) (h1 : u1 < d) (h0 : u0 < W64)
    (hs : clz d = 0 → over.isSome) : intDivHalf over f u1 u0 d = .ok ((u1 * W64 + u0) / d, (u1 * W64 + u0) % d) := by
  obtain ⟨c1, c2, c3⟩ := clz_norm hd hW
  obtain ⟨low, l1, l2, l3⟩ := shifted hd hW h1 h0 hs
  unfold intDivHalf
  rw [if_neg (by omega)]
  simp only [l1, l2, Out.bind_ok]
  have hdd : d <<< clz d % W64 = d * 2 ^ clz d := by rw [Nat.shiftLeft_eq, Nat.mod_eq_of_lt c2]
  have h2 : 0 < 2 ^ clz d := Nat.pow_pos (by decide)
  have hmain : (u1 * W64 + u0) * 2 ^ clz d = (u1 * 2 ^ clz d + u0 * 2 ^ clz d / W64) * W64 + u0 * 2 ^ clz d % W64 := by
    rw [Nat.add_mul, Nat.add_mul, Nat.add_assoc, Nat.mul_comm (u0 * 2 ^ clz d / W64), Nat.div_add_mod]
    ring
  have hq : (u1 * W64 + u0) / d = (u1 * W64 + u0) * 2 ^ clz d / (d * 2 ^ clz d) := (Nat.mul_div_mul_right _ _ h2).symm
  have hr : (u1 * W64 + u0) % d = (u1 * W64 + u0) * 2 ^ clz d % (d * 2 ^ clz d) / 2 ^ clz d := by
    rw [Nat.mul_mod_mul_right, Nat.mul_div_cancel _ h2]
  rw [hq, hr, hmain, hdd, Nat.shiftLeft_eq u0]
  generalize clz d = s at *
  have hlw : u0 * 2 ^ s % W64 < W64 := Nat.mod_lt _ (by decide)
  generalize u0 * 2 ^ s % W64 = w at *
  generalize u1 * 2 ^ s + u0 * 2 ^ s / W64 = u at *
  generalize d * 2 ^ s = e at *
  clear hmain hdd hq hr l1 l2
  exact word_core hf c2 c3 l3 hlw h2

theorem clz_pos {d : Nat} (hd : 0 < d) (hW : d < W64) : clz d = 0 ↔ 9223372036854775808 ≤ d := by
  obtain ⟨c1, c2, c3⟩ := clz_norm hd hW
  constructor
  · intro h; rw [h, pow_zero, Nat.mul_one] at c3; exact c3
  · intro h
    by_contra hc
    have : d * 2 ^ 1 ≤ d * 2 ^ clz d := Nat.mul_le_mul_left _ (Nat.pow_le_pow_right (by decide) (by omega))
    omega

/-! ## In the division of integers -/

/-- Half words, as the standard defines them. -/
def wordHalf (f : Nat) : WordDiv := fun u1 u0 d => do
  let r ← intDivHalf none f u1 u0 d
  pure r.1

theorem wordHalf_eq {f u1 u0 d : Nat} (hf : 2 ≤ f) (hd : d < 9223372036854775808) (h1 : u1 < d) (h0 : u0 < W64) : wordHalf f u1 u0 d = .ok (intDiv u1 u0 d) := by
  unfold wordHalf
  rw [word_spec hf (by omega) (by omega) h1 h0 (fun h => by rw [clz_pos (by omega) (by omega)] at h; omega)]
  unfold intDiv
  rw [if_neg (by omega), or_add h0]
  have : (u1 * W64 + u0) / d < W64 := by
    apply Nat.div_lt_of_lt_mul
    have : (u1 + 1) * W64 ≤ d * W64 := Nat.mul_le_mul_right _ h1
    omega
  simp only [Out.bind_ok, Out.pure_eq]
  rw [Nat.min_eq_left (by omega)]

theorem qDigitW_eq {f : Nat} (hf : 2 ≤ f) {x y : List Nat} (hx : LOk x) {i t : Nat} (hi : i < x.length) (ht : t < y.length)
    (hy : y.getD t 0 < 9223372036854775808) : qDigitW (wordHalf f) x y i t = qDigit x y i t := by
  have : qEstW (wordHalf f) x y i t = qEst x y i t := by
    unfold qEstW qEst
    rw [limbAt_spec hi, limbAt_spec ht, limbAt_spec (show i - 1 < x.length by omega)]
    simp only [Out.bind_ok]
    by_cases h : x.getD i 0 ≥ y.getD t 0
    · rw [if_pos h, if_pos h]
    · rw [if_neg h, if_neg h, wordHalf_eq hf hy (by omega) (hx.getD _)]
  unfold qDigitW qDigit
  rw [this]

theorem divLoopW_eq {f : Nat} (hf : 2 ≤ f) {Y : Mpi} (hY : Y.WF) (hYn : Y.neg = false) {t : Nat} (ht : t < Y.p.length) (hy0 : W64 ^ t ≤ Y.mag)
    (hy1 : Y.mag < W64 ^ (t + 1)) (htop : Y.mag < W64 ^ t * 9223372036854775808) :
    ∀ (m : Nat) {X : Mpi} {Z : List Nat}, X.WF → 0 ≤ X.toInt → t + m + 1 ≤ X.p.length → X.mag < Y.mag * W64 ^ m →
    divLoopW (wordHalf f) Y t m X Z = divLoop Y t m X Z := by
  intro m
  induction m with
  | zero => intro X Z _ _ _ _; rfl
  | succ m ih =>
    intro X Z hX hX0 hl hlt
    have hyt : Y.p.getD t 0 < 9223372036854775808 := by
      rw [limb_eq hY.ok]
      apply lt_of_le_of_lt (Nat.mod_le _ _)
      apply Nat.div_lt_of_lt_mul
      exact htop
    rw [divLoopW, divLoop, qDigitW_eq hf hX.ok (by omega) ht hyt]
    obtain ⟨z, z1, z2, z3, z4⟩ := qDigit_spec hX.ok hY.ok (t := t) (m := m) (by omega) ht hy0 hy1 hlt
    obtain ⟨S, s1, s2, s3, s4, s5⟩ := divStep_spec hX hY hX0 hYn (m := m) (by omega) hy0 hy1 z2 z3 z4
    have hypos : 0 < Y.mag := lt_of_lt_of_le (Nat.pow_pos (by decide)) hy0
    simp only [z1, s1, Out.bind_ok]
    cases setLimb Z m (X.mag / (Y.mag * W64 ^ m)) with
    | err e => rfl
    | ub => rfl
    | ok Z' =>
      simp only [Out.bind_ok]
      exact ih s2 s3 (by omega) (by rw [s4]; exact Nat.mod_lt _ (Nat.mul_pos hypos (Nat.pow_pos (by decide))))

/-! ## C81 -/

/-- Without the double-width type the quotient and the remainder are right too, whatever `u0 >> 64` gives: two rounds of each correction are enough. -/
theorem c81_word (v : Nat) {f u1 u0 d : Nat} (hf : 2 ≤ f) (hd : 0 < d) (hW : d < W64) (h1 : u1 < d) (h0 : u0 < W64) :
    intDivHalf (some v) f u1 u0 d = .ok ((u1 * W64 + u0) / d, (u1 * W64 + u0) % d) := word_spec hf hd hW h1 h0 fun _ => rfl

/-- By the standard, for divisors below 2^63. -/
theorem c81_word_partial {f u1 u0 d : Nat} (hf : 2 ≤ f) (hd : 0 < d) (hW : d < 9223372036854775808) (h1 : u1 < d) (h0 : u0 < W64) :
    intDivHalf none f u1 u0 d = .ok ((u1 * W64 + u0) / d, (u1 * W64 + u0) % d) :=
  word_spec hf hd (by omega) h1 h0 fun h => by rw [clz_pos hd (by omega)] at h; omega

/-- For the other divisors the function shifts a word by 64 bits, which has no defined result. -/
theorem c81_shift_false {f u1 u0 d : Nat} (hW : d < W64) (hd : 9223372036854775808 ≤ d) (h1 : u1 < d) : intDivHalf none f u1 u0 d = .ub := by
  have hz := (clz_pos (by omega) hW).2 hd
  unfold intDivHalf
  rw [if_neg (by omega)]
  simp only [hz]
  rfl

/-- The version with the double-width type. -/
theorem c81_wide {u1 u0 d : Nat} (h1 : u1 < d) (hW : d < W64) (h0 : u0 < W64) : intDivWide u1 u0 d = ((u1 * W64 + u0) / d, (u1 * W64 + u0) % d) := by
  have hq : (u1 * W64 + u0) / d < W64 := by
    apply Nat.div_lt_of_lt_mul
    have : (u1 + 1) * W64 ≤ d * W64 := Nat.mul_le_mul_right _ h1
    omega
  have hm := Nat.mod_lt (u1 * W64 + u0) (show 0 < d by omega)
  unfold intDivWide
  rw [if_neg (by omega), or_add h0]
  simp only
  rw [Nat.min_eq_left (by omega), div_sub_mod, Nat.mod_eq_of_lt (a := (u1 * W64 + u0) % d) (by omega)]

/-- Where the quotient does not fit in a word, and for division by zero, both give all ones. -/
theorem c81_overflow {over : Option Nat} {f u1 u0 d : Nat} (h : d = 0 ∨ d ≤ u1) :
    intDivHalf over f u1 u0 d = .ok (18446744073709551615, 18446744073709551615) ∧ intDivWide u1 u0 d = (18446744073709551615, 18446744073709551615) := by
  unfold intDivHalf intDivWide
  rw [if_pos h, if_pos h]
  exact ⟨rfl, rfl⟩

/-- `mbedtls_mpi_div_mpi` is the same function without the double-width type, by the standard too: it shifts the divisor so that its highest word
has 63 bits, not 64, and the undefined shift is not reached. -/
theorem c81_div {f : Nat} (hf : 2 ≤ f) (qa ra : Bool) (Q R : Option Mpi) {A B : Mpi} (hA : A.WF) (hB : B.WF) :
    divMpiW (wordHalf f) qa ra Q R A B = divMpi qa ra Q R A B := by
  unfold divMpiW divMpi
  by_cases hB0 : cmpInt B 0 = 0
  · rw [if_pos hB0, if_pos hB0]
  · rw [if_neg hB0, if_neg hB0]
    by_cases hc : cmpAbs A B < 0
    · rw [if_pos hc, if_pos hc]
    · rw [if_neg hc, if_neg hc]
      have hBm : B.mag ≠ 0 := fun h => hB0 ((cmpInt_zero_iff hB).2 h)
      have hAB : B.mag ≤ A.mag := by
        rw [cmpAbs_spec hA hB] at hc
        unfold sgn at hc
        split_ifs at hc <;> omega
      have : divCoreW (wordHalf f) A B = divCore A B := by
        unfold divCoreW divCore
        by_cases hl : A.p.length + 2 ≤ maxLimbs
        · obtain ⟨r, e, h⟩ := divPrep_spec hA hB hBm hAB hl
          simp only [e, Out.bind_ok]
          rw [divLoopW_eq hf h.yWF h.yneg h.ylen h.ylow h.yhigh h.ytop r.m h.xWF h.xpos h.xlen h.xlt]
        · obtain ⟨X0, x1, -⟩ := copy_spec Mpi.null_WF hA
          obtain ⟨Y0, y1, -⟩ := copy_spec Mpi.null_WF hB
          unfold divPrep
          simp only [x1, y1, Out.bind_ok, (grow_spec Mpi.null Mpi.null_WF (A.p.length + 2)).2 (by omega), Out.bind_err]
      rw [this]

/-- Hence quotient and remainder of integers are right with either. -/
theorem c81_div_value {f : Nat} (hf : 2 ≤ f) {A B : Mpi} {Q R : Option Mpi} {ra : Bool} (hA : A.WF) (hB : B.WF) (hQ : OptWF Q) (hR : OptWF R) (hB0 : B.toInt ≠ 0)
    (hl : A.p.length + 2 ≤ maxLimbs) (hra : ra = true → R = some A) :
    ∃ Q' R', divMpiW (wordHalf f) false ra Q R A B = .ok (Q', R') ∧ Got Q Q' (A.toInt.tdiv B.toInt) ∧ Got R R' (A.toInt.tmod B.toInt) := by
  rw [c81_div hf false ra Q R hA hB]
  exact c63_div hA hB hQ hR hra hB0 hl

/-! ## Examples -/

/-- Both corrections of the first half digit: the estimate is 2^32 + 1. -/
example : intDivHalf (some 12345) 2 9223372041149743102 0 9223372041149743103 = .ok (18446744073709551614, 8589934590) := by
  rw [c81_word 12345 (le_refl 2) (by decide) (by decide) (by decide) (by decide)]

example : intDivHalf none 2 12345678901 98765432109876 1234567890123456 =
    .ok ((12345678901 * W64 + 98765432109876) / 1234567890123456, (12345678901 * W64 + 98765432109876) % 1234567890123456) :=
  c81_word_partial (le_refl 2) (by decide) (by decide) (by decide) (by decide)

example : intDivHalf none 2 0 5 9223372036854775808 = .ub := c81_shift_false (by decide) (by decide) (by decide)

example : intDivHalf none 0 7 5 7 = .ok (18446744073709551615, 18446744073709551615) := (c81_overflow (Or.inr (le_refl 7))).1

example : ∃ Q R, divMpiW (wordHalf 2) false false (some Mpi.null) (some Mpi.null) exA ⟨false, [10]⟩ = .ok (some Q, some R) ∧
    Q.toInt = -1844674407370955162 ∧ R.toInt = -1 := by
  obtain ⟨Q', R', h1, h2, h3⟩ := c81_div_value (Q := some Mpi.null) (R := some Mpi.null) (ra := false) (le_refl 2) exA_WF (B := ⟨false, [10]⟩)
    ⟨by unfold LOk; decide, by decide⟩ Mpi.null_WF Mpi.null_WF (by decide) (by decide) (by decide)
  cases Q' with
  | none => exact h2.elim
  | some Q =>
    cases R' with
    | none => exact h3.elim
    | some R => exact ⟨Q, R, h1, by rw [h2.2]; decide, by rw [h3.2]; decide⟩

end Verif.Bignum
