import Verif.Bignum.DivSpec
import Verif.Io.Asn1

/-!
# Properties of the multi-precision integers (C54, C55, C63)

An integer object is a sign and a list of limbs of 64 bits (`Mpi`); its value is `Mpi.toInt`.  `Mpi.WF` says that every limb fits into 64 bits
and that there are at most `MBEDTLS_MPI_MAX_LIMBS` of them; every operation keeps it.  The operands `A` and `B` are `Arg`s: another object, or the
destination itself.
-/

namespace Verif.Bignum

open Verif
open Verif.Tdp (bitlen mpiSize mpiWrite mpiMod)


/-- A small integer for the examples: −(2^64 + 5) with two unused limbs. -/
def exA : Mpi := ⟨true, [5, 1, 0, 0]⟩
def exB : Mpi := ⟨false, [W64 - 1, W64 - 1]⟩

theorem exA_WF : exA.WF := ⟨by unfold LOk; decide, by decide⟩
theorem exB_WF : exB.WF := ⟨by unfold LOk; decide, by decide⟩
theorem exA_val : exA.toInt = -(2 ^ 64 + 5) := by decide
theorem exB_val : exB.toInt = 2 ^ 128 - 1 := by decide

/-! ## C54: binary form -/

/-- Writing succeeds exactly if the buffer has at least `mbedtls_mpi_size` bytes; the bytes are the big-endian digits of the absolute value. -/
theorem c54_write {X : Mpi} (hX : X.WF) (n : Nat) :
    (size X ≤ n → ∃ b, writeBinary X n = .ok b ∧ b.length = n ∧ beNat b = X.toInt.natAbs) ∧ (n < size X → writeBinary X n = .err .tooSmall) := by
  rw [writeBinary_spec hX, size_spec hX, natAbs_toInt]
  constructor
  · intro h
    rw [if_pos ((mpiSize_le_iff _ _).1 h)]
    exact ⟨_, rfl, beBytes_length _ _, beNat_beBytes_of_lt ((mpiSize_le_iff _ _).1 h)⟩
  · intro h
    rw [if_neg (fun hc => by have := (mpiSize_le_iff _ _).2 hc; omega)]

/-- The size is the least number of bytes that hold the value. -/
theorem c54_size {X : Mpi} (hX : X.WF) (n : Nat) : size X ≤ n ↔ X.toInt.natAbs < 256 ^ n := by
  rw [size_spec hX, natAbs_toInt, mpiSize_le_iff]

/-- Reading gives the number with these digits, whatever the destination contained; it fails exactly if the digits without leading zeros need
    more than `MBEDTLS_MPI_MAX_LIMBS` limbs. -/
theorem c54_read {X : Mpi} (hX : X.WF) (b : Bytes) :
    (beNat b < 2 ^ (64 * maxLimbs) → ∃ R, readBinary X b = .ok R ∧ R.WF ∧ R.toInt = beNat b) ∧
    (2 ^ (64 * maxLimbs) ≤ beNat b → readBinary X b = .err .alloc) := by
  have hlen : (b.dropWhile (· == 0)).length ≤ 8 * maxLimbs ↔ beNat b < 2 ^ (64 * maxLimbs) := by
    rw [← beNat_dropWhile b, ← W64_pow]
    have hp : (256 : Nat) ^ (8 * maxLimbs) = W64 ^ maxLimbs := by
      rw [pow256, Nat.mul_div_cancel_left _ (by decide), Nat.mul_mod_right, Nat.mul_zero, pow_zero, Nat.mul_one]
    rw [← hp]
    generalize hd : b.dropWhile (· == 0) = d
    have hhead : ∀ x r, d = x :: r → x ≠ 0 := by
      intro x r hx
      have := List.head?_dropWhile_not (· == (0 : UInt8)) b
      rw [hd, hx] at this
      simpa using this
    constructor
    · intro h
      exact lt_of_lt_of_le (beNat_lt d) (Nat.pow_le_pow_right (by decide) h)
    · intro h
      by_contra hc
      cases d with
      | nil => simp at hc
      | cons x r =>
        have h0 := hhead x r rfl
        have : 256 ^ r.length ≤ beNat (x :: r) := by
          rw [beNat_cons]
          have : 1 ≤ x.toNat := by
            rcases Nat.eq_zero_or_pos x.toNat with h1 | h1
            · exact absurd (UInt8.toNat_inj.1 h1) h0
            · exact h1
          nlinarith [Nat.pow_pos (n := r.length) (show 0 < 256 by decide)]
        have h2 : 256 ^ (8 * maxLimbs) ≤ 256 ^ r.length := Nat.pow_le_pow_right (by decide) (by simp at hc; omega)
        omega
  obtain ⟨h1, h2⟩ := readBinary_spec hX b
  constructor
  · intro h
    obtain ⟨R, r1, r2, r3, r4, -⟩ := h1 (hlen.2 h)
    exact ⟨R, r1, r2, by unfold Mpi.toInt; rw [r4, r3]; rfl⟩
  · intro h
    apply h2
    by_contra hc
    have := hlen.1 (by omega)
    omega

/-- Leading zeros make no difference to the result, not even to its representation. -/
theorem c54_zeros (X : Mpi) (k : Nat) (b : Bytes) : readBinary X (List.replicate k 0 ++ b) = readBinary X b := by
  have : (List.replicate k (0 : UInt8) ++ b).dropWhile (· == 0) = b.dropWhile (· == 0) := by
    induction k with
    | zero => rfl
    | succ k ih => rw [List.replicate_succ, List.cons_append, List.dropWhile_cons, if_pos (by decide), ih]
  unfold readBinary
  rw [this]

/-- Writing into a large enough buffer and reading it back into any object gives the same integer (the absolute value of a negative one). -/
theorem c54_roundtrip {X Y : Mpi} (hX : X.WF) (hY : Y.WF) {n : Nat} (hn : size X ≤ n) :
    ∃ b R, writeBinary X n = .ok b ∧ readBinary Y b = .ok R ∧ R.WF ∧ R.toInt = X.toInt.natAbs ∧ (0 ≤ X.toInt → R.toInt = X.toInt) := by
  obtain ⟨b, b1, -, b2⟩ := (c54_write hX n).1 hn
  have hlt : beNat b < 2 ^ (64 * maxLimbs) := by
    rw [b2, natAbs_toInt, ← W64_pow]; exact hX.mag_lt
  obtain ⟨R, r1, r2, r3⟩ := (c54_read hY b).1 hlt
  refine ⟨b, R, b1, r1, r2, by rw [r3, b2], fun h => ?_⟩
  rw [r3, b2]; omega

/-- The sign is not written. -/
theorem c54_sign_false : ∃ X b R, Mpi.WF X ∧ writeBinary X (size X) = .ok b ∧ readBinary Mpi.null b = .ok R ∧ R.toInt ≠ X.toInt := by
  obtain ⟨b, R, h1, h2, -, h3, -⟩ := c54_roundtrip exA_WF Mpi.null_WF (le_refl (size exA))
  refine ⟨exA, b, R, exA_WF, h1, h2, ?_⟩
  rw [h3, exA_val]; decide

/-- The functions of the RSA model and of the ASN.1 model are these ones. -/
theorem c54_model_write {X : Mpi} (hX : X.WF) (n : Nat) :
    writeBinary X n = (match mpiWrite X.mag n with | some b => .ok b | none => .err .tooSmall) := by
  rw [writeBinary_spec hX]
  unfold mpiWrite
  by_cases h : X.mag < 256 ^ n
  · rw [if_pos h, if_neg (by have := (mpiSize_le_iff X.mag n).2 h; omega)]
  · rw [if_neg h, if_pos (by by_contra hc; exact h ((mpiSize_le_iff X.mag n).1 (by omega)))]

theorem c54_model_read {X : Mpi} (hX : X.WF) (b : Bytes) :
    match Io.mpiRead b with
    | some v => ∃ R, readBinary X b = .ok R ∧ R.WF ∧ R.toInt = v
    | none => readBinary X b = .err .alloc := by
  have hd : b.dropWhile (· = 0) = b.dropWhile (· == 0) := by congr 1
  obtain ⟨h1, h2⟩ := readBinary_spec hX b
  have hiff : (b.dropWhile (· == 0)).length / 8 + (if (b.dropWhile (· == 0)).length % 8 ≠ 0 then 1 else 0) > 10000 ↔
      8 * maxLimbs < (b.dropWhile (· == 0)).length := by
    have : maxLimbs = 10000 := rfl
    split <;> omega
  unfold Io.mpiRead
  simp only [hd]
  by_cases h : 8 * maxLimbs < (b.dropWhile (· == 0)).length
  · rw [if_pos (hiff.2 h)]
    exact h2 h
  · rw [if_neg (fun hc => h (hiff.1 hc))]
    obtain ⟨R, r1, r2, r3, r4, -⟩ := h1 (by omega)
    exact ⟨R, r1, r2, by unfold Mpi.toInt; rw [r4, r3]; rfl⟩

example : ∃ b R, writeBinary exB 20 = .ok b ∧ readBinary exA b = .ok R ∧ R.toInt = 2 ^ 128 - 1 := by
  obtain ⟨b, R, h1, h2, -, -, h3⟩ := c54_roundtrip exB_WF exA_WF (n := 20) (by decide)
  exact ⟨b, R, h1, h2, by rw [h3 (by decide), exB_val]⟩

example : writeBinary exB 15 = .err .tooSmall := (c54_write exB_WF 15).2 (by decide)

/-! ## C55: arithmetic -/

/-- `mbedtls_mpi_add_mpi`: the sum, or an allocation error exactly if it does not fit into the largest object. -/
theorem c55_add {X : Mpi} {A B : Arg} (hX : X.WF) (hA : A.WF) (hB : B.WF) :
    (((A.get X).toInt + (B.get X).toInt).natAbs < W64 ^ maxLimbs →
      ∃ R, addMpi X A B = .ok R ∧ R.WF ∧ R.toInt = (A.get X).toInt + (B.get X).toInt) ∧
    (W64 ^ maxLimbs ≤ ((A.get X).toInt + (B.get X).toInt).natAbs → addMpi X A B = .err .alloc) := addMpi_spec hX hA hB

/-- `mbedtls_mpi_sub_mpi`. -/
theorem c55_sub {X : Mpi} {A B : Arg} (hX : X.WF) (hA : A.WF) (hB : B.WF) :
    (((A.get X).toInt - (B.get X).toInt).natAbs < W64 ^ maxLimbs →
      ∃ R, subMpi X A B = .ok R ∧ R.WF ∧ R.toInt = (A.get X).toInt - (B.get X).toInt) ∧
    (W64 ^ maxLimbs ≤ ((A.get X).toInt - (B.get X).toInt).natAbs → subMpi X A B = .err .alloc) := subMpi_spec hX hA hB

/-- `mbedtls_mpi_add_int` and `mbedtls_mpi_sub_int` (the least 64-bit integer excepted, where `-b` overflows). -/
theorem c55_add_int {X : Mpi} {A : Arg} (hX : X.WF) (hA : A.WF) {b : Int} (hb : b.natAbs < 2 ^ 63)
    (hf : ((A.get X).toInt + b).natAbs < W64 ^ maxLimbs) : ∃ R, addInt X A b = .ok R ∧ R.WF ∧ R.toInt = (A.get X).toInt + b := by
  have hB : (Arg.ext (small b)).WF := small_WF (by omega)
  have := (addMpi_spec hX hA hB).1
  simp only [Arg.get, small_toInt] at this
  exact this hf

theorem c55_sub_int {X : Mpi} {A : Arg} (hX : X.WF) (hA : A.WF) {b : Int} (hb : b.natAbs < 2 ^ 63)
    (hf : ((A.get X).toInt - b).natAbs < W64 ^ maxLimbs) : ∃ R, subInt X A b = .ok R ∧ R.WF ∧ R.toInt = (A.get X).toInt - b := by
  have hB : (Arg.ext (small b)).WF := small_WF (by omega)
  have := (subMpi_spec hX hA hB).1
  simp only [Arg.get, small_toInt] at this
  exact this hf

/-- `mbedtls_mpi_add_abs` and `mbedtls_mpi_sub_abs` work on absolute values. -/
theorem c55_abs {X : Mpi} {A B : Arg} (hX : X.WF) (hA : A.WF) (hB : B.WF) :
    ((A.get X).toInt.natAbs + (B.get X).toInt.natAbs < W64 ^ maxLimbs →
      ∃ R, addAbs X A B = .ok R ∧ R.WF ∧ R.toInt = (A.get X).toInt.natAbs + (B.get X).toInt.natAbs) ∧
    ((B.get X).toInt.natAbs ≤ (A.get X).toInt.natAbs →
      ∃ R, subAbs X A B = .ok R ∧ R.WF ∧ R.toInt = (A.get X).toInt.natAbs - (B.get X).toInt.natAbs) ∧
    ((A.get X).toInt.natAbs < (B.get X).toInt.natAbs → subAbs X A B = .err .negative) := by
  simp only [natAbs_toInt]
  refine ⟨fun h => ?_, fun h => ?_, (subAbs_spec hX hA hB).2⟩
  · obtain ⟨R, r1, r2, r3, r4⟩ := (addAbs_spec hX hA hB).1 h
    exact ⟨R, r1, r2, by rw [toInt_pos r4, r3]; push_cast; rfl⟩
  · obtain ⟨R, r1, r2, r3, r4⟩ := (subAbs_spec hX hA hB).1 h
    exact ⟨R, r1, r2, by rw [toInt_pos r4]; omega⟩

/-- `mbedtls_mpi_mul_mpi`: the product, or an allocation error exactly if the numbers of significant limbs add up to more than the maximum. -/
theorem c55_mul {X : Mpi} {A B : Arg} (hX : X.WF) (hA : A.WF) (hB : B.WF) :
    (limbs (A.get X).toInt.natAbs + limbs (B.get X).toInt.natAbs ≤ maxLimbs →
      ∃ R, mulMpi X A B = .ok R ∧ R.WF ∧ R.toInt = (A.get X).toInt * (B.get X).toInt) ∧
    (maxLimbs < limbs (A.get X).toInt.natAbs + limbs (B.get X).toInt.natAbs → mulMpi X A B = .err .alloc) := by
  simp only [natAbs_toInt]
  refine ⟨fun h => ?_, (mulMpi_spec hX hA hB).2⟩
  obtain ⟨R, r1, r2, r3, -⟩ := (mulMpi_spec hX hA hB).1 h
  exact ⟨R, r1, r2, r3⟩

/-- The number of significant limbs is the least number of digits to the base 2^64. -/
theorem c55_limbs (n k : Nat) : limbs n ≤ k ↔ n < 2 ^ (64 * k) := by rw [limbs_le_iff, W64_pow]

/-- `mbedtls_mpi_mul_int`. -/
theorem c55_mul_int {X : Mpi} {A : Arg} (hX : X.WF) (hA : A.WF) {b : Nat} (hb : b < 2 ^ 64) (hl : limbs (A.get X).toInt.natAbs + 1 ≤ maxLimbs) :
    ∃ R, mulInt X A b = .ok R ∧ R.WF ∧ R.toInt = (A.get X).toInt * b := by
  rw [natAbs_toInt] at hl
  obtain ⟨R, r1, r2, r3, -⟩ := mulInt_spec hX hA hb hl
  exact ⟨R, r1, r2, r3⟩

/-- `mbedtls_mpi_bitlen`: the least number of bits that hold the absolute value. -/
theorem c55_bitlen {X : Mpi} (hX : X.WF) (k : Nat) : bitlenL X ≤ k ↔ X.toInt.natAbs < 2 ^ k := by
  rw [bitlenL_spec hX, natAbs_toInt, bitlen_le_iff]

/-- `mbedtls_mpi_shift_l`: multiplication by a power of two, or an allocation error exactly if the length in bits and the count add up to more
    than the maximum (for counts whose sum with the largest length does not overflow `size_t`). -/
theorem c55_shift_left {X : Mpi} (hX : X.WF) {count : Nat} (hc : 64 * maxLimbs + count < 2 ^ 64) :
    (bitlenL X + count ≤ 64 * maxLimbs → ∃ R, shiftL X count = .ok R ∧ R.WF ∧ R.toInt = X.toInt * 2 ^ count) ∧
    (64 * maxLimbs < bitlenL X + count → shiftL X count = .err .alloc) := by
  rw [bitlenL_spec hX]
  refine ⟨fun h => ?_, (shiftL_spec hX count hc).2⟩
  obtain ⟨R, r1, r2, r3, -⟩ := shiftL_toInt hX h
  exact ⟨R, r1, r2, r3⟩

/-- Without the bound on the count the sum overflows and the result is not the product: shifting 2^63 by 2^64 − 64 gives 0, because
    the object does not grow while all its limbs are moved out. -/
theorem c55_shift_left_false : ∃ X count, Mpi.WF X ∧ count < W64 ∧ ∃ R, shiftL X count = .ok R ∧ R.toInt ≠ X.toInt * 2 ^ count := by
  refine ⟨⟨false, [W64 / 2]⟩, W64 - 64, ⟨by unfold LOk; decide, by decide⟩, by decide, ⟨false, [0]⟩, by decide +kernel, ?_⟩
  have key : ∀ n : Nat, Mpi.toInt ⟨false, [0]⟩ ≠ Mpi.toInt ⟨false, [W64 / 2]⟩ * 2 ^ n := by
    intro n
    rw [show Mpi.toInt ⟨false, [0]⟩ = 0 from rfl]
    exact (mul_ne_zero (by decide) (pow_ne_zero _ (by decide))).symm
  exact key _

/-- `mbedtls_mpi_shift_r`: division of the absolute value by a power of two, for every count. -/
theorem c55_shift_right {X : Mpi} (hX : X.WF) (count : Nat) :
    ∃ R, shiftR X count = .ok R ∧ R.WF ∧ R.toInt = X.toInt.sign * ((X.toInt.natAbs / 2 ^ count : Nat) : Int) := by
  obtain ⟨R, r1, r2, -, -, r3⟩ := shiftR_spec hX count
  refine ⟨R, r1, r2, ?_⟩
  rw [r3, natAbs_toInt]
  by_cases h0 : X.mag = 0
  · rw [h0]; simp
  · unfold Mpi.toInt
    cases X.neg with
    | false =>
      simp only [Bool.false_eq_true, if_false]
      rw [Int.sign_eq_one_of_pos (by omega), Int.one_mul]
    | true =>
      simp only [if_true]
      rw [Int.sign_eq_neg_one_of_neg (by omega), Int.neg_one_mul]

/-- `mbedtls_mpi_cmp_mpi`, `mbedtls_mpi_cmp_abs` and `mbedtls_mpi_cmp_int` return the sign of the difference. -/
theorem c55_compare {X Y : Mpi} (hX : X.WF) (hY : Y.WF) :
    cmpMpi X Y = (X.toInt - Y.toInt).sign ∧ cmpAbs X Y = ((X.toInt.natAbs : Int) - Y.toInt.natAbs).sign ∧
      ∀ z : Int, z.natAbs < 2 ^ 63 → cmpInt X z = (X.toInt - z).sign := by
  have hs : ∀ z : Int, sgn z = z.sign := by
    intro z
    unfold sgn
    rcases lt_trichotomy z 0 with h | h | h
    · rw [if_pos h, Int.sign_eq_neg_one_of_neg h]
    · rw [h]; rfl
    · rw [if_neg (by omega), if_neg (by omega), Int.sign_eq_one_of_pos h]
  refine ⟨by rw [cmpMpi_spec hX hY, hs], by rw [cmpAbs_spec hX hY, hs, natAbs_toInt, natAbs_toInt], fun z hz => ?_⟩
  rw [cmpInt_spec hX (by omega), hs]

/-- `mbedtls_mpi_get_bit` and `mbedtls_mpi_lsb`. -/
theorem c55_bits {X : Mpi} (hX : X.WF) :
    (∀ pos, getBit X pos = if X.toInt.natAbs.testBit pos then 1 else 0) ∧
    (X.toInt ≠ 0 → X.toInt.natAbs.testBit (lsb X) = true ∧ ∀ i < lsb X, X.toInt.natAbs.testBit i = false) := by
  rw [natAbs_toInt]
  refine ⟨fun pos => ?_, fun h => ?_⟩
  · rw [getBit_spec hX, Nat.testBit_eq_decide_div_mod_eq]
    by_cases h : X.mag / 2 ^ pos % 2 = 1
    · rw [h]; simp
    · have : X.mag / 2 ^ pos % 2 = 0 := by omega
      rw [this]; simp
  · obtain ⟨m, m1, m2⟩ := lsb_spec hX (by rw [← natAbs_toInt]; omega)
    refine ⟨?_, fun i hi => ?_⟩
    · rw [m1, Nat.testBit_eq_decide_div_mod_eq, Nat.mul_div_cancel_left _ (Nat.pow_pos (by decide)), m2]; rfl
    · obtain ⟨j, hj⟩ : ∃ j, lsb X = i + (j + 1) := ⟨lsb X - i - 1, by omega⟩
      rw [m1, hj, Nat.testBit_eq_decide_div_mod_eq, pow_add, Nat.mul_assoc, Nat.mul_div_cancel_left _ (Nat.pow_pos (by decide)), pow_succ]
      have : 2 ^ j * 2 * m = 2 * (2 ^ j * m) := by ring
      rw [this]; simp

example : ∃ R, addMpi exA .self (.ext exB) = .ok R ∧ R.toInt = 2 ^ 128 - 2 ^ 64 - 6 := by
  obtain ⟨R, r1, -, r2⟩ := (c55_add exA_WF (A := .self) trivial (B := .ext exB) exB_WF).1
    (lt_of_lt_of_le (show _ < W64 ^ 2 by decide) (Nat.pow_le_pow_right (by decide) (by decide)))
  exact ⟨R, r1, by rw [r2]; decide⟩

example : ∃ R, subMpi exB (.ext exA) .self = .ok R ∧ R.toInt = -(2 ^ 128 + 2 ^ 64 + 4) := by
  obtain ⟨R, r1, -, r2⟩ := (c55_sub exB_WF (A := .ext exA) exA_WF (B := .self) trivial).1
    (lt_of_lt_of_le (show _ < W64 ^ 3 by decide) (Nat.pow_le_pow_right (by decide) (by decide)))
  exact ⟨R, r1, by rw [r2]; decide⟩

example : ∃ R, mulMpi exA .self .self = .ok R ∧ R.toInt = (2 ^ 64 + 5) ^ 2 := by
  obtain ⟨R, r1, -, r2⟩ := (c55_mul exA_WF (A := .self) trivial (B := .self) trivial).1 (by
    have : limbs (Arg.get exA .self).toInt.natAbs ≤ 2 := by rw [c55_limbs]; decide
    have : maxLimbs = 10000 := rfl
    omega)
  exact ⟨R, r1, by rw [r2]; decide⟩

example : ∃ R, shiftL exA 70 = .ok R ∧ R.toInt = -((2 ^ 64 + 5) * 2 ^ 70) := by
  obtain ⟨R, r1, -, r2⟩ := (c55_shift_left exA_WF (count := 70) (by decide)).1 (by
    have := (c55_bitlen exA_WF 65).2 (by decide)
    have : maxLimbs = 10000 := rfl
    omega)
  exact ⟨R, r1, by rw [r2]; decide⟩

example : ∃ R, shiftR exA 1 = .ok R ∧ R.toInt = -(2 ^ 63 + 2) := by
  obtain ⟨R, r1, -, r2⟩ := c55_shift_right exA_WF 1
  exact ⟨R, r1, by rw [r2]; decide⟩

example : cmpMpi exA exB = -1 := by rw [(c55_compare exA_WF exB_WF).1]; decide

/-! ## C63: division -/

/-- `mbedtls_mpi_div_mpi` returns the quotient rounded towards zero and the remainder with the sign of the dividend.  Either destination may
    be missing; the remainder may be written to the dividend itself. -/
theorem c63_div {A B : Mpi} {Q R : Option Mpi} {ra : Bool} (hA : A.WF) (hB : B.WF) (hQ : OptWF Q) (hR : OptWF R) (hra : ra = true → R = some A)
    (hB0 : B.toInt ≠ 0) (hl : A.p.length + 2 ≤ maxLimbs) :
    ∃ Q' R', divMpi false ra Q R A B = .ok (Q', R') ∧ Got Q Q' (A.toInt.tdiv B.toInt) ∧ Got R R' (A.toInt.tmod B.toInt) := by
  obtain ⟨Q', R', h1, h2, h3, -, -⟩ := divMpi_spec hA hB hQ hR hra hB0 hl
  exact ⟨Q', R', h1, h2, h3⟩

/-- Division by zero is refused. -/
theorem c63_div_zero {A B : Mpi} (hB : B.WF) (hB0 : B.toInt = 0) (qa ra : Bool) (Q R : Option Mpi) : divMpi qa ra Q R A B = .err .divZero := by
  unfold divMpi
  rw [if_pos ((cmpInt_zero_iff hB).2 (by rw [← natAbs_toInt, hB0]; rfl))]

/-- A dividend with more than `MBEDTLS_MPI_MAX_LIMBS - 2` limbs is refused with an allocation error (unless it is smaller than the divisor). -/
theorem c63_div_long {A B : Mpi} {Q R : Option Mpi} {qa ra : Bool} (hA : A.WF) (hB : B.WF) (hB0 : B.toInt ≠ 0)
    (hAB : B.toInt.natAbs ≤ A.toInt.natAbs) (hl : maxLimbs < A.p.length + 2) : divMpi qa ra Q R A B = .err .alloc := by
  rw [natAbs_toInt, natAbs_toInt] at hAB
  unfold divMpi
  rw [if_neg (by rw [cmpInt_zero_iff hB, ← natAbs_toInt]; omega), cmpAbs_spec hA hB, if_neg (by unfold sgn; split_ifs <;> omega)]
  obtain ⟨X0, x1, -⟩ := copy_spec Mpi.null_WF hA
  obtain ⟨Y0, y1, -⟩ := copy_spec Mpi.null_WF hB
  unfold divCore divPrep
  simp only [x1, y1, Out.bind_ok, (grow_spec Mpi.null Mpi.null_WF (A.p.length + 2)).2 hl, Out.bind_err]

example : ∃ Q R, divMpi false false (some Mpi.null) (some Mpi.null) exA ⟨false, [10]⟩ = .ok (some Q, some R) ∧ Q.toInt = -1844674407370955162 ∧
    R.toInt = -1 := by
  obtain ⟨Q', R', h1, h2, h3⟩ := c63_div (Q := some Mpi.null) (R := some Mpi.null) (ra := false) exA_WF (B := ⟨false, [10]⟩)
    ⟨by unfold LOk; decide, by decide⟩ Mpi.null_WF Mpi.null_WF (by decide) (by decide) (by decide)
  cases Q' with
  | none => exact h2.elim
  | some Q =>
    cases R' with
    | none => exact h3.elim
    | some R => exact ⟨Q, R, h1, by rw [h2.2]; decide, by rw [h3.2]; decide⟩

/-- `mbedtls_mpi_mod_mpi` returns the residue in `[0, B)`, also in place; a negative modulus and a zero modulus are refused. -/
theorem c63_mod {R B : Mpi} {A : Arg} (hR : R.WF) (hA : A.WF) (hB : B.WF) (hl : (A.get R).p.length + 2 ≤ maxLimbs) :
    (0 < B.toInt → ∃ S, modMpi R A B = .ok S ∧ S.WF ∧ S.toInt = (A.get R).toInt % B.toInt) ∧
    (B.toInt = 0 → modMpi R A B = .err .divZero) ∧ (B.toInt < 0 → modMpi R A B = .err .negative) := by
  refine ⟨fun h => ?_, fun h => ?_, fun h => ?_⟩
  · obtain ⟨S, s1, s2, s3, -, -⟩ := modMpi_spec hR hA hB h hl
    exact ⟨S, s1, s2, s3⟩
  · unfold modMpi
    rw [if_neg (by rw [(cmpInt_zero_iff hB).2 (by rw [← natAbs_toInt, h]; rfl)]; decide), c63_div_zero hB h]
    rfl
  · unfold modMpi
    rw [(c55_compare hB hB).2.2 0 (by decide), Int.sub_zero, Int.sign_eq_neg_one_of_neg h, if_pos (by decide)]

example : ∃ S, modMpi exA .self ⟨false, [0, 3]⟩ = .ok S ∧ S.toInt = 2 * 2 ^ 64 - 5 := by
  obtain ⟨S, s1, -, s2⟩ := (c63_mod exA_WF (A := .self) trivial (B := ⟨false, [0, 3]⟩) ⟨by unfold LOk; decide, by decide⟩ (by decide)).1 (by decide)
  exact ⟨S, s1, by rw [s2]; decide⟩

/-- The residue of the RSA model is this function. -/
theorem c63_model {R B : Mpi} {A : Arg} (hR : R.WF) (hA : A.WF) (hB : B.WF) (hB0 : 0 ≤ B.toInt) (hl : (A.get R).p.length + 2 ≤ maxLimbs) :
    match mpiMod (A.get R).toInt B.toInt.natAbs with
    | some v => ∃ S, modMpi R A B = .ok S ∧ S.WF ∧ S.toInt = v
    | none => modMpi R A B = .err .divZero := by
  obtain ⟨h1, h2, -⟩ := c63_mod hR hA hB hl
  unfold mpiMod
  by_cases h : B.toInt = 0
  · rw [if_pos (by omega)]
    exact h2 h
  · rw [if_neg (by omega)]
    obtain ⟨S, s1, s2, s3⟩ := h1 (by omega)
    refine ⟨S, s1, s2, ?_⟩
    have e : (B.toInt.natAbs : Int) = B.toInt := by omega
    rw [s3, e]
    have := Int.emod_nonneg (A.get R).toInt h
    omega

/-- `mbedtls_mpi_mod_int` returns the residue for divisors up to 2^32. -/
theorem c63_mod_int_partial {A : Mpi} (hA : A.WF) {b : Int} (hb : 0 < b) (hb2 : b ≤ 2 ^ 32) (hn : b = 2 → A.p ≠ []) :
    modInt A b = .ok (A.toInt % b).toNat := modInt_spec hA hb hb2 hn

example : modInt exA 1000003 = .ok 649311 := by
  rw [c63_mod_int_partial exA_WF (by decide) (by decide) (by decide)]; decide

/-- Above 2^32 it is wrong: the partial remainder is shifted out of the 64 bits. -/
theorem c63_mod_int_false : ∃ A b, Mpi.WF A ∧ 0 < b ∧ b < 2 ^ 63 ∧ modInt A b ≠ .ok (A.toInt % b).toNat := by
  refine ⟨⟨false, [0, 2 ^ 33]⟩, 2 ^ 62 - 1, ⟨by unfold LOk; decide, by decide⟩, by decide, by decide, ?_⟩
  decide +kernel

/-- Modulo 2, an integer without limbs is read through a null pointer. -/
theorem c63_mod_int_null_false : Mpi.WF Mpi.null ∧ modInt Mpi.null 2 = .ub := ⟨Mpi.null_WF, rfl⟩

/-- Writing the quotient over the dividend loses the sign of the dividend: −7 / 2 becomes 3, and the remainder becomes 1. -/
theorem c63_div_alias_false : ∃ Q' R', divMpi true false (some ⟨true, [7]⟩) (some Mpi.null) ⟨true, [7]⟩ ⟨false, [2]⟩ = .ok (some Q', some R') ∧
    Q'.toInt = 3 ∧ R'.toInt = 1 ∧ (-7 : Int).tdiv 2 = -3 ∧ (-7 : Int).tmod 2 = -1 :=
  ⟨⟨false, [3]⟩, ⟨false, [1]⟩, by decide +kernel, by decide, by decide, by decide, by decide⟩

/-- …and if the dividend is the smaller one, the remainder becomes 0. -/
theorem c63_div_alias_small_false : ∃ Q' R', divMpi true false (some ⟨false, [3]⟩) (some Mpi.null) ⟨false, [3]⟩ ⟨false, [5]⟩ = .ok (some Q', some R') ∧
    R'.toInt = 0 := ⟨_, _, rfl, rfl⟩

end Verif.Bignum
