import Verif.Bignum.PropsExp
import Verif.Bignum.PropsPrime

/-!
# Concrete cases of the theorems on `bignum.c` that have none beside them
-/

namespace Verif.Bignum.Examples

open Verif Verif.Bignum

def big : Mpi := ⟨false, List.replicate 9999 1⟩

theorem big_WF : big.WF := ⟨fun x hx => by rw [List.eq_of_mem_replicate hx]; decide, by show (List.replicate 9999 1).length ≤ maxLimbs; rw [List.length_replicate]; decide⟩

theorem pow_big {n k : Nat} (h : n < W64 ^ k) (hk : k ≤ maxLimbs) : n < W64 ^ maxLimbs := lt_of_lt_of_le h (Nat.pow_le_pow_right (by decide) hk)

/-! ## C54 -/

example : size exB = 16 := by
  have h := (c54_size exB_WF 16).2 (by decide)
  have h' := (c54_size exB_WF 15).not.2 (by decide)
  omega

example : ∃ R, readBinary exA [0, 0, 1, 2, 3, 4, 5, 6, 7, 8, 9] = .ok R ∧ R.WF ∧ R.toInt = 18591708106338011145 :=
  (c54_read exA_WF [0, 0, 1, 2, 3, 4, 5, 6, 7, 8, 9]).1 (lt_of_lt_of_le (show _ < 2 ^ 128 by decide) (Nat.pow_le_pow_right (by decide) (by decide)))

example : readBinary exA ([0, 0, 0] ++ [1, 2]) = readBinary exA [1, 2] := c54_zeros exA 3 [1, 2]

example : writeBinary exB 17 = .ok (0 :: List.replicate 16 255) := by
  rw [c54_model_write exB_WF 17]
  decide +kernel

example : ∃ R, readBinary exB [1, 0, 0] = .ok R ∧ R.WF ∧ R.toInt = (65536 : Nat) := c54_model_read exB_WF [1, 0, 0]

/-! ## C55 -/

example : ∃ R, addInt exA .self (-7) = .ok R ∧ R.WF ∧ R.toInt = exA.toInt + -7 :=
  c55_add_int exA_WF (A := .self) trivial (b := -7) (by decide) (pow_big (k := 2) (by decide) (by decide))

example : ∃ R, subInt exB (.ext exA) (-9223372036854775807) = .ok R ∧ R.WF ∧ R.toInt = exA.toInt - -9223372036854775807 :=
  c55_sub_int exB_WF (A := .ext exA) exA_WF (b := -9223372036854775807) (by decide) (pow_big (k := 2) (by decide) (by decide))

example : (∃ R, addAbs exA .self (.ext exB) = .ok R ∧ R.WF ∧ R.toInt = (2 ^ 64 + 5 : Nat) + (2 ^ 128 - 1 : Nat)) ∧
    (∃ R, subAbs exA (.ext exB) .self = .ok R ∧ R.WF ∧ R.toInt = (2 ^ 128 - 1 : Nat) - (2 ^ 64 + 5 : Nat)) ∧ subAbs exA .self (.ext exB) = .err .negative :=
  ⟨(c55_abs exA_WF (A := .self) trivial (B := .ext exB) exB_WF).1 (pow_big (k := 3) (by decide) (by decide)),
    (c55_abs exA_WF (A := .ext exB) exB_WF (B := .self) trivial).2.1 (by decide), (c55_abs exA_WF (A := .self) trivial (B := .ext exB) exB_WF).2.2 (by decide)⟩

example : ∃ R, mulInt exA .self 18446744073709551615 = .ok R ∧ R.WF ∧ R.toInt = exA.toInt * (18446744073709551615 : Nat) :=
  c55_mul_int exA_WF (A := .self) trivial (b := 18446744073709551615) (by decide) (by
    have : limbs (Arg.get exA .self).toInt.natAbs ≤ 2 := by rw [c55_limbs]; decide
    have : maxLimbs = 10000 := rfl
    omega)

example : getBit exA 64 = 1 ∧ getBit exA 3 = 0 := by
  rw [(c55_bits exA_WF).1, (c55_bits exA_WF).1]
  decide +kernel

example : (2 ^ 64 + 5).testBit (lsb exA) = true ∧ ∀ i < lsb exA, (2 ^ 64 + 5).testBit i = false := (c55_bits exA_WF).2 (by decide)

/-! ## C56 -/

example : ∃ R rr', expMod Mpi.null (.ext exP) ⟨false, [0, 1]⟩ exB (some Mpi.null) = .ok (R, rr') ∧ R.WF ∧
    R.toInt ≡ (Arg.get Mpi.null (.ext exP)).toInt ^ (Mpi.toInt ⟨false, [0, 1]⟩).toNat [ZMOD exB.toInt] ∧ 0 ≤ R.toInt ∧ R.toInt ≤ exB.toInt :=
  c56_exp_congruent_partial exp_args_example

/-- A negative modulus, an even one, a negative exponent. -/
example : expMod Mpi.null (.ext exP) exP exA none = .err .badInput ∧ expMod Mpi.null (.ext exP) exP ⟨false, [6]⟩ none = .err .badInput ∧
    expMod Mpi.null (.ext exP) exA exB none = .err .badInput :=
  ⟨(c56_exp_refuse exP_WF exA_WF).1 (by decide), (c56_exp_refuse exP_WF (N := ⟨false, [6]⟩) ⟨by unfold LOk; decide, by decide⟩).2.1 (by decide) (by decide),
    (c56_exp_refuse exA_WF exB_WF).2.2 (by decide) (by decide)⟩

example : ∃ R rr', expMod Mpi.null (.ext ⟨false, [3]⟩) ⟨false, [100]⟩ ⟨false, [101]⟩ none = .ok (R, rr') ∧ R.WF ∧ R.toInt = (1 : Nat) ∧ CacheOk ⟨false, [101]⟩ rr' := by
  have h := c56_model_exp (X := Mpi.null) (A := .ext ⟨false, [3]⟩) (E := ⟨false, [100]⟩) (N := ⟨false, [101]⟩) (rr := none) Mpi.null_WF
    ⟨by unfold LOk; decide, by decide⟩ ⟨by unfold LOk; decide, by decide⟩ ⟨by unfold LOk; decide, by decide⟩ rfl (by decide) (by decide) (by decide) (by decide) (by decide)
    (fun m h => by cases h; decide) (fun m h => by cases h)
  rw [show Verif.Tdp.mpiExpMod (Arg.get Mpi.null (.ext ⟨false, [3]⟩)).toInt.toNat (Mpi.toInt ⟨false, [100]⟩).toNat (Mpi.toInt ⟨false, [101]⟩).toNat = some 1 by decide +kernel] at h
  exact h

example : (12 : Int) = 12 := c56_inv_unique (a := 3) (n := 35) (x := 12) (y := 12) (by decide) (by decide) (by decide) (by decide)

example : ∃ R, invMod Mpi.null ⟨false, [3]⟩ ⟨false, [35]⟩ = .ok R ∧ R.WF ∧ R.toInt = (12 : Nat) := by
  have h := c56_model_inv (X := Mpi.null) (A := ⟨false, [3]⟩) (N := ⟨false, [35]⟩) Mpi.null_WF ⟨by unfold LOk; decide, by decide⟩ ⟨by unfold LOk; decide, by decide⟩
    (by decide) (by decide) (by decide) (by
      have : (35 : Int) < 2 ^ 64 := by decide
      have : (2 : Int) ^ 64 ≤ 2 ^ (64 * 9999) := pow_le_pow_right₀ (by decide) (by decide)
      show (35 : Int) < _
      omega)
  rw [show Verif.Tdp.mpiInv (Mpi.toInt ⟨false, [3]⟩).toNat (Mpi.toInt ⟨false, [35]⟩).toNat = some 12 by decide +kernel] at h
  exact h

example : ∃ R, gcdMpi Mpi.null exA ⟨false, [0]⟩ = .ok R ∧ R.WF ∧ R.toInt = (Verif.Tdp.mpiGcd (2 ^ 64 + 5) 0 : Nat) :=
  c56_model_gcd Mpi.null_WF exA_WF (B := ⟨false, [0]⟩) ⟨by unfold LOk; decide, by decide⟩

/-! ## C63 -/

example : divMpi false false (some Mpi.null) none exA ⟨true, [0, 0]⟩ = .err .divZero :=
  c63_div_zero (B := ⟨true, [0, 0]⟩) ⟨by unfold LOk; decide, by decide⟩ (by decide) _ _ _ _

example : divMpi false false (some Mpi.null) none big ⟨false, [1]⟩ = .err .alloc :=
  c63_div_long big_WF (B := ⟨false, [1]⟩) ⟨by unfold LOk; decide, by decide⟩ (by decide) (by
    rw [show big = ⟨false, 1 :: List.replicate 9998 1⟩ from rfl, natAbs_toInt, natAbs_toInt]
    simp only [Mpi.mag, val]
    omega) (by show maxLimbs < (List.replicate 9999 1).length + 2; rw [List.length_replicate]; decide)

example : ∃ S, modMpi exA .self ⟨false, [10]⟩ = .ok S ∧ S.WF ∧ S.toInt = (9 : Nat) := by
  have h := c63_model exA_WF (A := .self) trivial (B := ⟨false, [10]⟩) ⟨by unfold LOk; decide, by decide⟩ (by decide) (by decide)
  rw [show Verif.Tdp.mpiMod (Arg.get exA .self).toInt (Mpi.toInt ⟨false, [10]⟩).natAbs = some 9 by decide] at h
  exact h

end Verif.Bignum.Examples
