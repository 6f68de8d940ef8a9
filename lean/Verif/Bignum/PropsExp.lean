import Verif.Bignum.Inv
import Verif.Bignum.Props

/-!
# Properties of modular exponentiation, greatest common divisor and modular inverse (C56)
-/

namespace Verif.Bignum

open Verif
open Verif.Tdp (bitlen mpiSize mpiWrite mpiMod mpiExpMod mpiGcd mpiInv)

/-! ## Exponentiation -/

/-- What the arguments of `mbedtls_mpi_exp_mod` have to satisfy: an odd modulus, a non-negative exponent, sizes within the limit of the library,
    a base with limbs, and a cache that is empty or was filled for this modulus. -/
structure ExpArgs (X : Mpi) (A : Arg) (E N : Mpi) (rr : Option Mpi) : Prop where
  wX : X.WF
  wA : A.WF
  wE : E.WF
  wN : N.WF
  pos : 0 < N.toInt
  odd : N.toInt % 2 = 1
  exp : 0 ≤ E.toInt
  lenN : N.p.length ≤ 4998
  lenA : (A.get X).p.length ≤ 9998
  base : ∀ m, A = .ext m → m.p ≠ []
  cache : CacheOk N rr

theorem ExpArgs.run {X : Mpi} {A : Arg} {E N : Mpi} {rr : Option Mpi} (h : ExpArgs X A E N rr) :
    ∃ R rr', expMod X A E N rr = .ok (R, rr') ∧ R.WF ∧ R.toInt = expVal (A.get X) E N ∧ CacheOk N rr' ∧ rr'.isSome = rr.isSome := by
  have hp := h.pos
  have ho := h.odd
  have hm := toInt_of_nonneg hp.le
  exact expMod_spec h.wX h.wA h.wE h.wN hp (by omega) h.exp h.lenN (by have := h.lenA; unfold maxLimbs; omega) h.base h.cache

/-- For a base that is not negative the result is the power modulo `N`, also in place; a cache that is passed can be used for the next call
    with this modulus. -/
theorem c56_exp {X : Mpi} {A : Arg} {E N : Mpi} {rr : Option Mpi} (h : ExpArgs X A E N rr) (hn : (A.get X).neg = false) :
    ∃ R rr', expMod X A E N rr = .ok (R, rr') ∧ R.WF ∧ R.toInt = (A.get X).toInt ^ E.toInt.toNat % N.toInt ∧ CacheOk N rr' ∧
      rr'.isSome = rr.isSome := by
  obtain ⟨R, rr', h1, h2, h3, h4, h5⟩ := h.run
  refine ⟨R, rr', h1, h2, ?_, h4, h5⟩
  rw [h3]
  unfold expVal
  rw [if_neg (by rw [hn]; exact fun h => absurd h.1 (by decide)), toInt_pos hn, toInt_of_nonneg h.pos.le, toInt_of_nonneg h.exp]
  simp

/-- For every base the result is congruent to the power and lies between 0 and `N`. -/
theorem c56_exp_congruent_partial {X : Mpi} {A : Arg} {E N : Mpi} {rr : Option Mpi} (h : ExpArgs X A E N rr) :
    ∃ R rr', expMod X A E N rr = .ok (R, rr') ∧ R.WF ∧ R.toInt ≡ (A.get X).toInt ^ E.toInt.toNat [ZMOD N.toInt] ∧ 0 ≤ R.toInt ∧ R.toInt ≤ N.toInt := by
  obtain ⟨R, rr', h1, h2, h3, -, -⟩ := h.run
  refine ⟨R, rr', h1, h2, ?_⟩
  have hNm := toInt_of_nonneg h.pos.le
  have hpos := h.pos
  have hlt : (A.get X).mag ^ E.mag % N.mag < N.mag := Nat.mod_lt _ (by omega)
  have hcong : (((A.get X).mag ^ E.mag % N.mag : Nat) : Int) ≡ ((A.get X).mag : Int) ^ E.mag [ZMOD N.toInt] := by
    rw [hNm]
    push_cast
    exact Int.mod_modEq _ _
  have hEm : E.toInt.toNat = E.mag := by rw [toInt_of_nonneg h.exp]; simp
  rw [hEm, h3]
  unfold expVal
  by_cases hneg : (A.get X).neg = true
  · have hA : (A.get X).toInt = -((A.get X).mag : Int) := by unfold Mpi.toInt; rw [hneg]; rfl
    rw [hA]
    by_cases hodd : E.mag % 2 = 1
    · rw [if_pos ⟨hneg, hodd⟩, (Nat.odd_iff.2 hodd).neg_pow]
      refine ⟨?_, by omega, by omega⟩
      have h0 : (N.mag : Int) ≡ 0 [ZMOD N.toInt] := by rw [hNm]; exact Int.emod_self
      have := h0.sub hcong
      rwa [Int.zero_sub] at this
    · rw [if_neg (fun hc => hodd hc.2), (Nat.even_iff.2 (by omega)).neg_pow]
      exact ⟨hcong, by omega, by omega⟩
  · have hA : (A.get X).toInt = ((A.get X).mag : Int) := toInt_pos (by simpa using hneg)
    rw [hA, if_neg (fun hc => hneg hc.1)]
    exact ⟨hcong, by omega, by omega⟩

/-- Even and negative moduli and negative exponents are refused. -/
theorem c56_exp_refuse {X : Mpi} {A : Arg} {E N : Mpi} {rr : Option Mpi} (hE : E.WF) (hN : N.WF) :
    (N.toInt < 0 → expMod X A E N rr = .err .badInput) ∧ (N.toInt % 2 = 0 → N.p ≠ [] → expMod X A E N rr = .err .badInput) ∧
    (N.toInt % 2 = 1 → E.toInt < 0 → expMod X A E N rr = .err .badInput) := by
  have hneg : N.toInt < 0 → expMod X A E N rr = .err .badInput := by
    intro h
    unfold expMod
    rw [cmpInt_spec hN (by decide), if_pos (by unfold sgn; split_ifs <;> omega)]
  refine ⟨hneg, ?_, ?_⟩
  · intro h hne
    by_cases h0 : N.toInt < 0
    · exact hneg h0
    · unfold expMod
      have he := (even_mag N).2 h
      rw [cmpInt_spec hN (by decide), if_neg (by unfold sgn; split_ifs <;> omega), read_low hne, Out.bind_ok, odd_limb hN, if_pos he]
  · intro h hE0
    by_cases h0 : N.toInt < 0
    · exact hneg h0
    · unfold expMod
      have he : N.mag % 2 = 1 := by rw [toInt_of_nonneg (by omega)] at h; omega
      rw [cmpInt_spec hN (by decide), if_neg (by unfold sgn; split_ifs <;> omega), read_low (nonnil_of_mag (by omega)), Out.bind_ok, odd_limb hN,
        if_neg (by omega), cmpInt_spec hE (by decide), if_pos (by unfold sgn; split_ifs <;> omega)]

/-- The base of the examples, 2^64 + 5, the modulus 2^128 − 1. -/
def exP : Mpi := ⟨false, [5, 1, 0, 0]⟩

theorem exP_WF : exP.WF := ⟨by unfold LOk; decide, by decide⟩

theorem exp_args_example : ExpArgs Mpi.null (.ext exP) ⟨false, [0, 1]⟩ exB (some Mpi.null) where
  wX := Mpi.null_WF
  wA := exP_WF
  wE := ⟨by unfold LOk; decide, by decide⟩
  wN := exB_WF
  pos := by decide
  odd := by decide
  exp := by decide
  lenN := by decide
  lenA := by decide
  base := by intro m h; injection h with h; rw [← h]; decide
  cache := by intro m h; injection h with h; rw [← h]; intro h0; exact absurd rfl h0

/-- (2^64 + 5)^(2^64) modulo 2^128 − 1, with an empty cache that is filled. -/
example : ∃ R rr', expMod Mpi.null (.ext exP) ⟨false, [0, 1]⟩ exB (some Mpi.null) = .ok (R, rr') ∧ R.toInt = (2 ^ 64 + 5) ^ (2 ^ 64) % (2 ^ 128 - 1) := by
  obtain ⟨R, rr', h1, -, h2, -⟩ := c56_exp exp_args_example rfl
  refine ⟨R, rr', h1, ?_⟩
  rw [h2, show exB.toInt = 2 ^ 128 - 1 from exB_val, show (Arg.get Mpi.null (.ext exP)).toInt = 2 ^ 64 + 5 by decide,
    show (Mpi.toInt ⟨false, [0, 1]⟩).toNat = 2 ^ 64 by decide]

/-- The result for a negative base is not always the residue: (−3)^1 modulo 3 gives 3. -/
theorem c56_exp_negative_false : ∃ R, expMod Mpi.null (.ext ⟨true, [3]⟩) ⟨false, [1]⟩ ⟨false, [3]⟩ none = .ok (R, none) ∧ R.toInt = 3 := by
  obtain ⟨R, rr', h1, -, h2, -, h3⟩ := ExpArgs.run (X := Mpi.null) (A := .ext ⟨true, [3]⟩) (E := ⟨false, [1]⟩) (N := ⟨false, [3]⟩) (rr := none)
    ⟨Mpi.null_WF, ⟨by unfold LOk; decide, by decide⟩, ⟨by unfold LOk; decide, by decide⟩, ⟨by unfold LOk; decide, by decide⟩, by decide, by decide,
      by decide, by decide, by decide, by intro m h; injection h with h; rw [← h]; decide, by intro m h; cases h⟩
  cases rr' with
  | some x => simp at h3
  | none => exact ⟨R, h1, by rw [h2]; decide⟩

/-- A base without limbs (a zero that was never written) is dereferenced. -/
theorem c56_exp_null_false : expMod Mpi.null (.ext Mpi.null) ⟨false, [1]⟩ ⟨false, [3]⟩ none = .ub := by decide +kernel

/-- The exponentiation of the RSA model is this function. -/
theorem c56_model_exp {X : Mpi} {A : Arg} {E N : Mpi} {rr : Option Mpi} (hX : X.WF) (hA : A.WF) (hE : E.WF) (hN : N.WF) (hA0 : (A.get X).neg = false)
    (hN0 : 0 ≤ N.toInt) (hNne : N.p ≠ []) (hE0 : 0 ≤ E.toInt) (hlN : N.p.length ≤ 4998) (hlA : (A.get X).p.length ≤ 9998)
    (hb : ∀ m, A = .ext m → m.p ≠ []) (hc : CacheOk N rr) :
    match mpiExpMod (A.get X).toInt.toNat E.toInt.toNat N.toInt.toNat with
    | some v => ∃ R rr', expMod X A E N rr = .ok (R, rr') ∧ R.WF ∧ R.toInt = v ∧ CacheOk N rr'
    | none => expMod X A E N rr = .err .badInput := by
  have hNm := toInt_of_nonneg hN0
  unfold mpiExpMod
  by_cases he : N.toInt % 2 = 0
  · rw [if_pos (by omega)]
    exact (c56_exp_refuse hE hN).2.1 he hNne
  · rw [if_neg (by omega)]
    obtain ⟨R, rr', h1, h2, h3, h4, -⟩ := c56_exp ⟨hX, hA, hE, hN, by omega, by omega, hE0, hlN, hlA, hb, hc⟩ hA0
    refine ⟨R, rr', h1, h2, ?_, h4⟩
    rw [h3, hNm, toInt_pos hA0]
    simp

/-! ## Greatest common divisor -/

/-- For `B ≠ 0` the result is the greatest common divisor of the absolute values. -/
theorem c56_gcd_partial {G A B : Mpi} (hG : G.WF) (hA : A.WF) (hB : B.WF) (hB0 : B.toInt ≠ 0) :
    ∃ R, gcdMpi G A B = .ok R ∧ R.WF ∧ R.toInt = Int.gcd A.toInt B.toInt := by
  obtain ⟨R, h1, h2, h3⟩ := gcdMpi_spec hG hA hB
  refine ⟨R, h1, h2, ?_⟩
  rw [h3, Int.gcd_def, natAbs_toInt, natAbs_toInt]
  unfold gcdVal
  rw [if_neg (fun h => hB0 (by rw [← natAbs_toInt] at h; omega))]

example : ∃ R, gcdMpi Mpi.null exA exB = .ok R ∧ R.toInt = 3 := by
  obtain ⟨R, h1, -, h2⟩ := c56_gcd_partial Mpi.null_WF exA_WF exB_WF (by decide)
  exact ⟨R, h1, by rw [h2]; decide +kernel⟩

/-- For `B = 0` the result is 0, not the absolute value of `A`. -/
theorem c56_gcd_zero_false {G A B : Mpi} (hG : G.WF) (hA : A.WF) (hB : B.WF) (hB0 : B.toInt = 0) : ∃ R, gcdMpi G A B = .ok R ∧ R.toInt = 0 := by
  obtain ⟨R, h1, -, h3⟩ := gcdMpi_spec hG hA hB
  refine ⟨R, h1, ?_⟩
  rw [h3]
  unfold gcdVal
  rw [if_pos (by rw [← natAbs_toInt, hB0]; rfl)]
  rfl

example : ∃ R, gcdMpi Mpi.null exA ⟨false, [0]⟩ = .ok R ∧ R.toInt = 0 :=
  c56_gcd_zero_false Mpi.null_WF exA_WF ⟨by unfold LOk; decide, by decide⟩ (by decide)

/-- The greatest common divisor of the RSA model is this function. -/
theorem c56_model_gcd {G A B : Mpi} (hG : G.WF) (hA : A.WF) (hB : B.WF) :
    ∃ R, gcdMpi G A B = .ok R ∧ R.WF ∧ R.toInt = mpiGcd A.toInt.natAbs B.toInt.natAbs := by
  obtain ⟨R, h1, h2, h3⟩ := gcdMpi_spec hG hA hB
  refine ⟨R, h1, h2, ?_⟩
  rw [h3, natAbs_toInt, natAbs_toInt]
  rfl

/-! ## Modular inverse -/

/-- The result is the inverse in `[0, N)` if there is one; otherwise the function reports it.  A modulus below 2 is refused.  The modulus needs
    at most one limb less than the limit. -/
theorem c56_inv {X A N : Mpi} (hX : X.WF) (hA : A.WF) (hN : N.WF) (hlA : A.p.length ≤ 9998) (hN2 : N.toInt < 2 ^ (64 * 9999)) :
    (1 < N.toInt → Int.gcd A.toInt N.toInt = 1 →
      ∃ R, invMod X A N = .ok R ∧ R.WF ∧ 0 ≤ R.toInt ∧ R.toInt < N.toInt ∧ A.toInt * R.toInt % N.toInt = 1) ∧
    (1 < N.toInt → Int.gcd A.toInt N.toInt ≠ 1 → invMod X A N = .err .notAcceptable) ∧
    (N.toInt ≤ 1 → invMod X A N = .err .badInput) := by
  have hg : Int.gcd A.toInt N.toInt = Nat.gcd A.mag N.mag := by rw [Int.gcd_def, natAbs_toInt, natAbs_toInt]
  refine ⟨fun h1 h2 => ?_, fun h1 h2 => invMod_gcd hA hN h1 (by rw [← hg]; exact h2), fun h => invMod_small hN h⟩
  refine invMod_spec hX hA hN h1 (by rw [← hg]; exact h2) (by unfold maxLimbs; omega) ?_
  have hm := toInt_of_nonneg (X := N) (by omega)
  rw [hm] at hN2
  have hlt : N.mag < W64 ^ 9999 := by
    rw [W64_pow]
    generalize 64 * 9999 = k at *
    exact_mod_cast hN2
  have e : W64 ^ maxLimbs = W64 * W64 ^ 9999 := by
    unfold maxLimbs
    rw [← pow_succ']
  rw [e]
  exact Nat.mul_le_mul_left _ hlt.le

/-- The inverse is the only one. -/
theorem c56_inv_unique {a n x y : Int} (hx : 0 ≤ x ∧ x < n) (hy : 0 ≤ y ∧ y < n) (h1 : a * x % n = 1) (h2 : a * y % n = 1) : x = y := by
  have e1 : a * x ≡ 1 [ZMOD n] := by
    have h3 := Int.emod_emod_of_dvd (a * x) (dvd_refl n)
    rw [h1] at h3
    unfold Int.ModEq
    rw [h1, h3]
  have e2 : a * y ≡ 1 [ZMOD n] := by
    have h3 := Int.emod_emod_of_dvd (a * y) (dvd_refl n)
    rw [h2] at h3
    unfold Int.ModEq
    rw [h2, h3]
  have e3 : x ≡ y [ZMOD n] := by
    calc x ≡ x * (a * y) [ZMOD n] := by simpa using (e2.mul_left x).symm
      _ = y * (a * x) := by ring
      _ ≡ y [ZMOD n] := by simpa using e1.mul_left y
  unfold Int.ModEq at e3
  rw [Int.emod_eq_of_lt hx.1 hx.2, Int.emod_eq_of_lt hy.1 hy.2] at e3
  exact e3

example : ∃ R, invMod Mpi.null exA ⟨false, [W64 - 2, W64 - 1]⟩ = .ok R ∧ exA.toInt * R.toInt % (2 ^ 128 - 2) = 1 := by
  obtain ⟨R, h1, -, -, -, h2⟩ := (c56_inv Mpi.null_WF exA_WF (N := ⟨false, [W64 - 2, W64 - 1]⟩) ⟨by unfold LOk; decide, by decide⟩ (by decide) (by
    rw [show Mpi.toInt ⟨false, [W64 - 2, W64 - 1]⟩ = 2 ^ 128 - 2 by decide]
    have : (2 : Int) ^ 128 ≤ 2 ^ (64 * 9999) := pow_le_pow_right₀ (by decide) (by decide)
    generalize (2 : Int) ^ (64 * 9999) = w at *
    omega)).1 (by decide) (by decide +kernel)
  exact ⟨R, h1, by rw [show Mpi.toInt ⟨false, [W64 - 2, W64 - 1]⟩ = 2 ^ 128 - 2 by decide] at h2; exact h2⟩

/-- The inverse of the RSA model is this function. -/
theorem c56_model_inv {X A N : Mpi} (hX : X.WF) (hA : A.WF) (hN : N.WF) (hA0 : 0 ≤ A.toInt) (hN0 : 0 ≤ N.toInt) (hlA : A.p.length ≤ 9998)
    (hN2 : N.toInt < 2 ^ (64 * 9999)) :
    match mpiInv A.toInt.toNat N.toInt.toNat with
    | some v => ∃ R, invMod X A N = .ok R ∧ R.WF ∧ R.toInt = v
    | none => ∃ e, invMod X A N = .err e := by
  obtain ⟨h1, h2, h3⟩ := c56_inv hX hA hN hlA hN2
  have hNm := toInt_of_nonneg hN0
  have hAm := toInt_of_nonneg hA0
  have hg : Int.gcd A.toInt N.toInt = Nat.gcd A.mag N.mag := by rw [Int.gcd_def, natAbs_toInt, natAbs_toInt]
  have eA : A.toInt.toNat = A.mag := by omega
  have eN : N.toInt.toNat = N.mag := by omega
  rw [eA, eN]
  unfold mpiInv
  by_cases c1 : N.mag ≤ 1
  · rw [if_pos c1]
    exact ⟨_, h3 (by omega)⟩
  · rw [if_neg c1]
    have hgv : mpiGcd A.mag N.mag = Nat.gcd A.mag N.mag := by unfold mpiGcd; rw [if_neg (by omega)]
    rw [hgv]
    by_cases c2 : Nat.gcd A.mag N.mag ≠ 1
    · rw [if_pos c2]
      exact ⟨_, h2 (by omega) (by rw [hg]; exact c2)⟩
    · rw [if_neg c2]
      rw [not_not] at c2
      obtain ⟨R, r1, r2, r3, r4, r5⟩ := h1 (by omega) (by rw [hg]; exact c2)
      unfold mpiMod
      rw [if_neg (by omega)]
      refine ⟨R, r1, r2, ?_⟩
      have hpos : (0 : Int) < N.mag := by omega
      have hv0 := Int.emod_nonneg (Nat.gcdA A.mag N.mag) hpos.ne'
      have hv1 := Int.emod_lt_of_pos (Nat.gcdA A.mag N.mag) hpos
      have hb := Nat.gcd_eq_gcd_ab A.mag N.mag
      rw [c2] at hb
      have hinv : (A.mag : Int) * (Nat.gcdA A.mag N.mag % N.mag) % N.mag = 1 := by
        rw [Int.mul_emod, Int.emod_emod_of_dvd _ (dvd_refl _), ← Int.mul_emod]
        have e : (A.mag : Int) * Nat.gcdA A.mag N.mag = 1 - N.mag * Nat.gcdB A.mag N.mag := by push_cast at hb; omega
        rw [e, Int.sub_mul_emod_self_left]
        exact Int.emod_eq_of_lt (by omega) (by omega)
      rw [hNm] at r4 r5
      rw [hAm] at r5
      have := c56_inv_unique ⟨r3, r4⟩ ⟨hv0, hv1⟩ r5 hinv
      rw [this]
      omega

end Verif.Bignum
