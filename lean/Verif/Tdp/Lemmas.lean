import Verif.Tdp.Model
import Mathlib.FieldTheory.Finite.Basic
import Mathlib.Data.Nat.ModEq
import Mathlib.Data.Nat.Prime.Basic
import Mathlib.Data.Int.ModEq
import Mathlib.Tactic.Ring
import Mathlib.Tactic.Linarith
import Mathlib.Tactic.LinearCombination
import Mathlib.Tactic.NormNum

/-!
# The RSA trapdoor permutation: number theory
-/

namespace Verif.Tdp

open Verif

/-! ## Specification: RSA keys (RFC 8017, section 3) -/

/-- `s` is an RSA private key for the modulus `N` and the public exponent `E`. -/
structure RsaKey (N E : Nat) (s : Priv) : Prop where
  primeP : s.P.Prime
  primeQ : s.Q.Prime
  oddP : s.P % 2 = 1
  oddQ : s.Q % 2 = 1
  ne : s.P ≠ s.Q
  mod : N = s.P * s.Q
  expP : E * s.D % (s.P - 1) = 1 % (s.P - 1)
  expQ : E * s.D % (s.Q - 1) = 1 % (s.Q - 1)
  dp : s.DP = s.D % (s.P - 1)
  dq : s.DQ = s.D % (s.Q - 1)
  qpLt : s.QP < s.P
  qp : s.QP * s.Q % s.P = 1

/-! ## Number theory -/

theorem fermat {p : Nat} (hp : p.Prime) (n : Nat) (hn : n ≡ 1 [MOD p - 1]) (h0 : n ≠ 0) (x : Nat) : x ^ n ≡ x [MOD p] := by
  have := Fact.mk hp
  rw [← ZMod.natCast_eq_natCast_iff]
  push_cast
  have hn' : (p - 1) ∣ n - 1 := (Nat.modEq_iff_dvd' (by omega)).1 hn.symm
  obtain ⟨m, hm⟩ := hn'
  have e : n = (p - 1) * m + 1 := by omega
  by_cases hx : (x : ZMod p) = 0
  · rw [hx, zero_pow h0]
  · rw [e, pow_succ, pow_mul, ZMod.pow_card_sub_one_eq_one hx, one_pow, one_mul]

section
variable {N E : Nat} {s : Priv}

theorem RsaKey.copr (h : RsaKey N E s) : Nat.Coprime s.P s.Q := (Nat.coprime_primes h.primeP h.primeQ).2 h.ne

theorem RsaKey.P3 (h : RsaKey N E s) : 3 ≤ s.P := by
  have := h.primeP.two_le; have := h.oddP; omega

theorem RsaKey.Q3 (h : RsaKey N E s) : 3 ≤ s.Q := by
  have := h.primeQ.two_le; have := h.oddQ; omega

theorem RsaKey.Npos (h : RsaKey N E s) : 0 < N := by
  rw [h.mod]; exact Nat.mul_pos h.primeP.pos h.primeQ.pos

theorem RsaKey.Nodd (h : RsaKey N E s) : N % 2 = 1 := by
  rw [h.mod, Nat.mul_mod, h.oddP, h.oddQ]

theorem RsaKey.edp (h : RsaKey N E s) : E * s.DP ≡ 1 [MOD s.P - 1] := by
  rw [h.dp]
  exact ((Nat.mod_modEq s.D (s.P - 1)).mul_left E).trans h.expP

theorem RsaKey.edq (h : RsaKey N E s) : E * s.DQ ≡ 1 [MOD s.Q - 1] := by
  rw [h.dq]
  exact ((Nat.mod_modEq s.D (s.Q - 1)).mul_left E).trans h.expQ

theorem ne_zero_of_modEq_one {a m : Nat} (hm : 2 ≤ m) (h : a ≡ 1 [MOD m]) : a ≠ 0 := by
  rintro rfl
  unfold Nat.ModEq at h
  rw [Nat.zero_mod, Nat.mod_eq_of_lt (by omega)] at h
  omega

/-- Congruence modulo both primes is congruence modulo N. -/
theorem RsaKey.modEq_iff (h : RsaKey N E s) {a b : Nat} : a ≡ b [MOD N] ↔ a ≡ b [MOD s.P] ∧ a ≡ b [MOD s.Q] := by
  rw [h.mod]
  exact (Nat.modEq_and_modEq_iff_modEq_mul h.copr).symm

theorem RsaKey.pow_edp (h : RsaKey N E s) {d n : Nat} (hd : n * d ≡ 1 [MOD s.P - 1]) (x : Nat) : (x ^ d) ^ n ≡ x [MOD s.P] := by
  rw [← pow_mul, mul_comm]
  exact fermat h.primeP _ hd (ne_zero_of_modEq_one (by have := h.P3; omega) hd) x

theorem RsaKey.pow_edq (h : RsaKey N E s) {d n : Nat} (hd : n * d ≡ 1 [MOD s.Q - 1]) (x : Nat) : (x ^ d) ^ n ≡ x [MOD s.Q] := by
  rw [← pow_mul, mul_comm]
  exact fermat h.primeQ _ hd (ne_zero_of_modEq_one (by have := h.Q3; omega) hd) x

/-- The public operation is injective modulo N. -/
theorem RsaKey.inj (h : RsaKey N E s) {a b : Nat} (hab : a ^ E ≡ b ^ E [MOD N]) : a ≡ b [MOD N] := by
  rw [h.modEq_iff] at hab ⊢
  constructor
  · have h1 := h.pow_edp (n := s.DP) (d := E) (by rw [mul_comm]; exact h.edp) a
    have h2 := h.pow_edp (n := s.DP) (d := E) (by rw [mul_comm]; exact h.edp) b
    exact h1.symm.trans ((hab.1.pow s.DP).trans h2)
  · have h1 := h.pow_edq (n := s.DQ) (d := E) (by rw [mul_comm]; exact h.edq) a
    have h2 := h.pow_edq (n := s.DQ) (d := E) (by rw [mul_comm]; exact h.edq) b
    exact h1.symm.trans ((hab.2.pow s.DQ).trans h2)

/-! ## Values of the arithmetic functions -/

theorem mpiMod_nat {n : Nat} (hn : 0 < n) (a : Nat) : mpiMod (a : Int) n = some (a % n) := by
  unfold mpiMod
  rw [if_neg (by omega)]
  congr 1

theorem mpiMod_pos {n : Nat} (hn : 0 < n) (a : Int) : mpiMod a n = some (a % (n : Int)).toNat := by
  unfold mpiMod
  rw [if_neg (by omega)]

theorem mpiExpMod_odd {n : Nat} (hn : n % 2 = 1) (a e : Nat) : mpiExpMod a e n = some (a ^ e % n) := by
  unfold mpiExpMod
  rw [if_neg (by omega)]

theorem mpiGcd_pos {b : Nat} (hb : 0 < b) (a : Nat) : mpiGcd a b = Nat.gcd a b := by
  unfold mpiGcd
  rw [if_neg (by omega)]

theorem mpiInv_spec {a n : Nat} (hn : 1 < n) (hc : Nat.gcd a n = 1) : ∃ x, mpiInv a n = some x ∧ x < n ∧ a * x % n = 1 := by
  unfold mpiInv
  rw [if_neg (by omega), mpiGcd_pos (by omega), if_neg (by simpa using hc), mpiMod_pos (by omega)]
  have hpos : (0 : Int) < n := by omega
  refine ⟨_, rfl, ?_, ?_⟩
  · have := Int.emod_lt_of_pos (Nat.gcdA a n) hpos
    have := Int.emod_nonneg (Nat.gcdA a n) (by omega : (n : Int) ≠ 0)
    omega
  · have hb := Nat.gcd_eq_gcd_ab a n
    rw [hc] at hb
    have hnn := Int.emod_nonneg (Nat.gcdA a n) (by omega : (n : Int) ≠ 0)
    apply Int.ofNat_inj.1
    push_cast
    rw [Int.toNat_of_nonneg hnn, Int.mul_emod, Int.emod_emod_of_dvd _ (dvd_refl _), ← Int.mul_emod]
    have e : (a : Int) * Nat.gcdA a n = 1 + n * (- Nat.gcdB a n) := by
      push_cast at hb
      linear_combination -hb
    rw [e, Int.add_mul_emod_self_left]
    exact Int.emod_eq_of_lt (by omega) (by omega)

/-- The recombination of the Chinese remainder theorem used twice in the code. -/
theorem RsaKey.garner (h : RsaKey N E s) (yp yq : Nat) (hq : yq < s.Q) :
    ∃ y, mpiMod (((yp : Int) - yq) * s.QP) s.P = some y ∧ yq + y * s.Q < N ∧
      yq + y * s.Q ≡ yp [MOD s.P] ∧ yq + y * s.Q ≡ yq [MOD s.Q] := by
  have hP := h.primeP.pos
  refine ⟨_, mpiMod_pos hP _, ?_, ?_, ?_⟩
  · have h1 := Int.emod_lt_of_pos (((yp : Int) - yq) * s.QP) (by omega : (0 : Int) < s.P)
    have h2 := Int.emod_nonneg (((yp : Int) - yq) * s.QP) (by omega : (s.P : Int) ≠ 0)
    generalize (((yp : Int) - yq) * s.QP) % s.P = r at h1 h2
    have h3 : r.toNat + 1 ≤ s.P := by omega
    have h4 := Nat.mul_le_mul_right s.Q h3
    rw [h.mod]
    rw [Nat.add_mul] at h4
    omega
  · have h2 := Int.emod_nonneg (((yp : Int) - yq) * s.QP) (by omega : (s.P : Int) ≠ 0)
    rw [← Int.natCast_modEq_iff]
    push_cast
    rw [Int.toNat_of_nonneg h2]
    have hqp : (s.QP : Int) * s.Q ≡ 1 [ZMOD s.P] := by
      have : s.QP * s.Q ≡ 1 [MOD s.P] := by
        unfold Nat.ModEq
        rw [h.qp, Nat.mod_eq_of_lt (by have := h.P3; omega)]
      exact_mod_cast (Int.natCast_modEq_iff.2 this)
    have h5 : (((yp : Int) - yq) * s.QP) % s.P * s.Q ≡ ((yp : Int) - yq) * s.QP * s.Q [ZMOD s.P] :=
      (Int.mod_modEq _ _).mul_right _
    have h6 : ((yp : Int) - yq) * s.QP * s.Q ≡ ((yp : Int) - yq) * 1 [ZMOD s.P] := by
      rw [mul_assoc]; exact hqp.mul_left _
    have h7 := (h5.trans h6).add_left (yq : Int)
    have e : (yq : Int) + ((yp : Int) - yq) * 1 = yp := by ring
    rwa [e] at h7
  · unfold Nat.ModEq
    rw [Nat.add_mul_mod_self_right]

/-! ## The square-and-multiply loop -/

theorem expLoop_spec {n : Nat} (hn : 0 < n) (e X b : Nat) :
    ∃ r, expLoop n e X b = some r ∧ r ≡ X * b ^ e [MOD n] ∧ (e = 0 → r = X) ∧ (e ≠ 0 → r < n) := by
  induction e using Nat.strong_induction_on generalizing X b with
  | _ e ih =>
    rw [expLoop]
    by_cases he : e = 0
    · subst he
      exact ⟨X, by simp, by simpa using Nat.ModEq.refl X, fun _ => rfl, fun h => absurd rfl h⟩
    · rw [dif_neg he]
      by_cases ho : e % 2 = 1
      · rw [if_pos ho, mpiMod_nat hn, mpiMod_nat hn]
        obtain ⟨r, h1, h2, h3, h4⟩ := ih (e / 2) (by omega) (X * b % n) (b * b % n)
        refine ⟨r, h1, ?_, fun h => absurd h he, fun _ => ?_⟩
        · refine h2.trans ?_
          have e1 : X * b ^ e = (X * b) * (b * b) ^ (e / 2) := by
            have : e = 1 + 2 * (e / 2) := by omega
            conv_lhs => rw [this]
            rw [pow_add, pow_mul]
            ring
          rw [e1]
          exact (Nat.mod_modEq _ _).mul ((Nat.mod_modEq _ _).pow _)
        · by_cases h0 : e / 2 = 0
          · rw [h3 h0]; exact Nat.mod_lt _ hn
          · exact h4 h0
      · rw [if_neg ho, mpiMod_nat hn]
        obtain ⟨r, h1, h2, h3, h4⟩ := ih (e / 2) (by omega) X (b * b % n)
        refine ⟨r, h1, ?_, fun h => absurd h he, fun _ => h4 (by omega)⟩
        refine h2.trans ?_
        have e1 : X * b ^ e = X * (b * b) ^ (e / 2) := by
          have : e = 2 * (e / 2) := by omega
          conv_lhs => rw [this]
          rw [pow_mul]
          ring
        rw [e1]
        exact ((Nat.mod_modEq _ _).pow _).mul_left _

/-- `insecure_mod_exp` computes powers for every modulus greater than 1, even or odd. -/
theorem insecureModExp_eq {n : Nat} (hn : 1 < n) (a e : Nat) : insecureModExp a e n = some (a ^ e % n) := by
  unfold insecureModExp
  rw [mpiMod_nat (by omega)]
  obtain ⟨r, h1, h2, h3, h4⟩ := expLoop_spec (by omega : 0 < n) e 1 (a % n)
  show expLoop n e 1 (a % n) = _
  rw [h1]
  congr 1
  have h5 : r ≡ a ^ e [MOD n] := by
    refine h2.trans ?_
    rw [one_mul]
    exact (Nat.mod_modEq _ _).pow _
  have hr : r < n := by
    by_cases he : e = 0
    · rw [h3 he]; exact hn
    · exact h4 he
  rw [← h5, Nat.mod_eq_of_lt hr]

/-! ## The private operations -/

/-- The result of the private operation for all blinding values, also for those that do not cancel. -/
theorem crtPrivate_defect (h : RsaKey N E s) (vi vf T R1 R2 : Nat) :
    ∃ y, crtPrivate N s vi vf T R1 R2 = some y ∧ y < N ∧ y ^ E ≡ T * (vi * vf ^ E) [MOD N] := by
  unfold crtPrivate
  rw [mpiMod_nat h.Npos]
  simp only [Option.bind_eq_bind, Option.bind_some]
  rw [mpiExpMod_odd h.oddP, mpiExpMod_odd h.oddQ]
  simp only [Option.bind_some]
  obtain ⟨t, ht, -, htp, htq⟩ := h.garner ((T * vi % N) ^ ((s.P - 1) * R1 + s.DP) % s.P)
    ((T * vi % N) ^ ((s.Q - 1) * R2 + s.DQ) % s.Q) (Nat.mod_lt _ h.primeQ.pos)
  rw [ht]
  simp only [Option.bind_some]
  rw [mpiMod_nat h.Npos]
  refine ⟨_, rfl, Nat.mod_lt _ h.Npos, ?_⟩
  generalize (T * vi % N) ^ ((s.Q - 1) * R2 + s.DQ) % s.Q + t * s.Q = w at htp htq
  have hw : w ^ E ≡ T * vi % N [MOD N] := by
    rw [h.modEq_iff]
    constructor
    · refine ((htp.trans (Nat.mod_modEq _ _)).pow E).trans ?_
      apply h.pow_edp
      have : E * ((s.P - 1) * R1 + s.DP) = E * s.DP + (s.P - 1) * (E * R1) := by ring
      rw [this]
      unfold Nat.ModEq
      rw [Nat.add_mul_mod_self_left]
      exact h.edp
    · refine ((htq.trans (Nat.mod_modEq _ _)).pow E).trans ?_
      apply h.pow_edq
      have : E * ((s.Q - 1) * R2 + s.DQ) = E * s.DQ + (s.Q - 1) * (E * R2) := by ring
      rw [this]
      unfold Nat.ModEq
      rw [Nat.add_mul_mod_self_left]
      exact h.edq
  refine ((Nat.mod_modEq _ _).pow E).trans ?_
  rw [mul_pow]
  refine ((hw.trans (Nat.mod_modEq _ _)).mul_right _).trans ?_
  rw [mul_assoc]

theorem crtPrivate_spec (h : RsaKey N E s) {vi vf : Nat} (hv : vi * vf ^ E ≡ 1 [MOD N]) (T R1 R2 : Nat) :
    ∃ y, crtPrivate N s vi vf T R1 R2 = some y ∧ y < N ∧ y ^ E ≡ T [MOD N] := by
  obtain ⟨y, h1, h2, h3⟩ := crtPrivate_defect h vi vf T R1 R2
  exact ⟨y, h1, h2, h3.trans (by simpa using hv.mul_left T)⟩

theorem crtMult_spec (h : RsaKey N E s) (x order : Nat) :
    ∃ y, crtMult s x order = some y ∧ y < N ∧ y ^ (E ^ order) ≡ x [MOD N] := by
  unfold crtMult
  rw [insecureModExp_eq (by have := h.P3; omega), insecureModExp_eq (by have := h.Q3; omega)]
  simp only [Option.bind_eq_bind, Option.bind_some]
  rw [mpiExpMod_odd h.oddP, mpiExpMod_odd h.oddQ]
  simp only [Option.bind_some]
  obtain ⟨t, ht, hlt, htp, htq⟩ := h.garner (x ^ (s.DP ^ order % (s.P - 1)) % s.P) (x ^ (s.DQ ^ order % (s.Q - 1)) % s.Q)
    (Nat.mod_lt _ h.primeQ.pos)
  rw [ht]
  refine ⟨_, rfl, hlt, ?_⟩
  rw [h.modEq_iff]
  constructor
  · refine ((htp.trans (Nat.mod_modEq _ _)).pow _).trans ?_
    apply h.pow_edp
    refine ((Nat.mod_modEq _ _).mul_left _).trans ?_
    rw [← mul_pow]
    simpa using h.edp.pow order
  · refine ((htq.trans (Nat.mod_modEq _ _)).pow _).trans ?_
    apply h.pow_edq
    refine ((Nat.mod_modEq _ _).mul_left _).trans ?_
    rw [← mul_pow]
    simpa using h.edq.pow order

end

/-! ## Sizes -/

theorem lt_two_pow_bitlen (n : Nat) : n < 2 ^ bitlen n := by
  unfold bitlen
  split
  · subst_vars; norm_num
  · exact Nat.lt_log2_self

theorem bitlen_le_iff (n b : Nat) : bitlen n ≤ b ↔ n < 2 ^ b := by
  constructor
  · intro h
    exact lt_of_lt_of_le (lt_two_pow_bitlen n) (Nat.pow_le_pow_right (by omega) h)
  · intro h
    unfold bitlen
    split
    · omega
    · rename_i h0
      exact (Nat.log2_lt h0).2 h

theorem mpiSize_le_iff (n l : Nat) : mpiSize n ≤ l ↔ n < 256 ^ l := by
  have : (256 : Nat) ^ l = 2 ^ (8 * l) := by rw [pow_mul]; norm_num
  rw [this, ← bitlen_le_iff]
  unfold mpiSize
  omega

theorem mpiWrite_some {x l : Nat} (h : x < 256 ^ l) : mpiWrite x l = some (beBytes l x) := by
  unfold mpiWrite
  rw [if_neg (by have := (mpiSize_le_iff x l).2 h; omega)]

theorem mpiWrite_none {x l : Nat} (h : 256 ^ l ≤ x) : mpiWrite x l = none := by
  unfold mpiWrite
  rw [if_pos (by have := (mpiSize_le_iff x l).not.2 (by omega); omega)]

end Verif.Tdp
