import Mathlib.FieldTheory.Finite.Basic
import Mathlib.Data.Nat.Prime.Basic

/-!
# Strong probable primes: what the Miller-Rabin test is about

Nothing in this file mentions the library.
-/

namespace Verif.Bignum

/-- `n` passes the Miller-Rabin test for the base `a`: with `n - 1 = 2^s * m`, `m` odd, `a^m` is 1 or one of `a^m, a^(2m), …, a^(2^(s-1)m)` is -1
    modulo `n` (HAC 4.20). -/
def Strong (n a : Nat) : Prop :=
  ∃ s m, n - 1 = 2 ^ s * m ∧ m % 2 = 1 ∧ (a ^ m % n = 1 ∨ ∃ r < s, a ^ (2 ^ r * m) % n = n - 1)

theorem two_adic_unique {s m s' m' : Nat} (h : 2 ^ s * m = 2 ^ s' * m') (hm : m % 2 = 1) (hm' : m' % 2 = 1) : s = s' ∧ m = m' := by
  induction s generalizing s' with
  | zero =>
    cases s' with
    | zero => simpa using h
    | succ k =>
      rw [pow_succ, pow_zero, one_mul, mul_comm (2 ^ k) 2, mul_assoc] at h
      omega
  | succ j ih =>
    cases s' with
    | zero =>
      rw [pow_succ, pow_zero, one_mul, mul_comm (2 ^ j) 2, mul_assoc] at h
      omega
    | succ k =>
      rw [pow_succ, pow_succ, mul_comm (2 ^ k) 2, mul_comm (2 ^ j) 2, mul_assoc, mul_assoc] at h
      obtain ⟨h1, h2⟩ := ih (s' := k) (by omega)
      exact ⟨by omega, h2⟩

theorem strong_iff {n a s m : Nat} (h : n - 1 = 2 ^ s * m) (hm : m % 2 = 1) :
    Strong n a ↔ (a ^ m % n = 1 ∨ ∃ r < s, a ^ (2 ^ r * m) % n = n - 1) := by
  constructor
  · rintro ⟨s', m', h1, h2, h3⟩
    obtain ⟨rfl, rfl⟩ := two_adic_unique (h.symm.trans h1) hm h2
    exact h3
  · intro h3
    exact ⟨s, m, h, hm, h3⟩

theorem mod_eq_one_iff {n a : Nat} (hn : 1 < n) : a % n = 1 ↔ (a : ZMod n) = 1 := by
  have h := ZMod.natCast_eq_natCast_iff' a 1 n
  rw [Nat.mod_eq_of_lt hn, Nat.cast_one] at h
  exact h.symm

theorem mod_eq_pred_iff {n a : Nat} (hn : 1 < n) : a % n = n - 1 ↔ (a : ZMod n) = -1 := by
  have h := ZMod.natCast_eq_natCast_iff' a (n - 1) n
  rw [Nat.mod_eq_of_lt (by omega : n - 1 < n), Nat.cast_sub (by omega), Nat.cast_one, ZMod.natCast_self, zero_sub] at h
  exact h.symm

/-- A prime passes the test for every base that it does not divide. -/
theorem strong_of_prime {p a : Nat} (hp : p.Prime) (ha : ¬ p ∣ a) : Strong p a := by
  have := Fact.mk hp
  have hp1 := hp.one_lt
  have h0 : p - 1 ≠ 0 := by omega
  obtain ⟨s, m, hm, h⟩ := Nat.exists_eq_two_pow_mul_odd h0
  have hm' : m % 2 = 1 := Nat.odd_iff.1 hm
  rw [strong_iff h hm', mod_eq_one_iff hp1]
  have hx : (a : ZMod p) ≠ 0 := by rwa [Ne, ZMod.natCast_eq_zero_iff]
  have hf : (a : ZMod p) ^ (2 ^ s * m) = 1 := by rw [← h]; exact ZMod.pow_card_sub_one_eq_one hx
  simp only [mod_eq_pred_iff hp1, Nat.cast_pow]
  generalize (a : ZMod p) = x at hf
  clear h
  induction s with
  | zero => left; simpa using hf
  | succ k ih =>
    rw [pow_succ, mul_comm (2 ^ k) 2, mul_assoc, mul_comm 2, pow_mul, pow_two, mul_self_eq_one_iff] at hf
    rcases hf with hf | hf
    · rcases ih hf with h | ⟨r, h1, h2⟩
      · exact Or.inl h
      · exact Or.inr ⟨r, by omega, h2⟩
    · exact Or.inr ⟨k, by omega, hf⟩

end Verif.Bignum
