import Verif.Io.Composite
import Mathlib.GroupTheory.Perm.Cycle.Type
import Mathlib.GroupTheory.OrderOfElement
import Mathlib.FieldTheory.Finite.Basic
import Mathlib.Data.Nat.Squarefree
import Mathlib.Data.Nat.ChineseRemainder

/-!
# For which imported keys evaluation is a permutation
-/

namespace Verif.Io.Permutation

open Verif Verif.Tdp Verif.Io.Normal Verif.Io.Composite

/-- Powers modulo a prime. -/
theorem pow_inj_prime {p E x y : Nat} (hp : p.Prime) (hE : 2 ≤ E) (hc : Nat.Coprime E (p - 1)) (h : x ^ E ≡ y ^ E [MOD p]) : x ≡ y [MOD p] := by
  have : Fact p.Prime := ⟨hp⟩
  rw [← ZMod.natCast_eq_natCast_iff] at h ⊢
  push_cast at h
  by_cases hx : (x : ZMod p) = 0
  · rw [hx, zero_pow (by omega)] at h
    rw [hx, pow_eq_zero_iff (by omega) |>.1 h.symm]
  · have hy : (y : ZMod p) ≠ 0 := by
      intro hy
      rw [hy, zero_pow (by omega)] at h
      exact hx (pow_eq_zero_iff (by omega) |>.1 h)
    have hcard : (Nat.card (ZMod p)ˣ).Coprime E := by
      rw [Nat.card_eq_fintype_card, ZMod.card_units]
      exact hc.symm
    have : Units.mk0 _ hx = Units.mk0 _ hy := by
      apply (powCoprime hcard).injective
      apply Units.ext
      simpa [powCoprime] using h
    simpa using congrArg Units.val this

/-- Taking powers modulo N is injective exactly if N is square-free and the exponent is prime to p - 1 for every prime divisor p of N. -/
theorem pow_inj_iff {N E : Nat} (hN : 0 < N) (hE : 2 ≤ E) :
    (∀ x, x < N → ∀ y, y < N → x ^ E % N = y ^ E % N → x = y) ↔ Squarefree N ∧ ∀ p, p.Prime → p ∣ N → Nat.Coprime E (p - 1) := by
  constructor
  · intro h
    have hsq : Squarefree N := by
      intro r hd
      rw [Nat.isUnit_iff]
      by_contra hr
      obtain ⟨c, hc⟩ := hd
      have hr0 : r ≠ 0 := by
        rintro rfl
        rw [Nat.zero_mul, Nat.zero_mul] at hc
        omega
      have hc0 : 0 < c := by
        rcases Nat.eq_zero_or_pos c with rfl | h
        · rw [Nat.mul_zero] at hc
          omega
        · exact h
      have hrc : 0 < r * c := Nat.mul_pos (by omega) hc0
      have hlt : r * c < N := by
        rw [hc, Nat.mul_assoc]
        exact (Nat.lt_mul_iff_one_lt_left hrc).2 (by omega)
      have hpow : (r * c) ^ E % N = 0 := by
        apply Nat.mod_eq_zero_of_dvd
        refine Nat.dvd_trans ?_ (Nat.pow_dvd_pow (r * c) hE)
        rw [hc]
        exact ⟨c, by ring⟩
      have := h _ hlt 0 hN (by rw [hpow, Nat.zero_pow (by omega), Nat.zero_mod])
      omega
    refine ⟨hsq, fun p hp hd => ?_⟩
    by_contra hc
    have : Fact p.Prime := ⟨hp⟩
    obtain ⟨q, hq, hqE, hqp⟩ := Nat.Prime.not_coprime_iff_dvd.1 hc
    have : Fact q.Prime := ⟨hq⟩
    obtain ⟨u, hu⟩ := exists_prime_orderOf_dvd_card (G := (ZMod p)ˣ) q (by rw [ZMod.card_units]; exact hqp)
    have hu1 : u ≠ 1 := by
      rintro rfl
      rw [orderOf_one] at hu
      exact hq.one_lt.ne hu
    have huE : u ^ E = 1 := orderOf_dvd_iff_pow_eq_one.1 (hu ▸ hqE)
    obtain ⟨M, hM⟩ := hd
    have hco : Nat.Coprime p M := by
      rw [hp.coprime_iff_not_dvd]
      rintro ⟨c, rfl⟩
      have := hsq p ⟨c, by rw [hM]; ring⟩
      rw [Nat.isUnit_iff] at this
      exact hp.one_lt.ne' this
    obtain ⟨x, hx1, hx2⟩ := Nat.chineseRemainder hco (u : ZMod p).val 1
    have hxu : (x : ZMod p) = u := by
      rw [← ZMod.natCast_eq_natCast_iff] at hx1
      rw [hx1, ZMod.natCast_zmod_val]
    have e1 : x ^ E ≡ 1 ^ E [MOD p] := by
      rw [← ZMod.natCast_eq_natCast_iff]
      push_cast
      rw [hxu, ← Units.val_pow_eq_pow_val, huE, one_pow, Units.val_one]
    have e2 : x ^ E ≡ 1 ^ E [MOD M] := hx2.pow E
    have e3 : x ^ E ≡ 1 ^ E [MOD N] := by
      rw [hM]
      exact (Nat.modEq_and_modEq_iff_modEq_mul hco).1 ⟨e1, e2⟩
    have hN1 : 1 < N := by
      have := Nat.le_of_dvd hN ⟨M, hM⟩
      have := hp.two_le
      omega
    have hx := h (x % N) (Nat.mod_lt _ hN) 1 hN1 (((Nat.mod_modEq x N).pow E).trans e3)
    apply hu1
    apply Units.ext
    rw [← hxu, Units.val_one]
    have : x ≡ 1 [MOD p] := by
      have hxN : x ≡ 1 [MOD N] := by
        unfold Nat.ModEq
        rw [hx, Nat.mod_eq_of_lt hN1]
      exact hxN.of_dvd ⟨M, hM⟩
    rw [← ZMod.natCast_eq_natCast_iff] at this
    simpa using this
  · rintro ⟨hsq, hco⟩
    have main : ∀ x y, y ≤ x → x < N → x ^ E % N = y ^ E % N → x = y := by
      intro x y hle hx he
      have hd : N ∣ x - y := by
        rw [← Nat.prod_primeFactors_of_squarefree hsq]
        refine Finset.prod_primes_dvd _ (fun p hp => (Nat.prime_of_mem_primeFactors hp).prime) fun p hp => ?_
        have hp1 := Nat.prime_of_mem_primeFactors hp
        have hp2 := Nat.dvd_of_mem_primeFactors hp
        have he' : x ^ E ≡ y ^ E [MOD p] := Nat.ModEq.of_dvd hp2 he
        exact (Nat.modEq_iff_dvd' hle).1 (pow_inj_prime hp1 hE (hco p hp1 hp2) he').symm
      have := Nat.eq_zero_of_dvd_of_lt hd (by omega)
      omega
    intro x hx y hy he
    rcases Nat.le_total y x with h | h
    · exact main x y h hx he
    · exact (main y x h hy he.symm).symm

/-- Evaluation is a permutation of the messages. -/
structure Permutes (k : Rsa) : Prop where
  maps : ∀ x, IsMsg k x → ∃ y, evalString k x = .ok y ∧ IsMsg k y
  inj : ∀ x x', IsMsg k x → IsMsg k x' → evalString k x = evalString k x' → x = x'
  surj : ∀ y, IsMsg k y → ∃ x, IsMsg k x ∧ evalString k x = .ok y

theorem permutes_iff {k : Rsa} (h0 : checkPub k = true) (hlen : k.len = mpiSize k.N) (hl : k.len = 256) :
    Permutes k ↔ Squarefree k.N ∧ ∀ p, p.Prime → p ∣ k.N → Nat.Coprime k.E (p - 1) := by
  have hsize : k.N < 256 ^ 256 := size_of hlen hl
  obtain ⟨hodd, hE⟩ := checkPub_two h0
  have hN : 0 < k.N := by omega
  rw [← pow_inj_iff hN hE]
  have hev : ∀ x, IsMsg k x → evalString k x = .ok (beBytes 256 (beNat x ^ k.E % k.N)) := fun x hx => evalString_eq hl hsize hodd hx.1
  have hmod : ∀ x, x % k.N < 256 ^ 256 := fun x => Nat.lt_trans (Nat.mod_lt _ hN) hsize
  constructor
  · intro h x hx y hy he
    have hmx := isMsg_beBytes hsize hx
    have hmy := isMsg_beBytes hsize hy
    have := h.inj _ _ hmx hmy (by
      rw [hev _ hmx, hev _ hmy, beNat_beBytes_of_lt (Nat.lt_trans hx hsize), beNat_beBytes_of_lt (Nat.lt_trans hy hsize), he])
    have := congrArg beNat this
    rwa [beNat_beBytes_of_lt (Nat.lt_trans hx hsize), beNat_beBytes_of_lt (Nat.lt_trans hy hsize)] at this
  · intro h
    refine ⟨fun x hx => ⟨_, hev x hx, isMsg_beBytes hsize (Nat.mod_lt _ hN)⟩, fun x x' hx hx' he => ?_, fun y hy => ?_⟩
    · rw [hev x hx, hev x' hx'] at he
      injection he with he
      have he := congrArg beNat he
      rw [beNat_beBytes_of_lt (hmod _), beNat_beBytes_of_lt (hmod _)] at he
      exact beNat_inj hx.1 hx'.1 (h _ hx.2 _ hx'.2 he)
    · let f : Fin k.N → Fin k.N := fun x => ⟨x.1 ^ k.E % k.N, Nat.mod_lt _ hN⟩
      have hf : Function.Injective f := fun a b hab => Fin.ext (h _ a.2 _ b.2 (congrArg Fin.val hab))
      obtain ⟨x, hx⟩ := Finite.surjective_of_injective hf ⟨beNat y, hy.2⟩
      have hx : x.1 ^ k.E % k.N = beNat y := congrArg Fin.val hx
      have hm := isMsg_beBytes hsize x.2
      refine ⟨_, hm, ?_⟩
      rw [hev _ hm, beNat_beBytes_of_lt (Nat.lt_trans x.2 hsize), hx, beBytes_beNat' hy.1]

/-- **C123**: for an imported private key with a modulus of 256 bytes, evaluation is a permutation of the messages exactly if the modulus is square-free and the
exponent is prime to p - 1 for every prime divisor p of the modulus. -/
theorem c123_exact (t : Bytes) (ht : t.length < 2 ^ 62) (k : Rsa) (h : importPrivate t = .ok k) (hl : k.len = 256) :
    Permutes k ↔ Squarefree k.N ∧ ∀ p, p.Prime → p ∣ k.N → Nat.Coprime k.E (p - 1) := by
  obtain ⟨s, hs, hlen, -, hc, -⟩ := private_facts ht h
  exact permutes_iff (checkPriv_facts hs hc).1 hlen hl

/-- **C123**: the same for public keys. -/
theorem c123_exact_public (t : Bytes) (ht : t.length < 2 ^ 62) (k : Rsa) (h : importPublic t = .ok k) (hl : k.len = 256) :
    Permutes k ↔ Squarefree k.N ∧ ∀ p, p.Prime → p ∣ k.N → Nat.Coprime k.E (p - 1) := by
  rcases c42_import_public_safe t ht with h' | ⟨k', h', hc, hlen, -⟩
  · rw [h] at h'
    cases h'
  · rw [h] at h'
    cases h'
    exact permutes_iff hc hlen hl

/-! ## Cases -/

/-- The example key is a permutation; so its modulus has the property. -/
example : Permutes exKey ∧ Squarefree exKey.N := by
  have h : importPrivate (privText exKey.N exKey.E exPriv) = .ok exKey :=
    (c42_import_private (k := exKey) (s := exPriv) rfl exKey_check (by decide +kernel) (by decide +kernel)).1
  obtain ⟨h1, h2, h3⟩ := c123_permutation_partial _ (by decide +kernel) _ h exPriv rfl exP_prime exQ_prime rfl
  have hp : Permutes exKey := ⟨h1, h2, h3⟩
  exact ⟨hp, ((c123_exact _ (by decide +kernel) _ h rfl).1 hp).1⟩

/-- The key with the square is not. -/
example : ¬Permutes sqKey := by
  rw [c123_exact _ (by decide +kernel) _ sqKey_import rfl]
  rintro ⟨h, -⟩
  have h1 : 1 < root := by decide +kernel
  have hd : root * root ∣ sqKey.N := Nat.dvd_mul_right (root * root) exQ
  have h2 : root = 1 := Nat.isUnit_iff.1 (h root hd)
  rw [h2] at h1
  exact Nat.lt_irrefl 1 h1

end Verif.Io.Permutation
