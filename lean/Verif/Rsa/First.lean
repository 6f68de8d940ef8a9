import Verif.Rsa.Gen

/-!
# Key generation that ends at once

If the first number that is drawn is a prime, and the numbers after it can be used as bases, it is the prime that `mbedtls_mpi_gen_prime` gives.
-/

namespace Verif.Rsa

open Verif Verif.Bignum Verif.Tdp

/-- With a generator that gives numbers that can be used, each round calls it twice. -/
theorem Passes_count {g : Rng} {sz n r i j : Nat} {l : List Nat} (h : Passes g sz n r i l j)
    (hu : ∀ t, i ≤ t → t < i + 2 * r → ∃ b, g t sz = .ok b ∧ Usable n (baseOf n b)) : j = i + 2 * r := by
  induction h with
  | nil => rfl
  | @cons r i a j l k h1 _ _ ih =>
    obtain ⟨_, t, _, h2, _, _, rfl⟩ := h1
    have ht : t = 0 := by
      by_contra h0
      obtain ⟨b, b1, _, b2⟩ := h2 0 (by omega)
      obtain ⟨b', c1, c2⟩ := hu (i + 1) (by omega) (by omega)
      rw [show i + 1 + 0 = i + 1 by omega, c1, Out.ok.injEq] at b1
      rw [← b1] at b2
      exact b2 c2
    subst ht
    rw [ih (fun t h3 h4 => hu t (by omega) (by omega))]
    omega

theorem primeFor_prime {g : Rng} (hg : g.Ok) {b f i p : Nat} (hb : 3 ≤ b) (hb2 : b ≤ 4096) (hf : 1 ≤ f) (hp : p.Prime) (hbig : 997 < p) {v : Bytes}
    (hd : g i (bitsToLimbs b * 8) = .ok v) (hv : firstCand b (beNat v) = p) (hgood : ∀ k, limbs p ≤ k → g.Good (k * 8) p)
    (hu : ∀ k, limbs p ≤ k → ∀ t, i + 1 ≤ t → t < i + 1 + 2 * mrRounds (bitlen p) → ∃ b, g t (k * 8) = .ok b ∧ Usable p (baseOf p b)) :
    ∃ R, primeFor g f .null b i = (.ok (some R), i + 1 + 2 * mrRounds (bitlen p)) ∧ R.mag = p := by
  unfold primeFor
  rw [Run.bind_apply]
  rcases genPrime_start hg f Mpi.null_WF hb (by omega) false i with ⟨w, A, v1, a1, a2, a3, a4, a5, a6⟩ | ⟨e, e1, _⟩
  swap
  · rw [hd] at e1; cases e1
  rw [hd, Out.ok.injEq] at v1
  rw [← v1, hv] at a4
  rw [a1, if_neg (by simp)]
  have hbl : bitsToLimbs b ≤ 128 := by unfold bitsToLimbs; split <;> omega
  have hal : A.p.length ≤ 128 := by
    have h0 : Mpi.null.p.length = 0 := rfl
    omega
  have hlim : limbs p ≤ A.p.length := by rw [limbs_le_iff, ← a4]; exact val_lt a2.ok
  have hpr : isPrime g A (i + 1) = (.ok (), i + 1 + 2 * mrRounds (bitlen p)) := by
    rcases isPrime_eq g a2 (i + 1) with ⟨h1, -⟩ | ⟨-, h1, -⟩ | ⟨⟨q, q1, -, q2, q3⟩, -⟩ | ⟨h1, h2, h3, h4⟩
    · omega
    · omega
    · rw [a4] at q2 q3
      have := (Nat.dvd_prime hp).1 q2
      have := q1.two_le
      omega
    · rw [h4]
      have hx := isX_of a2 h1 h2 hal
      rw [a4] at hx
      rcases millerRabin_spec hg hx (i + 1) with ⟨l, j, m1, m2⟩ | ⟨j, _, m2⟩ | ⟨e, j, _, t, _, _, m2⟩
      · rw [m1, Passes_count m2 (hu _ hlim)]
      · exact absurd hp (m2.not_prime (hgood _ hlim))
      · obtain ⟨b', b1⟩ := (hgood _ hlim).1 t
        rw [show ({ A with neg := false } : Mpi).p.length = A.p.length from rfl, b1] at m2
        cases m2
  obtain ⟨f, rfl⟩ : ∃ f', f = f' + 1 := ⟨f - 1, by omega⟩
  have hloop : Bignum.genLoop g (f + 1) A (i + 1) = (.ok (.done A), i + 1 + 2 * mrRounds (bitlen p)) := by
    rw [Bignum.genLoop, Run.bind_apply, accepted_ok hpr]
    rfl
  rw [hloop]
  exact ⟨A, rfl, a4⟩

end Verif.Rsa
