import Verif.Rsa.Props
import Verif.Bignum.PropsTrace

/-!
# One inversion that is observed gives the key away

`mbedtls_rsa_private` adds a random multiple of `P - 1` to the exponent.  This protects against averaging over many inversions, but not against an observer of the calls of
one exponentiation.
-/

namespace Verif.Rsa

open Verif Verif.Bignum
open Verif.Bignum.Traced (decode expOps)
open Verif.Tdp (exKey exPriv RsaKey)

/-- **C88** (the harm). In every inversion with a valid key, whatever the random numbers are, the calls of the exponentiation modulo `P` and the public key give `P`: the
exponent `X` that `blindedPrivate` computes and uses satisfies `gcd(a^(E*f-1) - 1, N) = P`, `f` being the number computed from the calls, for every `a` that is prime to
`P` and not a root of unity of that degree modulo `Q`; and if there is no such number then `E*f - 1` is a multiple of `Q - 1`, so that `f` itself inverts modulo `N`. -/
theorem c88_inversion_reveals {g : Rng} (hg : Total g) {v : Inv} {s : Tdp.Priv} (h : Ready v s) (i : Nat) :
    ∃ P1 X S, subInt .null (.ext v.ctx.P) 1 = .ok P1 ∧ blindExponent g P1 v.ctx.DP .null v.ctx i = (.ok (X, S), v.ctx, i + 1) ∧
      (∀ a, ¬s.P ∣ a → ¬a ^ (v.ctx.E.mag * decode (expOps X) - 1) ≡ 1 [MOD s.Q] → Nat.gcd (a ^ (v.ctx.E.mag * decode (expOps X) - 1) - 1) v.ctx.N.mag = s.P) ∧
      ((∃ a, ¬s.P ∣ a ∧ ¬a ^ (v.ctx.E.mag * decode (expOps X) - 1) ≡ 1 [MOD s.Q]) ∨ ∀ m, m ^ (v.ctx.E.mag * decode (expOps X)) ≡ m [MOD v.ctx.N.mag]) := by
  obtain ⟨h1, h2, -⟩ := h
  have hpr : some (⟨v.ctx.D.mag, v.ctx.P.mag, v.ctx.Q.mag, v.ctx.DP.mag, v.ctx.DQ.mag, v.ctx.QP.mag⟩ : Tdp.Priv) = some s := by
    have := h2.priv
    simpa only [abs, if_neg h1.priv] using this
  have hs := Option.some.inj hpr
  have hP : s.P = v.ctx.P.mag := by rw [← hs]
  have hDP : s.DP = v.ctx.DP.mag := by rw [← hs]
  have hk : RsaKey v.ctx.N.mag v.ctx.E.mag s := h2.key
  obtain ⟨P1, p1, p2⟩ := sub1_V U.null.v (VA.ext h1.ctx.P.v) (by omega)
  obtain ⟨X, S, x1, x2, x3⟩ := blindExponent_run hg (p2.mono (l := 301) (by omega)) h1.ctx.DP (U.null.v.mono (l := 4) (by omega)) v.ctx i
  have hp2 := hk.primeP.two_le
  have hpo := hk.oddP
  have hmod : v.ctx.E.mag * s.DP % (s.P - 1) = 1 % (s.P - 1) := by
    rw [hk.dp, Nat.mul_mod, Nat.mod_mod, ← Nat.mul_mod]
    exact hk.expP
  have h11 : 1 % (s.P - 1) = 1 := Nat.mod_eq_of_lt (by omega)
  have hpos : 0 < v.ctx.E.mag * s.DP := by
    rcases Nat.eq_zero_or_pos (v.ctx.E.mag * s.DP) with h | h
    · rw [h, h11, Nat.zero_mod] at hmod; omega
    · exact h
  have hm : X.mag = (s.P - 1) * nums g i 28 + s.DP := by
    have := x2.val
    rw [← hP, ← hDP, show ((s.P : Int) - 1) * (nums g i 28 : Nat) + (s.DP : Nat) = (((s.P - 1) * nums g i 28 + s.DP : Nat) : Int) by
      push_cast [Nat.cast_sub (show 1 ≤ s.P by omega)]; ring] at this
    have h3 : X.mag = X.toInt.natAbs := by
      unfold Mpi.toInt
      split <;> simp
    rw [h3, this, Int.natAbs_natCast]
  have hfac := fun a => @Traced.c88_factors s.P s.Q v.ctx.E.mag s.DP (nums g i 28) hk.primeP hk.primeQ hmod hpos X x2.wf hm a
  refine ⟨P1, X, S, p1, x1, fun a ha hq => ?_, ?_⟩
  · rw [hk.mod]
    exact hfac a ha hq
  · have hge : 1 ≤ v.ctx.E.mag * decode (expOps X) := by
      rw [Traced.c88_exponent x2.wf, hm, Nat.mul_add]; omega
    by_cases hq : s.Q - 1 ∣ v.ctx.E.mag * decode (expOps X) - 1
    · refine Or.inr fun m => ?_
      have hpd : v.ctx.E.mag * decode (expOps X) ≡ 1 [MOD s.P - 1] := by
        show _ % _ = _ % _
        rw [Traced.c88_exponent x2.wf, hm, ← hmod, show v.ctx.E.mag * ((s.P - 1) * nums g i 28 + s.DP) = v.ctx.E.mag * s.DP + (s.P - 1) * (v.ctx.E.mag * nums g i 28) by ring,
          Nat.add_mul_mod_self_left]
      have hqd : v.ctx.E.mag * decode (expOps X) ≡ 1 [MOD s.Q - 1] := ((Nat.modEq_iff_dvd' hge).2 hq).symm
      rw [hk.mod]
      exact (Nat.modEq_and_modEq_iff_modEq_mul ((Nat.coprime_primes hk.primeP hk.primeQ).2 hk.ne)).1
        ⟨Tdp.fermat hk.primeP _ hpd (by omega) m, Tdp.fermat hk.primeQ _ hqd (by omega) m⟩
    · exact Or.inl (Traced.c88_base_exists hk.primeP hk.primeQ hk.ne hq)

/-- The example key, and all random numbers 2. -/
example : ∃ v P1 X S, importPriv exElems = .ok v ∧ blindExponent (constRng 2) P1 v.ctx.DP .null v.ctx 0 = (.ok (X, S), v.ctx, 1) ∧
    ((∃ a, Nat.gcd (a ^ (65537 * decode (expOps X) - 1) - 1) exKey.N = exPriv.P) ∨ ∀ m, m ^ (65537 * decode (expOps X)) ≡ m [MOD exKey.N]) := by
  obtain ⟨v, v1, v2, v3, v4⟩ := exInv
  obtain ⟨P1, X, S, -, h2, h3, h4⟩ := c88_inversion_reveals (total_const 2) v2 0
  have e1 : v.ctx.E.mag = 65537 := v4
  have e2 : v.ctx.N.mag = exKey.N := v3
  rw [e1, e2] at h3 h4
  refine ⟨v, P1, X, S, v1, h2, h4.imp (fun ⟨a, a1, a2⟩ => ⟨a, h3 a a1 a2⟩) id⟩

end Verif.Rsa
