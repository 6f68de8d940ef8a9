import Verif.Rsa.Model
import Verif.Bignum.PropsExp
import Verif.Bignum.PropsPrime

/-!
# The functions of `bignum.c` on integers of bounded length
-/

namespace Verif.Rsa

open Verif Verif.Bignum Verif.Tdp

/-- An integer `z` in at most `k` limbs. -/
structure V (X : Mpi) (z : Int) (k : Nat) : Prop where
  wf : X.WF
  val : X.toInt = z
  len : X.p.length ≤ k

/-- A natural number `n` in at most `k` limbs, without a sign. -/
structure U (X : Mpi) (n k : Nat) : Prop where
  wf : X.WF
  pos : X.neg = false
  val : X.mag = n
  len : X.p.length ≤ k

theorem U.v {X : Mpi} {n k : Nat} (h : U X n k) : V X n k := ⟨h.wf, by rw [toInt_pos h.pos, h.val], h.len⟩

theorem V.mono {X : Mpi} {z : Int} {k l : Nat} (h : V X z k) (hl : k ≤ l) : V X z l := ⟨h.wf, h.val, le_trans h.len hl⟩

theorem U.mono {X : Mpi} {n k l : Nat} (h : U X n k) (hl : k ≤ l) : U X n l := ⟨h.wf, h.pos, h.val, le_trans h.len hl⟩

theorem U.null : U Mpi.null 0 0 := ⟨Mpi.null_WF, rfl, rfl, le_refl _⟩

theorem V.mag {X : Mpi} {z : Int} {k : Nat} (h : V X z k) : X.mag = z.natAbs := by rw [← natAbs_toInt, h.val]

theorem V.lt {X : Mpi} {z : Int} {k : Nat} (h : V X z k) : z.natAbs < W64 ^ k := by
  rw [← h.mag]
  exact lt_of_lt_of_le (val_lt h.wf.ok) (Nat.pow_le_pow_right (by decide) h.len)

theorem U.of_nonneg {X : Mpi} {n k : Nat} (h : V X n k) (hn : X.neg = false) : U X n k := ⟨h.wf, hn, by rw [h.mag]; simp, h.len⟩

theorem U.of_pos {X : Mpi} {n k : Nat} (h : V X n k) (hn : 0 < n) : U X n k :=
  U.of_nonneg h (neg_of_pos (by rw [h.val]; exact_mod_cast hn))

theorem sig_le_of {X : Mpi} {z : Int} {k : Nat} (h : V X z k) : sig X.p ≤ k := le_trans (sig_le _) h.len

theorem limbs_le_of {X : Mpi} {z : Int} {k : Nat} (h : V X z k) : limbs X.mag ≤ k := by
  rw [limbs_le_iff, h.mag]; exact h.lt

/-- An argument with a value. -/
def VA (X : Mpi) (A : Arg) (z : Int) (k : Nat) : Prop := A.WF ∧ V (A.get X) z k

theorem VA.self {X : Mpi} {z : Int} {k : Nat} (h : V X z k) : VA X .self z k := ⟨trivial, h⟩
theorem VA.ext {X Y : Mpi} {z : Int} {k : Nat} (h : V Y z k) : VA X (.ext Y) z k := ⟨h.wf, h⟩

theorem mul_V {X : Mpi} {A B : Arg} {x a b : Int} {kx ka kb : Nat} (hX : V X x kx) (hA : VA X A a ka) (hB : VA X B b kb) (h : ka + kb ≤ 10000) :
    ∃ R, mulMpi X A B = .ok R ∧ V R (a * b) (max kx (max 1 (ka + kb))) ∧ R.p ≠ [] ∧ ((A.get X).neg = false → (B.get X).neg = false → R.neg = false) := by
  have h1 := limbs_le_of hA.2
  have h2 := limbs_le_of hB.2
  obtain ⟨R, r1, r2, r3, r4⟩ := (mulMpi_spec hX.wf hA.1 hB.1).1 (by unfold maxLimbs; omega)
  obtain ⟨u1, u2⟩ := mulMpi_up r1
  have h3 := sig_le_of hA.2
  have h4 := sig_le_of hB.2
  have h5 := hX.len
  refine ⟨R, r1, ⟨r2, by rw [r3, hA.2.val, hB.2.val], by omega⟩, fun h0 => ?_, u2⟩
  rw [h0, List.length_nil] at r4
  omega

theorem natAbs_add_lt {a b : Int} {k l : Nat} (ha : a.natAbs < W64 ^ k) (hb : b.natAbs < W64 ^ l) (hk : k < 10000) (hl : l < 10000) :
    (a + b).natAbs < W64 ^ maxLimbs ∧ (a - b).natAbs < W64 ^ maxLimbs := by
  have h1 : W64 ^ k ≤ W64 ^ 9999 := Nat.pow_le_pow_right (by decide) (by omega)
  have h2 : W64 ^ l ≤ W64 ^ 9999 := Nat.pow_le_pow_right (by decide) (by omega)
  have h3 : W64 ^ maxLimbs = W64 ^ 9999 * W64 := pow_succ W64 9999
  rw [h3]
  generalize W64 ^ 9999 = w at *
  generalize W64 ^ k = u at *
  generalize W64 ^ l = v at *
  omega

theorem add_V {X : Mpi} {A B : Arg} {x a b : Int} {kx ka kb : Nat} (hX : V X x kx) (hA : VA X A a ka) (hB : VA X B b kb) (h1 : ka < 10000) (h2 : kb < 10000) :
    ∃ R, addMpi X A B = .ok R ∧ V R (a + b) (max kx (max ka kb + 1)) := by
  have hs := (addMpi_spec hX.wf hA.1 hB.1).1
  rw [hA.2.val, hB.2.val] at hs
  obtain ⟨R, r1, r2, r3⟩ := hs (natAbs_add_lt hA.2.lt hB.2.lt h1 h2).1
  have hu := addMpi_up hX.wf hA.1 hB.1 r1
  have h3 := sig_le_of hA.2
  have h4 := sig_le_of hB.2
  have h5 := hX.len
  exact ⟨R, r1, r2, r3, by omega⟩

theorem sub_V {X : Mpi} {A B : Arg} {x a b : Int} {kx ka kb : Nat} (hX : V X x kx) (hA : VA X A a ka) (hB : VA X B b kb) (h1 : ka < 10000) (h2 : kb < 10000) :
    ∃ R, subMpi X A B = .ok R ∧ V R (a - b) (max kx (max ka kb + 1)) := by
  have hs := (subMpi_spec hX.wf hA.1 hB.1).1
  rw [hA.2.val, hB.2.val] at hs
  obtain ⟨R, r1, r2, r3⟩ := hs (natAbs_add_lt hA.2.lt hB.2.lt h1 h2).2
  have hu := subMpi_up hX.wf hA.1 hB.1 r1
  have h3 := sig_le_of hA.2
  have h4 := sig_le_of hB.2
  have h5 := hX.len
  exact ⟨R, r1, r2, r3, by omega⟩

theorem sub1_V {X : Mpi} {A : Arg} {x a : Int} {kx ka : Nat} (hX : V X x kx) (hA : VA X A a ka) (h1 : ka < 10000) :
    ∃ R, subInt X A 1 = .ok R ∧ V R (a - 1) (max kx (max ka 1 + 1)) :=
  sub_V hX hA (VA.ext (Y := small 1) (z := 1) (k := 1) ⟨small_WF (by decide), small_toInt 1, le_refl _⟩) h1 (by decide)

theorem mod_V {X B : Mpi} {A : Arg} {x a : Int} {b kx ka kb : Nat} (hX : V X x kx) (hA : VA X A a ka) (hB : V B b kb) (hb : 0 < b) (h1 : ka ≤ 9998) :
    ∃ R, modMpi X A B = .ok R ∧ V R (a % b) (max kx kb) ∧ ((A.get X).p ≠ [] → R.p ≠ []) ∧ ((A.get X).neg = false → R.neg = false) := by
  have h2 := hA.2.len
  have hB0 : 0 < B.toInt := by rw [hB.val]; exact_mod_cast hb
  have hl : (A.get X).p.length + 2 ≤ maxLimbs := by unfold maxLimbs; omega
  obtain ⟨R, r1, r2, r3, r4, r5⟩ := modMpi_spec hX.wf hA.1 hB.wf hB0 hl
  have hu := modMpi_up hX.wf hA.1 hB.wf hB0 hl r1
  have h3 := hX.len
  have h4 := hB.len
  refine ⟨R, r1, ⟨r2, by rw [r3, hA.2.val, hB.val], by omega⟩, fun h0 h0' => ?_, r5⟩
  have := r4 h0
  rw [h0', List.length_nil] at this
  omega

theorem read_U {X : Mpi} {x : Int} {kx : Nat} (hX : V X x kx) {b : Bytes} (hb : b.length ≤ 8 * maxLimbs) :
    ∃ R, readBinary X b = .ok R ∧ U R (beNat b) (max kx (b.length / 8 + 1)) ∧ R.p ≠ [] := by
  have hd : (b.dropWhile (· == 0)).length ≤ b.length := (List.dropWhile_suffix _).length_le
  obtain ⟨R, r1, r2, r3, r4, r5⟩ := (readBinary_spec hX.wf b).1 (by omega)
  have h1 : charsToLimbs (b.dropWhile (· == 0)).length ≤ b.length / 8 + 1 := by unfold charsToLimbs; split <;> omega
  have h2 := hX.len
  refine ⟨R, r1, ⟨r2, r4, r3, by omega⟩, fun h0 => ?_⟩
  rw [h0, List.length_nil] at r5
  omega

/-- A random number generator that does not fail: `mbedTLS_rng_wrap`, tdp_impl_mbedtls.cpp, returns 0. -/
def Total (g : Rng) : Prop := ∀ i n, ∃ b, g i n = .ok b ∧ b.length = n

/-- The numbers that it gives. -/
def nums (g : Rng) (i n : Nat) : Nat := match g i n with | .ok b => beNat b | _ => 0

theorem fill_U {g : Rng} (hg : Total g) {X : Mpi} {x : Int} {kx : Nat} (hX : V X x kx) {n : Nat} (hn : n ≤ mpiMaxSize) (i : Nat) :
    ∃ R, fillRandom g X n i = (.ok R, i + 1) ∧ U R (nums g i n) (max kx (n / 8 + 1)) ∧ R.p ≠ [] := by
  obtain ⟨b, b1, b2⟩ := hg i n
  obtain ⟨R, r1, r2, r3⟩ := read_U hX (b := b) (by rw [b2]; unfold mpiMaxSize at hn; unfold maxLimbs; omega)
  have e1 : fillRandom g X n i = Run.next (g i n, i + 1) fun b => Run.of (readBinary X b) := by
    unfold fillRandom
    rw [if_neg (by omega)]
    rfl
  rw [b2] at r2
  refine ⟨R, by rw [e1, b1, Run.next_ok, Run.of_apply, r1], ?_, r3⟩
  unfold nums
  rw [b1]
  exact r2

theorem exp_U {X E N rr : Mpi} {A : Arg} {x : Int} {a e n kx ka ke kn : Nat} (hX : V X x kx) (hA : VA X A a ka) (hAn : (A.get X).neg = false)
    (hAe : ∀ m, A = .ext m → m.p ≠ []) (hE : V E e ke) (hN : U N n kn) (hNe : N.p ≠ []) (h1 : kn ≤ 4998) (h2 : ka ≤ 9998) (hc : CacheOk N (some rr)) :
    match mpiExpMod a e n with
    | some v => ∃ R rr', expMod X A E N (some rr) = .ok (R, some rr') ∧ U R v (max kx (kn + 1)) ∧ R.p ≠ [] ∧ CacheOk N (some rr')
    | none => expMod X A E N (some rr) = .err .badInput := by
  have hNl := hN.len
  have hAl := hA.2.len
  have hXl := hX.len
  have hNi : N.toInt = (n : Int) := hN.v.val
  unfold mpiExpMod
  by_cases hp : n % 2 = 0
  · rw [if_pos hp]
    exact (c56_exp_refuse hE.wf hN.wf).2.1 (by omega) hNe
  · rw [if_neg hp]
    have hmag : N.mag % 2 = 1 := by rw [hN.val]; omega
    obtain ⟨R, rr', r1, r2, r3, r4, r5⟩ := expMod_spec hX.wf hA.1 hE.wf hN.wf (by omega) hmag (by rw [hE.val]; omega) (by omega)
      (by unfold maxLimbs; omega) hAe hc
    obtain ⟨u1, u2, u3⟩ := expMod_up hN.wf (by omega) (by omega) hc hAn r1
    obtain ⟨rr1, rfl⟩ := Option.isSome_iff_exists.1 r5
    refine ⟨R, rr1, r1, ⟨r2, u3, ?_, by omega⟩, u2, r4⟩
    unfold expVal at r3
    rw [hAn, if_neg (by simp), toInt_pos u3] at r3
    have e1 : (A.get X).mag = a := by rw [hA.2.mag]; simp
    have e2 : E.mag = e := by rw [hE.mag]; simp
    rw [e1, e2, hN.val] at r3
    exact_mod_cast r3

theorem gcd_V {G A B : Mpi} {gg a b : Int} {kg ka kb : Nat} (hG : V G gg kg) (hA : V A a ka) (hB : V B b kb) :
    ∃ R, gcdMpi G A B = .ok R ∧ V R (mpiGcd a.natAbs b.natAbs) (max kg (max 1 (max ka kb))) := by
  obtain ⟨R, r1, r2, r3⟩ := c56_model_gcd hG.wf hA.wf hB.wf
  have hu := gcdMpi_up r1
  have h1 := hG.len
  rw [hA.val, hB.val] at r3
  refine ⟨R, r1, r2, r3, ?_⟩
  have h2 : sig R.p ≤ max ka kb := by
    rw [sig_eq_limbs r2.ok, limbs_le_iff]
    have h3 : val R.p = mpiGcd a.natAbs b.natAbs := by
      have := natAbs_toInt R
      rw [r3, Int.natAbs_natCast] at this
      exact this.symm
    rw [h3]
    have h4 : mpiGcd a.natAbs b.natAbs ≤ b.natAbs := by
      unfold mpiGcd
      split
      · omega
      · exact Nat.gcd_le_right _ (by omega)
    exact lt_of_le_of_lt h4 (lt_of_lt_of_le hB.lt (Nat.pow_le_pow_right (by decide) (le_max_right _ _)))
  omega

theorem mpiInv_lt {a n v : Nat} (h : mpiInv a n = some v) : v < n ∧ 0 < v ∧ 1 < n := by
  unfold mpiInv at h
  split at h
  · simp at h
  · rename_i h1
    split at h
    · simp at h
    · rename_i h2
      rw [not_not] at h2
      unfold mpiMod at h
      rw [if_neg (by omega), Option.some.injEq] at h
      have hb := Int.emod_lt_of_pos (Nat.gcdA a n) (b := (n : Int)) (by omega)
      have hb2 := Int.emod_nonneg (Nat.gcdA a n) (b := (n : Int)) (by omega)
      refine ⟨by omega, ?_, by omega⟩
      by_contra h0
      have hz : Nat.gcdA a n % (n : Int) = 0 := by omega
      have hd : (n : Int) ∣ Nat.gcdA a n := Int.dvd_of_emod_eq_zero hz
      have hg : Nat.gcd a n = 1 := by
        unfold mpiGcd at h2
        rw [if_neg (by omega)] at h2
        exact h2
      have hbz := Nat.gcd_eq_gcd_ab a n
      rw [hg] at hbz
      have : (n : Int) ∣ ((1 : Nat) : Int) := by
        rw [hbz]
        exact dvd_add (Dvd.dvd.mul_left hd _) (dvd_mul_right _ _)
      have := Int.le_of_dvd (by norm_num) this
      omega

theorem inv_U {X A N : Mpi} {x : Int} {a n kx ka kn : Nat} (hX : V X x kx) (hA : V A a ka) (hN : V N n kn) (h1 : ka ≤ 9998) (h2 : kn ≤ 9999) :
    match mpiInv a n with
    | some v => ∃ R, invMod X A N = .ok R ∧ U R v (max kx (max 1 kn)) ∧ R.p ≠ []
    | none => ∃ e, invMod X A N = .err e := by
  have hAl := hA.len
  have hNlt := hN.lt
  have hm := c56_model_inv hX.wf hA.wf hN.wf (by rw [hA.val]; omega) (by rw [hN.val]; omega) (by omega) (by
    rw [hN.val]
    have e1 : (2 : Nat) ^ (64 * 9999) = W64 ^ 9999 := by rw [pow_mul]; exact congrArg (· ^ 9999) (show (2 : Nat) ^ 64 = W64 by norm_num)
    have h3 : W64 ^ kn ≤ W64 ^ 9999 := Nat.pow_le_pow_right (by decide) h2
    have h4 : n < 2 ^ (64 * 9999) := by
      rw [e1]
      rw [Int.natAbs_natCast] at hNlt
      exact lt_of_lt_of_le hNlt h3
    exact_mod_cast h4)
  rw [hA.val, hN.val, Int.toNat_natCast, Int.toNat_natCast] at hm
  cases hi : mpiInv a n with
  | none => rw [hi] at hm; exact hm
  | some v =>
    rw [hi] at hm
    obtain ⟨R, r1, r2, r3⟩ := hm
    obtain ⟨v1, v2, v3⟩ := mpiInv_lt hi
    have hu := invMod_up r1
    have hXl := hX.len
    have hRm : R.mag = v := by rw [← natAbs_toInt, r3]; simp
    have hs : sig R.p ≤ kn := by
      rw [sig_eq_limbs r2.ok, limbs_le_iff]
      rw [Int.natAbs_natCast] at hNlt
      show R.mag < _
      rw [hRm]
      exact lt_trans v1 hNlt
    exact ⟨R, r1, U.of_pos ⟨r2, r3, by omega⟩ v2, nonnil_of_mag (by omega)⟩

/-- The same as `mul_V`, with a bound by the values. -/
theorem mul_L {X : Mpi} {A B : Arg} {x a b : Int} {kx ka kb sa sb : Nat} (hX : V X x kx) (hA : VA X A a ka) (hB : VA X B b kb)
    (ha : limbs a.natAbs ≤ sa) (hb : limbs b.natAbs ≤ sb) (h : sa + sb ≤ 10000) :
    ∃ R, mulMpi X A B = .ok R ∧ V R (a * b) (max kx (max 1 (sa + sb))) ∧ R.p ≠ [] ∧ ((A.get X).neg = false → (B.get X).neg = false → R.neg = false) := by
  have h1 : limbs (A.get X).mag ≤ sa := by rw [hA.2.mag]; exact ha
  have h2 : limbs (B.get X).mag ≤ sb := by rw [hB.2.mag]; exact hb
  obtain ⟨R, r1, r2, r3, r4⟩ := (mulMpi_spec hX.wf hA.1 hB.1).1 (by unfold maxLimbs; omega)
  obtain ⟨u1, u2⟩ := mulMpi_up r1
  have h3 : sig (A.get X).p = limbs (A.get X).mag := sig_eq_limbs hA.2.wf.ok
  have h4 : sig (B.get X).p = limbs (B.get X).mag := sig_eq_limbs hB.2.wf.ok
  have h5 := hX.len
  refine ⟨R, r1, ⟨r2, by rw [r3, hA.2.val, hB.2.val], by omega⟩, fun h0 => ?_, u2⟩
  rw [h0, List.length_nil] at r4
  omega

/-- An even modulus is refused whatever the exponent. -/
theorem exp_even {X E N : Mpi} {A : Arg} {e : Int} {n ke kn : Nat} {rr : Option Mpi} (hE : V E e ke) (hN : U N n kn) (hNe : N.p ≠ []) (h : n % 2 = 0) :
    expMod X A E N rr = .err .badInput :=
  (c56_exp_refuse hE.wf hN.wf).2.1 (by rw [hN.v.val]; omega) hNe

end Verif.Rsa
