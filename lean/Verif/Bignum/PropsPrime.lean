import Verif.Bignum.Prime
import Verif.Bignum.Rabin
import Mathlib.Data.Nat.Size
import Mathlib.Tactic.NormNum.Prime

/-!
# Properties of the primality test (C64)
-/

namespace Verif.Bignum

open Verif Verif.Tdp

/-! ## All the outcomes -/

/-- `mbedtls_mpi_is_prime` is the trial division followed by the Miller-Rabin test. -/
theorem isPrime_eq (g : Rng) {X : Mpi} (hX : X.WF) (i : Nat) :
    (X.mag < 2 ∧ isPrime g X i = (.err .notAcceptable, i)) ∨
    (X.mag.Prime ∧ X.mag ≤ 997 ∧ isPrime g X i = (.ok (), i)) ∨
    ((∃ q, q.Prime ∧ q ≤ 997 ∧ q ∣ X.mag ∧ q < X.mag) ∧ isPrime g X i = (.err .notAcceptable, i)) ∨
    (X.mag % 2 = 1 ∧ 997 < X.mag ∧ (∀ q, q.Prime → q < 1009 → ¬ q ∣ X.mag) ∧ isPrime g X i = millerRabin g { X with neg := false } i) := by
  have hW : Mpi.WF { X with neg := false } := ⟨hX.ok, hX.len⟩
  have ht : Mpi.toInt { X with neg := false } = X.mag := rfl
  unfold isPrime
  rw [cmpInt_spec hW (by decide), cmpInt_spec hW (by decide), cmpInt_spec hW (by decide), ht]
  by_cases h01 : X.mag < 2
  · left
    rw [if_pos (by rw [sgn_zero_iff, sgn_zero_iff]; omega)]
    exact ⟨h01, rfl⟩
  · right
    rw [if_neg (by rw [sgn_zero_iff, sgn_zero_iff]; omega)]
    by_cases h2 : X.mag = 2
    · left
      rw [if_pos (by rw [sgn_zero_iff]; omega)]
      exact ⟨by rw [h2]; exact Nat.prime_two, by omega, rfl⟩
    · rw [if_neg (by rw [sgn_zero_iff]; omega), Run.bind_apply, Run.of_apply]
      rcases checkSmall_spec hW rfl (show 1 < Mpi.mag { X with neg := false } by rw [mag_neg]; omega) with ⟨h1, h3, h4, h5⟩ | ⟨h1, h3, h4, h5⟩ | ⟨h1, h3⟩
      · left
        rw [mag_neg] at h3 h5
        rw [h1]
        exact ⟨h3, h5, rfl⟩
      · right; right
        rw [mag_neg] at h3 h4 h5
        rw [h1]
        exact ⟨h3, h4, h5, rfl⟩
      · right; left
        rw [mag_neg] at h3
        rw [h1]
        exact ⟨by rcases h3 with h3 | h3; · omega
                  · exact h3, rfl⟩

theorem Passes.length {g : Rng} {sz n r i j : Nat} {l : List Nat} (h : Passes g sz n r i l j) : l.length = r := by
  induction h with
  | nil => rfl
  | cons _ _ _ ih => rw [List.length_cons, ih]

theorem Passes.le {g : Rng} {sz n r i j : Nat} {l : List Nat} (h : Passes g sz n r i l j) : i ≤ j := by
  induction h with
  | nil => exact le_refl _
  | cons h1 _ _ ih => have := h1.lt; omega

theorem Passes.mem {g : Rng} {sz n r i j : Nat} {l : List Nat} (h : Passes g sz n r i l j) :
    ∀ a ∈ l, 1 < a ∧ a < n - 1 ∧ Strong n a ∧ ∃ k b, i ≤ k ∧ k < j ∧ g k sz = .ok b ∧ a = baseOf n b := by
  induction h with
  | nil => simp
  | cons h1 h2 h3 ih =>
    intro a ha
    rcases List.mem_cons.1 ha with rfl | ha
    · obtain ⟨-, t, -, -, ⟨b, b1, b2, b3⟩, h5, h6⟩ := h1
      have := h3.le
      exact ⟨h5.1, h5.2, h2, _, b, by omega, by omega, b1, b3.symm⟩
    · obtain ⟨p1, p2, p3, k, b, k1, k2, k3⟩ := ih a ha
      have := h1.lt
      exact ⟨p1, p2, p3, k, b, by omega, k2, k3⟩

/-- The number is too large for the buffer of `mbedtls_mpi_fill_random`. -/
theorem millerRabin_big (g : Rng) {X : Mpi} (hX : X.WF) (hn : X.neg = false) (h3 : 3 < X.mag) (hl : 128 < X.p.length) (i : Nat) :
    millerRabin g X i = (.err .badInput, i) := by
  have hlt := hX.mag_lt
  obtain ⟨W, w1, w2, w3⟩ := (subMpi_spec Mpi.null_WF (A := .ext X) hX (B := .ext (small 1)) (small_WF (by decide))).1 (by
    show (X.toInt - (small 1).toInt).natAbs < _
    rw [toInt_pos hn, show (small 1).toInt = 1 from rfl]
    generalize W64 ^ maxLimbs = w at *
    omega)
  obtain ⟨R, r1, r2, r3, r4, -⟩ := copy_spec Mpi.null_WF w2
  obtain ⟨S, s1, s2, s3, s4, -⟩ := shiftR_spec r2 (lsb W)
  obtain ⟨k, hk⟩ : ∃ k, mrRounds (bitlenL X) = k + 1 := ⟨mrRounds (bitlenL X) - 1, by unfold mrRounds; split_ifs <;> rfl⟩
  unfold millerRabin subInt
  rw [Run.bind_apply, Run.of_apply, w1, Run.next_ok, Run.bind_apply, Run.of_apply, r1, Run.next_ok, Run.bind_apply, Run.of_apply, s1, Run.next_ok, hk, mrLoop,
    Run.bind_apply]
  unfold firstDraw fillRandom
  rw [Run.bind_apply, if_pos (by unfold mpiMaxSize; omega)]
  rfl

theorem isX_of {X : Mpi} (hX : X.WF) (ho : X.mag % 2 = 1) (hb : 997 < X.mag) (hl : X.p.length ≤ 128) : IsX { X with neg := false } X.mag :=
  ⟨⟨hX.ok, hX.len⟩, rfl, rfl, ho, by omega, hl⟩

/-- The number of rounds that table 4.4 of the Handbook of Applied Cryptography asks for. -/
def HacRounds (n k : Nat) : Prop :=
  (Nat.size n < 150 → k = 27) ∧ (150 ≤ Nat.size n → Nat.size n < 250 → k = 18) ∧ (250 ≤ Nat.size n → Nat.size n < 350 → k = 12) ∧
  (350 ≤ Nat.size n → Nat.size n < 650 → k = 8) ∧ (650 ≤ Nat.size n → Nat.size n < 850 → k = 4) ∧ (850 ≤ Nat.size n → Nat.size n < 1300 → k = 3) ∧
  (1300 ≤ Nat.size n → k = 2)

theorem bitlen_eq_size (n : Nat) : bitlen n = Nat.size n := by
  have key : ∀ k, bitlen n ≤ k ↔ Nat.size n ≤ k := fun k => by rw [bitlen_le_iff, Nat.size_le]
  exact le_antisymm ((key _).2 (le_refl _)) ((key _).1 (le_refl _))

theorem mrRounds_hac (n : Nat) : HacRounds n (mrRounds (bitlen n)) := by
  rw [bitlen_eq_size]
  unfold HacRounds mrRounds
  refine ⟨fun h => ?_, fun h h' => ?_, fun h h' => ?_, fun h h' => ?_, fun h h' => ?_, fun h h' => ?_, fun h => ?_⟩ <;> split_ifs <;> omega

/-! ## C64 -/

/-- C64: what an accepted number is.  A prime up to 997, or an odd number without a prime factor below 1009 that is a strong probable prime for as many
    bases as the table asks for, each of them drawn from the generator and between 1 and `n - 1`. -/
theorem c64_accepted {g : Rng} (hg : g.Ok) {X : Mpi} (hX : X.WF) {i j : Nat} (h : isPrime g X i = (.ok (), j)) :
    (X.toInt.natAbs.Prime ∧ X.toInt.natAbs ≤ 997) ∨
    (997 < X.toInt.natAbs ∧ (∀ q, q.Prime → q < 1009 → ¬ q ∣ X.toInt.natAbs) ∧
      ∃ bases : List Nat, HacRounds X.toInt.natAbs bases.length ∧ ∀ a ∈ bases, 1 < a ∧ a < X.toInt.natAbs - 1 ∧ Strong X.toInt.natAbs a ∧
        ∃ k b, i ≤ k ∧ k < j ∧ g k (X.p.length * 8) = .ok b ∧ a = baseOf X.toInt.natAbs b) := by
  rw [natAbs_toInt]
  rcases isPrime_eq g hX i with ⟨-, h1⟩ | ⟨h1, h2, -⟩ | ⟨-, h1⟩ | ⟨h1, h2, h3, h4⟩
  · rw [h1] at h; simp at h
  · exact Or.inl ⟨h1, h2⟩
  · rw [h1] at h; simp at h
  · right
    rw [h4] at h
    refine ⟨h2, h3, ?_⟩
    by_cases hl : X.p.length ≤ 128
    · rcases millerRabin_spec hg (isX_of hX h1 h2 hl) i with ⟨l, k, l1, l2⟩ | ⟨k, l1, -⟩ | ⟨e, k, l1, -⟩
      · rw [l1] at h
        obtain rfl : k = j := by simpa using h
        refine ⟨l, ?_, l2.mem⟩
        rw [l2.length]
        exact mrRounds_hac _
      · rw [l1] at h; simp at h
      · rw [l1] at h; simp at h
    · rw [millerRabin_big g (X := { X with neg := false }) ⟨hX.ok, hX.len⟩ rfl (by rw [mag_neg]; omega) (by show 128 < X.p.length; omega)] at h
      simp at h

/-- C64: a number below 1009² that is accepted is a prime. -/
theorem c64_accepted_prime {g : Rng} (hg : g.Ok) {X : Mpi} (hX : X.WF) {i j : Nat} (h : isPrime g X i = (.ok (), j)) (hlt : X.toInt.natAbs < 1009 * 1009) :
    X.toInt.natAbs.Prime := by
  rcases c64_accepted hg hX h with ⟨h1, -⟩ | ⟨h1, h2, -⟩
  · exact h1
  · by_contra hnp
    have hm := Nat.minFac_prime (n := X.toInt.natAbs) (by omega)
    have h3 := h2 _ hm
    have h4 := Nat.minFac_sq_le_self (n := X.toInt.natAbs) (by omega) hnp
    by_cases h5 : X.toInt.natAbs.minFac < 1009
    · exact h3 h5 (Nat.minFac_dvd _)
    · nlinarith

/-- C64: an accepted composite number passes for all the bases drawn, although it passes for at most a quarter of the bases. -/
theorem c64_composite_quarter {g : Rng} (hg : g.Ok) {X : Mpi} (hX : X.WF) {i j : Nat} (h : isPrime g X i = (.ok (), j)) (hc : ¬ X.toInt.natAbs.Prime) :
    ∃ (liars : Finset Nat) (bases : List Nat), 4 * liars.card ≤ X.toInt.natAbs - 1 ∧ (∀ a ∈ liars, a < X.toInt.natAbs ∧ Strong X.toInt.natAbs a) ∧
      HacRounds X.toInt.natAbs bases.length ∧ ∀ a ∈ bases, a ∈ liars ∧ ∃ k b, i ≤ k ∧ k < j ∧ g k (X.p.length * 8) = .ok b ∧ a = baseOf X.toInt.natAbs b := by
  classical
  rcases c64_accepted hg hX h with ⟨h1, -⟩ | ⟨h1, h2, bases, h3, h4⟩
  · exact absurd h1 hc
  · have ho : X.toInt.natAbs % 2 = 1 := by
      have := h2 2 Nat.prime_two (by decide)
      omega
    refine ⟨(Finset.range X.toInt.natAbs).filter (Strong X.toInt.natAbs), bases, strong_quarter (by omega) ho hc, ?_, h3, fun a ha => ?_⟩
    · intro a ha; rw [Finset.mem_filter, Finset.mem_range] at ha; exact ha
    · obtain ⟨p1, p2, p3, p4⟩ := h4 a ha
      exact ⟨by rw [Finset.mem_filter, Finset.mem_range]; exact ⟨by omega, p3⟩, p4⟩

/-- C64: Rabin's theorem, on which the number of rounds is based. -/
theorem c64_rabin {n : Nat} (hn : 1 < n) (ho : n % 2 = 1) (hc : ¬ n.Prime) (liars : Finset Nat) (h : ∀ a ∈ liars, a < n ∧ Strong n a) :
    4 * liars.card ≤ n - 1 := by
  classical
  refine le_trans (Nat.mul_le_mul_left 4 (Finset.card_le_card fun a ha => ?_)) (strong_quarter hn ho hc)
  rw [Finset.mem_filter, Finset.mem_range]
  exact h a ha

/-- A generator that does not fail and, in every 31 consecutive calls, gives at least one number that can be used as a base for `n`. -/
def Rng.Good (g : Rng) (sz n : Nat) : Prop :=
  (∀ i, ∃ b, g i sz = .ok b) ∧ ∀ i, ∃ u < 31, ∃ b, g (i + u) sz = .ok b ∧ Usable n (baseOf n b)

theorem Rejects.not_prime {g : Rng} {sz n r i j : Nat} (h : Rejects g sz n r i j) (hg : g.Good sz n) : ¬ n.Prime := by
  intro hp
  have hs : ∀ a, Usable n a → Strong n a := fun a ha => strong_of_prime hp fun hd => by
    have := Nat.le_of_dvd (by unfold Usable at ha; omega) hd
    unfold Usable at ha; omega
  induction h with
  | none _ h =>
    obtain ⟨u, hu, b, h1, h2⟩ := hg.2 _
    obtain ⟨b', h3, -, h4⟩ := h u hu
    rw [h1, Out.ok.injEq] at h3
    rw [← h3] at h4
    exact h4 h2
  | fails h1 h2 =>
    obtain ⟨-, t, -, -, -, h5, -⟩ := h1
    exact h2 (hs _ h5)
  | cons _ _ _ ih => exact ih

/-- C64: a prime is accepted, if the generator gives usable bases often enough. -/
theorem c64_prime_accepted_partial {g : Rng} (hg : g.Ok) {X : Mpi} (hX : X.WF) (hp : X.toInt.natAbs.Prime) (hl : X.p.length ≤ 128)
    (hgood : g.Good (X.p.length * 8) X.toInt.natAbs) (i : Nat) : ∃ j, isPrime g X i = (.ok (), j) := by
  rw [natAbs_toInt] at hp hgood
  rcases isPrime_eq g hX i with ⟨h1, -⟩ | ⟨-, -, h1⟩ | ⟨h1, -⟩ | ⟨h1, h2, h3, h4⟩
  · have := hp.two_le; omega
  · exact ⟨i, h1⟩
  · obtain ⟨q, q1, -, q2, q3⟩ := h1
    have := (Nat.dvd_prime hp).1 q2
    have := q1.two_le
    omega
  · rw [h4]
    rcases millerRabin_spec hg (isX_of hX h1 h2 hl) i with ⟨l, k, l1, -⟩ | ⟨k, -, l2⟩ | ⟨e, k, -, t, -, -, l2⟩
    · exact ⟨k, l1⟩
    · exact absurd hp (l2.not_prime hgood)
    · obtain ⟨b, hb⟩ := hgood.1 t
      have l3 : g t (X.p.length * 8) = .err e := l2
      rw [hb] at l3
      exact absurd l3 (by simp)

/-- C64: every number is accepted, or rejected, or the generator fails with this error, or the number has more than 128 limbs; there is no access outside
    an array. -/
theorem c64_outcomes {g : Rng} (hg : g.Ok) {X : Mpi} (hX : X.WF) (i : Nat) :
    ∃ j, isPrime g X i = (.ok (), j) ∨ isPrime g X i = (.err .notAcceptable, j) ∨ (isPrime g X i = (.err .badInput, j) ∧ 128 < X.p.length) ∨
      ∃ e, isPrime g X i = (.err e, j) ∧ ∃ t, i ≤ t ∧ t < j ∧ g t (X.p.length * 8) = .err e := by
  rcases isPrime_eq g hX i with ⟨-, h1⟩ | ⟨-, -, h1⟩ | ⟨-, h1⟩ | ⟨h1, h2, h3, h4⟩
  · exact ⟨i, Or.inr (Or.inl h1)⟩
  · exact ⟨i, Or.inl h1⟩
  · exact ⟨i, Or.inr (Or.inl h1)⟩
  · rw [h4]
    by_cases hl : X.p.length ≤ 128
    · rcases millerRabin_spec hg (isX_of hX h1 h2 hl) i with ⟨l, k, l1, -⟩ | ⟨k, l1, -⟩ | ⟨e, k, l1, t, t1, t2, t3⟩
      · exact ⟨k, Or.inl l1⟩
      · exact ⟨k, Or.inr (Or.inl l1)⟩
      · exact ⟨k, Or.inr (Or.inr (Or.inr ⟨e, l1, t, t1, by omega, t3⟩))⟩
    · exact ⟨i, Or.inr (Or.inr (Or.inl ⟨millerRabin_big g (X := { X with neg := false }) ⟨hX.ok, hX.len⟩ rfl (by rw [mag_neg]; omega) (by show 128 < X.p.length; omega) i, by omega⟩))⟩

/-- C64: 0, 1 and the composite numbers with a prime factor up to 997 are rejected whatever the generator does, and the primes up to 997 are accepted
    without asking it; the sign does not matter. -/
theorem c64_small {g : Rng} {X : Mpi} (hX : X.WF) (i : Nat) :
    (X.toInt.natAbs < 2 → isPrime g X i = (.err .notAcceptable, i)) ∧
    (X.toInt.natAbs.Prime → X.toInt.natAbs ≤ 997 → isPrime g X i = (.ok (), i)) ∧
    (∀ q, q.Prime → q ≤ 997 → q ∣ X.toInt.natAbs → q ≠ X.toInt.natAbs → isPrime g X i = (.err .notAcceptable, i)) := by
  rw [natAbs_toInt]
  rcases isPrime_eq g hX i with ⟨h0, h1⟩ | ⟨h0, h1, h2⟩ | ⟨h0, h1⟩ | ⟨h1, h2, h3, h4⟩
  · refine ⟨fun _ => h1, fun h => ?_, fun _ _ _ _ _ => h1⟩
    have := h.two_le; omega
  · refine ⟨fun h => ?_, fun _ _ => h2, fun q hq _ hd hne => ?_⟩
    · have := h0.two_le; omega
    · have := (Nat.dvd_prime h0).1 hd
      have := hq.two_le
      omega
  · refine ⟨fun _ => h1, fun h _ => ?_, fun _ _ _ _ _ => h1⟩
    obtain ⟨q, q1, -, q2, q3⟩ := h0
    have := (Nat.dvd_prime h).1 q2
    have := q1.two_le
    omega
  · refine ⟨fun h => by omega, fun _ h => by omega, fun q hq hq' hd _ => ?_⟩
    exact absurd hd (h3 q hq (by omega))

/-! ## A generator that always gives the same number -/

/-- A generator that always gives the number `a`. -/
def constRng (a : Nat) : Rng := fun _ n => .ok (beBytes n a)

theorem constRng_ok (a : Nat) : (constRng a).Ok := fun _ n => Or.inl ⟨_, rfl, beBytes_length n a⟩

theorem constRng_base {a n sz : Nat} (h : a < 256 ^ sz) (ha : a < n - 1) : baseOf n (beBytes sz a) = a := by
  unfold baseOf cutVal
  rw [beNat_beBytes_of_lt h]
  have : bitlen a ≤ bitlen (n - 1) := by
    rw [bitlen_le_iff]
    exact lt_trans ha ((bitlen_le_iff _ _).1 (le_refl _))
  rw [Nat.sub_eq_zero_of_le this, pow_zero, Nat.div_one]

theorem constRng_good {a n sz : Nat} (h : a < 256 ^ sz) (h1 : 1 < a) (ha : a < n - 1) : (constRng a).Good sz n :=
  ⟨fun _ => ⟨_, rfl⟩, fun _ => ⟨0, by decide, _, rfl, by rw [constRng_base h ha]; exact ⟨h1, ha⟩⟩⟩

theorem constRng_rejects {a n sz : Nat} (h : a < 256 ^ sz) (h1 : 1 < a) (ha : a < n - 1) (hs : Strong n a) {r i j : Nat} :
    ¬ Rejects (constRng a) sz n r i j := by
  intro hr
  induction hr with
  | none _ h2 =>
    obtain ⟨b, h3, -, h4⟩ := h2 0 (by decide)
    have h5 : beBytes sz a = b := by simpa [constRng] using h3
    rw [← h5, constRng_base h ha] at h4
    exact h4 ⟨h1, ha⟩
  | fails h2 h3 =>
    obtain ⟨-, t, -, -, ⟨b, b1, -, b2⟩, -⟩ := h2
    have h5 : beBytes sz a = b := by simpa [constRng] using b1
    rw [← h5, constRng_base h ha] at b2
    rw [← b2] at h3
    exact h3 hs
  | cons _ _ _ ih => exact ih

/-- C64, the converse of `c64_accepted`: with a generator that always gives `a`, every number without a small factor that passes for `a` is accepted. -/
theorem c64_const_accepted {X : Mpi} (hX : X.WF) (hl : X.p.length ≤ 128) {a : Nat} (h1 : 1 < a) (ha : a < X.toInt.natAbs - 1) (hs : Strong X.toInt.natAbs a)
    (hf : ∀ q, q.Prime → q ≤ 997 → ¬ q ∣ X.toInt.natAbs) (i : Nat) : ∃ j, isPrime (constRng a) X i = (.ok (), j) := by
  rw [natAbs_toInt] at ha hs hf
  have hsz : a < 256 ^ (X.p.length * 8) := by
    have := val_lt hX.ok
    rw [pow_mul', show (256 : Nat) ^ 8 = W64 by norm_num]
    exact lt_trans (by show a < X.mag; omega) this
  rcases isPrime_eq (constRng a) hX i with ⟨h2, -⟩ | ⟨-, -, h2⟩ | ⟨⟨q, q1, q2, q3, -⟩, -⟩ | ⟨h2, h3, h4, h5⟩
  · omega
  · exact ⟨i, h2⟩
  · exact absurd q3 (hf q q1 q2)
  · rw [h5]
    rcases millerRabin_spec (constRng_ok a) (isX_of hX h2 h3 hl) i with ⟨l, k, l1, -⟩ | ⟨k, -, l2⟩ | ⟨e, k, -, t, -, -, l2⟩
    · exact ⟨k, l1⟩
    · exact absurd l2 (constRng_rejects hsz h1 ha hs)
    · simp [constRng] at l2

/-- The square of 1093. -/
def sq1093 : Mpi := ⟨false, [1194649]⟩

theorem sq1093_WF : sq1093.WF := ⟨by unfold LOk sq1093; decide, by decide⟩
theorem sq1093_val : sq1093.toInt.natAbs = 1093 * 1093 := by decide

theorem sq1093_strong : Strong (1093 * 1093) 2 := by
  rw [strong_iff (s := 3) (m := 149331) (by norm_num) (by norm_num)]
  right
  exact ⟨1, by norm_num, by decide +kernel⟩

theorem sq1093_factors : ∀ q, q.Prime → q ≤ 997 → ¬ q ∣ 1093 * 1093 := by
  intro q hq hle hd
  rcases hq.dvd_mul.1 hd with h | h <;> rcases (Nat.dvd_prime (by norm_num : Nat.Prime 1093)).1 h with h | h <;> have := hq.two_le <;> omega

/-- C64: with a bad generator a composite number is accepted: 1093², if the generator always gives 2. -/
theorem c64_accepted_prime_false : ∃ (g : Rng) (X : Mpi) (j : Nat), g.Ok ∧ X.WF ∧ isPrime g X 0 = (.ok (), j) ∧ ¬ X.toInt.natAbs.Prime := by
  obtain ⟨j, hj⟩ := c64_const_accepted sq1093_WF (by decide) (a := 2) (by decide) (by rw [sq1093_val]; decide) (by rw [sq1093_val]; exact sq1093_strong)
    (by rw [sq1093_val]; exact sq1093_factors) 0
  exact ⟨_, _, j, constRng_ok 2, sq1093_WF, hj, by rw [sq1093_val]; exact Nat.not_prime_mul (by decide) (by decide)⟩

/-- The prime 1009. -/
def p1009 : Mpi := ⟨false, [1009]⟩
theorem p1009_WF : p1009.WF := ⟨by unfold LOk p1009; decide, by decide⟩
theorem p1009_val : p1009.toInt.natAbs = 1009 := by decide

-- the hypotheses of the theorems above are met by 1009 and a generator that always gives 2
example : ∃ j, isPrime (constRng 2) p1009 0 = (.ok (), j) :=
  c64_prime_accepted_partial (constRng_ok 2) p1009_WF (by rw [p1009_val]; norm_num) (by decide)
    (by rw [p1009_val]; exact constRng_good (by decide) (by decide) (by decide)) 0

example : ∃ j, isPrime (constRng 2) p1009 0 = (.ok (), j) ∧ p1009.toInt.natAbs.Prime := by
  obtain ⟨j, h⟩ := c64_prime_accepted_partial (constRng_ok 2) p1009_WF (by rw [p1009_val]; norm_num) (by decide)
    (by rw [p1009_val]; exact constRng_good (by decide) (by decide) (by decide)) 0
  exact ⟨j, h, c64_accepted_prime (constRng_ok 2) p1009_WF h (by rw [p1009_val]; decide)⟩

-- an accepted composite number: the 27 bases are among at most a quarter of the numbers
example : ∃ (liars : Finset Nat) (bases : List Nat), 4 * liars.card ≤ 1093 * 1093 - 1 ∧ bases.length = 27 ∧ ∀ a ∈ bases, a ∈ liars := by
  obtain ⟨j, hj⟩ := c64_const_accepted sq1093_WF (by decide) (a := 2) (by decide) (by rw [sq1093_val]; decide) (by rw [sq1093_val]; exact sq1093_strong)
    (by rw [sq1093_val]; exact sq1093_factors) 0
  obtain ⟨L, B, h1, -, h3, h4⟩ := c64_composite_quarter (constRng_ok 2) sq1093_WF hj (by rw [sq1093_val]; exact Nat.not_prime_mul (by decide) (by decide))
  rw [sq1093_val] at h1 h3
  exact ⟨L, B, h1, h3.1 (by rw [← bitlen_eq_size]; decide +kernel), fun a ha => (h4 a ha).1⟩

example : 4 * ({1, 8} : Finset Nat).card ≤ 9 - 1 := c64_rabin (n := 9) (by decide) (by decide) (by norm_num) {1, 8} (by
  intro a ha
  rcases Finset.mem_insert.1 ha with rfl | ha
  · exact ⟨by decide, 3, 1, by decide, by decide, Or.inl (by decide)⟩
  · rw [Finset.mem_singleton.1 ha]
    exact ⟨by decide, 3, 1, by decide, by decide, Or.inr ⟨0, by decide, by decide⟩⟩)

example : isPrime (constRng 0) ⟨true, [997]⟩ 5 = (.ok (), 5) ∧ isPrime (constRng 0) ⟨false, [997 * 997]⟩ 5 = (.err .notAcceptable, 5) :=
  ⟨(c64_small ⟨by unfold LOk; decide, by decide⟩ 5).2.1 (by rw [show (Mpi.toInt ⟨true, [997]⟩).natAbs = 997 by decide]; norm_num) (by decide),
   (c64_small ⟨by unfold LOk; decide, by decide⟩ 5).2.2 997 (by norm_num) (by decide) (by decide) (by decide)⟩

/-! ## The bases are not chosen evenly -/

/-- C64: a call that gives a number at least as long as `n - 1` gives a base whose highest bit is set. -/
theorem c64_bases_high {n : Nat} {b : Bytes} (h : Nat.size (n - 1) ≤ Nat.size (beNat b)) (h1 : 1 < n) : 2 ^ (Nat.size (n - 1) - 1) ≤ baseOf n b := by
  unfold baseOf cutVal
  rw [bitlen_eq_size, bitlen_eq_size, Nat.le_div_iff_mul_le (by positivity), ← pow_add]
  have h2 : 1 ≤ Nat.size (n - 1) := Nat.size_pos.2 (by omega)
  have h3 : ¬ beNat b < 2 ^ (Nat.size (beNat b) - 1) := fun h => by
    have := Nat.size_le.2 h; omega
  rw [show Nat.size (n - 1) - 1 + (Nat.size (beNat b) - Nat.size (n - 1)) = Nat.size (beNat b) - 1 by omega]
  omega

example : 2 ^ 9 ≤ baseOf 1009 (beBytes 8 (2 ^ 40 + 77)) := c64_bases_high (n := 1009) (by decide +kernel) (by decide)

/-- C64, the converse of `c64_prime_accepted_partial` in a case that matters: a number `2^m + 1`, also if it is a prime, is rejected if every call of the
    generator gives a number of more than `m` bits. -/
theorem c64_fermat_rejected {g : Rng} (hg : g.Ok) {X : Mpi} (hX : X.WF) {m : Nat} (hm : X.toInt.natAbs = 2 ^ m + 1) (hbig : 997 < X.toInt.natAbs)
    (hl : X.p.length ≤ 128) (hlong : ∀ i, ∃ b, g i (X.p.length * 8) = .ok b ∧ 2 ^ m ≤ beNat b) (i : Nat) :
    ∃ j, isPrime g X i = (.err .notAcceptable, j) := by
  rw [natAbs_toInt] at hm hbig
  have hnb : ∀ (t : Nat) (b : Bytes), g t (X.p.length * 8) = .ok b → ¬ Usable X.mag (baseOf X.mag b) := by
    intro t b hb hu
    obtain ⟨b', h1, h2⟩ := hlong t
    rw [hb, Out.ok.injEq] at h1
    subst h1
    have hsz : Nat.size (X.mag - 1) = m + 1 := by
      rw [hm, Nat.add_sub_cancel, Nat.size_pow]
    have := c64_bases_high (n := X.mag) (b := b) (by
      rw [hsz]
      exact Nat.lt_size.2 h2) (by omega)
    rw [hsz, Nat.add_sub_cancel] at this
    have := hu.2
    omega
  rcases isPrime_eq g hX i with ⟨-, h1⟩ | ⟨-, h1, -⟩ | ⟨-, h1⟩ | ⟨h1, h2, h3, h4⟩
  · exact ⟨i, h1⟩
  · omega
  · exact ⟨i, h1⟩
  · rw [h4]
    rcases millerRabin_spec hg (isX_of hX h1 h2 hl) i with ⟨l, k, -, l2⟩ | ⟨k, l1, -⟩ | ⟨e, k, -, t, -, -, l2⟩
    · exfalso
      have hr : 0 < mrRounds (bitlen X.mag) := by unfold mrRounds; split_ifs <;> decide
      generalize mrRounds (bitlen X.mag) = r at l2 hr
      cases l2 with
      | nil => omega
      | cons h5 _ _ =>
        obtain ⟨-, t, -, -, ⟨b, b1, -, b2⟩, b3, -⟩ := h5
        rw [← b2] at b3
        exact hnb _ b b1 b3
    · exact ⟨k, l1⟩
    · obtain ⟨b, hb, -⟩ := hlong t
      have l3 : g t (X.p.length * 8) = .err e := l2
      rw [hb] at l3
      exact absurd l3 (by simp)

/-- C64: the prime 65537 is rejected by every generator whose 8-byte outputs all have at least 17 bits, for instance any whose first byte is never 0. -/
theorem c64_prime_accepted_false : ∃ (X : Mpi), X.WF ∧ X.toInt = 65537 ∧ Nat.Prime 65537 ∧
    ∀ g : Rng, g.Ok → (∀ i, ∃ b, g i 8 = .ok b ∧ 2 ^ 16 ≤ beNat b) → ∀ i, ∃ j, isPrime g X i = (.err .notAcceptable, j) := by
  have hw : Mpi.WF ⟨false, [65537]⟩ := ⟨by unfold LOk; decide, by decide⟩
  exact ⟨⟨false, [65537]⟩, hw, by decide, by norm_num, fun g hg h i => c64_fermat_rejected hg hw (m := 16) (by decide) (by decide) (by decide) h i⟩

example : ∃ j, isPrime (constRng (2 ^ 63 + 12345)) ⟨false, [65537]⟩ 0 = (.err .notAcceptable, j) :=
  c64_fermat_rejected (constRng_ok _) ⟨by unfold LOk; decide, by decide⟩ (m := 16) (by decide) (by decide) (by decide)
    (fun _ => ⟨_, rfl, by rw [beNat_beBytes]; decide⟩) 0

end Verif.Bignum
