import Verif.Bignum.Gen
import Mathlib.NumberTheory.Bertrand

/-!
# C65: the generation of primes (`mbedtls_mpi_gen_prime`, bignum.c 2122-2213)

`genPrime g f X nbits dh` tries at most `f` candidates; `running` stands for a search that is not finished by then.
-/

namespace Verif.Bignum

open Verif Verif.Tdp


/-- C65: sizes below 3 and above 8192 bits are refused, before the generator is called. -/
theorem c65_sizes (g : Rng) (f : Nat) (X : Mpi) {nbits : Nat} (h : nbits < 3 ∨ 8192 < nbits) (dh : Bool) (i : Nat) :
    genPrime g f X nbits dh i = (.err .badInput, i) := by
  unfold genPrime
  rw [if_pos (by unfold mpiMaxBits mpiMaxSize; omega)]
  rfl

example : genPrime (constRng 1) 10 Mpi.null 2 false 0 = (.err .badInput, 0) ∧ genPrime (constRng 1) 10 Mpi.null 8193 true 0 = (.err .badInput, 0) :=
  ⟨c65_sizes _ _ _ (by decide) _ _, c65_sizes _ _ _ (by decide) _ _⟩

theorem genPrime_start {g : Rng} (hg : g.Ok) (f : Nat) {X : Mpi} (hX : X.WF) {nbits : Nat} (h1 : 3 ≤ nbits) (h2 : nbits ≤ 8192) (dh : Bool) (i : Nat) :
    (∃ b A, g i (bitsToLimbs nbits * 8) = .ok b ∧ genPrime g f X nbits dh i = (if dh then genSafe g f A else genLoop g f A) (i + 1) ∧ A.WF ∧ A.neg = false ∧
      A.mag = firstCand nbits (beNat b) ∧ A.p ≠ [] ∧ A.p.length ≤ max (bitsToLimbs nbits) X.p.length) ∨
    ∃ e, g i (bitsToLimbs nbits * 8) = .err e ∧ genPrime g f X nbits dh i = (.err e, i + 1) := by
  unfold genPrime
  rw [if_neg (by unfold mpiMaxBits mpiMaxSize; omega), Run.bind_apply]
  rcases genStart_spec hg hX (nbits := nbits) (by omega) (by unfold mpiMaxBits mpiMaxSize; omega) i with ⟨b, A, b1, a1, a2, a3, a4, a5, a6⟩ | ⟨e, e1, e2⟩
  · left
    rw [a1]
    exact ⟨b, A, b1, rfl, a2, a3, a4, a5, a6⟩
  · right
    rw [e2]
    exact ⟨e, e1, rfl⟩

/-- C65: the result of the search for a prime is an odd number of at least `nbits` bits that the primality test accepts; it is the first such number, in steps of 2, from
    the first candidate, that the test does not reject. -/
theorem c65_result {g : Rng} (hg : g.Ok) {f : Nat} {X R : Mpi} (hX : X.WF) {nbits i j : Nat} (h : genPrime g f X nbits false i = (.ok (.done R), j)) :
    ∃ (b : Bytes) (t : Nat), g i (bitsToLimbs nbits * 8) = .ok b ∧ R.WF ∧ R.toInt = firstCand nbits (beNat b) + 2 * t ∧ (2 : Int) ^ (nbits - 1) ≤ R.toInt ∧ R.toInt % 2 = 1 ∧
      (∃ k, isPrime g R k = (.ok (), j)) ∧
      ∀ u : Nat, u < t → ∃ (C : Mpi) (k k' : Nat), C.WF ∧ C.toInt = firstCand nbits (beNat b) + 2 * u ∧ isPrime g C k = (.err .notAcceptable, k') := by
  by_cases hs : nbits < 3 ∨ 8192 < nbits
  · rw [c65_sizes g f X hs] at h; simp at h
  rcases genPrime_start hg f hX (nbits := nbits) (by omega) (by omega) false i with ⟨b, A, b1, a1, a2, a3, a4, a5, -⟩ | ⟨e, -, e2⟩
  · rw [a1] at h
    obtain ⟨t, k, h1, h2, h3, h4, h6⟩ := genLoop_done f a2 a3 h
    obtain ⟨c1, c2, c3⟩ := firstCand_spec (nbits := nbits) (by omega) (beNat b)
    refine ⟨b, t, b1, h1, by rw [toInt_pos h2, h3, a4]; push_cast; ring, ?_, ?_, ⟨k, h4⟩, fun u hu => ?_⟩
    · rw [toInt_pos h2, h3, a4]; zify at c1; push_cast; omega
    · rw [toInt_pos h2, h3, a4]; omega
    · obtain ⟨C, k, k', p1, p2, p3, p4⟩ := h6 u hu
      exact ⟨C, k, k', p1, by rw [toInt_pos p2, p3, a4]; push_cast; ring, p4⟩
  · rw [e2] at h; simp at h

/-- C65: small primes are always really primes. -/
theorem c65_small_prime {g : Rng} (hg : g.Ok) {f : Nat} {X R : Mpi} (hX : X.WF) {nbits i j : Nat} (h : genPrime g f X nbits false i = (.ok (.done R), j))
    (hs : R.toInt < 1009 * 1009) : ∃ p : Nat, p.Prime ∧ R.toInt = p := by
  obtain ⟨b, t, -, h1, h2, h4, -, ⟨k, h3⟩, -⟩ := c65_result hg hX h
  have h5 : (0 : Int) < 2 ^ (nbits - 1) := by positivity
  refine ⟨R.toInt.natAbs, c64_accepted_prime hg h1 h3 (by omega), by omega⟩

/-- C65: the result of the search for a safe prime is `2 * s + 1`, where both it and `s` are accepted by the primality test; it is 11 modulo 12. -/
theorem c65_result_safe {g : Rng} (hg : g.Ok) {f : Nat} {X R : Mpi} (hX : X.WF) {nbits i j : Nat} (h : genPrime g f X nbits true i = (.ok (.done R), j)) :
    ∃ (S : Mpi) (k k' : Nat), R.WF ∧ S.WF ∧ R.toInt = 2 * S.toInt + 1 ∧ isPrime g R k = (.ok (), k') ∧ isPrime g S k' = (.ok (), j) ∧
      (2 : Int) ^ (nbits - 1) ≤ R.toInt ∧ R.toInt % 12 = 11 ∧ 997 < S.toInt := by
  by_cases hs : nbits < 3 ∨ 8192 < nbits
  · rw [c65_sizes g f X hs] at h; simp at h
  rcases genPrime_start hg f hX (nbits := nbits) (by omega) (by omega) true i with ⟨b, A, b1, a1, a2, a3, a4, a5, -⟩ | ⟨e, -, e2⟩
  · rw [a1, if_pos rfl] at h
    obtain ⟨c1, c2, c3⟩ := firstCand_spec (nbits := nbits) (by omega) (beNat b)
    have c4 : 2 ^ 2 ≤ 2 ^ (nbits - 1) := Nat.pow_le_pow_right (by decide) (by omega)
    rw [← a4] at c1 c2 c3
    rcases genSafe_start a2 a3 a5 c3 (by omega) g f (i + 1) with ⟨P, Q, p1, p2, p3, p4, p5, p6, p7, p8, p9, -⟩ | p1
    · rw [p1] at h
      obtain ⟨t, S, k, k', r1, r2, r3, s1, s2, s3, s4, s5, s6⟩ := safeLoop_done f p2 p3 p4 p5 p6 p7 h
      refine ⟨S, k, k', r1, s1, by rw [toInt_pos r2, toInt_pos s2, s3]; push_cast; ring, s5, s6, ?_, ?_, ?_⟩
      · rw [toInt_pos r2]
        have : 2 ^ (nbits - 1) ≤ R.mag := by omega
        exact_mod_cast this
      · rw [toInt_pos r2]; omega
      · rw [toInt_pos s2]; omega
    · rw [p1] at h; simp at h
  · rw [e2] at h; simp at h

theorem genLoop_no_ub {g : Rng} (hg : g.Ok) : ∀ (f : Nat) {X : Mpi} (i : Nat), X.WF → X.neg = false → (genLoop g f X i).1 ≠ .ub ∧ (genLoop g f X i).1 ≠ .ok .one := by
  intro f
  induction f with
  | zero => intro X i _ _; simp [genLoop]
  | succ f ih =>
    intro X i hX hn
    rw [genLoop, Run.bind_apply]
    rcases accepted_cases (isPrime g X) i with ⟨a, k, h1, h2⟩ | ⟨k, h1, h2⟩ | ⟨e, k, h1, -, h2⟩ | ⟨k, h1, h2⟩ <;> rw [h2]
    · simp
    · simp only [Run.next_ok]
      rw [Run.bind_apply, Run.of_apply]
      rcases addSmall_spec hX hn (c := 2) (by decide) (by decide) with ⟨Y, y1, y2, y3, -⟩ | ⟨y1, -⟩
      · change addInt X .self 2 = _ at y1
        rw [y1, Run.next_ok]
        exact ih k y2 y3
      · change addInt X .self 2 = _ at y1
        rw [y1]; simp
    · simp
    · obtain ⟨j, h3 | h3 | ⟨h3, -⟩ | ⟨e, h3, -⟩⟩ := c64_outcomes hg hX i <;> rw [h1] at h3 <;> simp at h3

theorem safeTest_no_ub {g : Rng} (hg : g.Ok) {X Y : Mpi} (hX : X.WF) (hn : X.neg = false) (h1 : 1 < X.mag) (hY : Y.WF) (hYn : Y.neg = false) (hY1 : 1 < Y.mag)
    (i : Nat) : (safeTest g X Y i).1 ≠ .ub := by
  unfold safeTest
  rw [Run.bind_apply, Run.of_apply]
  rcases checkSmall_spec hX hn h1 with ⟨c1, -⟩ | ⟨c1, -, -, -⟩ | ⟨c1, -⟩ <;> rw [c1]
  · simp
  · rw [Run.next_ok, if_neg (by simp), Run.bind_apply, Run.of_apply]
    rcases checkSmall_spec hY hYn hY1 with ⟨d1, -⟩ | ⟨d1, -, hYb, -⟩ | ⟨d1, -⟩ <;> rw [d1]
    · simp
    · rw [Run.next_ok, if_neg (by simp), Run.bind_apply, ← isPrime_of_parts hX hn h1 c1]
      obtain ⟨j, h3 | h3 | ⟨h3, -⟩ | ⟨e, h3, -⟩⟩ := c64_outcomes hg hX i <;> rw [h3]
      · rw [Run.next_ok, Run.bind_apply, ← isPrime_of_parts hY hYn hY1 d1]
        obtain ⟨j, h3 | h3 | ⟨h3, -⟩ | ⟨e, h3, -⟩⟩ := c64_outcomes hg hY j <;> rw [h3] <;> simp
      all_goals simp
    · simp
  · simp

theorem safeLoop_no_ub {g : Rng} (hg : g.Ok) : ∀ (f : Nat) {X Y : Mpi} (i : Nat), X.WF → X.neg = false → 1 < X.mag → Y.WF → Y.neg = false → 1 < Y.mag →
    (safeLoop g f X Y i).1 ≠ .ub := by
  intro f
  induction f with
  | zero => intro X Y i _ _ _ _ _ _; simp [safeLoop]
  | succ f ih =>
    intro X Y i hX hn h1 hY hYn hY1
    rw [safeLoop, Run.bind_apply]
    rcases accepted_cases (safeTest g X Y) i with ⟨a, k, e1, e2⟩ | ⟨k, e1, e2⟩ | ⟨e, k, e1, -, e2⟩ | ⟨k, e1, e2⟩ <;> rw [e2]
    · cases a <;> simp
    · simp only [Run.next_ok]
      rw [Run.bind_apply, Run.of_apply]
      rcases addSmall_spec hX hn (c := 12) (by decide) (by decide) with ⟨A, a1, a2, a3, a4, -⟩ | ⟨a1, -⟩
      · change addInt X .self 12 = _ at a1
        rw [a1, Run.next_ok, Run.bind_apply, Run.of_apply]
        rcases addSmall_spec hY hYn (c := 6) (by decide) (by decide) with ⟨B, b1, b2, b3, b4, -⟩ | ⟨b1, -⟩
        · change addInt Y .self 6 = _ at b1
          rw [b1, Run.next_ok]
          exact ih k a2 a3 (by omega) b2 b3 (by omega)
        · change addInt Y .self 6 = _ at b1
          rw [b1]; simp
      · change addInt X .self 12 = _ at a1
        rw [a1]; simp
    · simp
    · exact absurd (by rw [e1]) (safeTest_no_ub hg hX hn h1 hY hYn hY1 i)

/-- C65: whatever the generator gives, no undefined behaviour, for all sizes and both kinds of search, at every point of the search. -/
theorem c65_no_ub {g : Rng} (hg : g.Ok) (f : Nat) {X : Mpi} (hX : X.WF) (nbits : Nat) (dh : Bool) (i : Nat) : (genPrime g f X nbits dh i).1 ≠ .ub := by
  by_cases hs : nbits < 3 ∨ 8192 < nbits
  · rw [c65_sizes g f X hs]; simp
  rcases genPrime_start hg f hX (nbits := nbits) (by omega) (by omega) dh i with ⟨b, A, b1, a1, a2, a3, a4, a5, -⟩ | ⟨e, -, e2⟩
  · rw [a1]
    cases dh with
    | false => exact (genLoop_no_ub hg f (i + 1) a2 a3).1
    | true =>
      rw [if_pos rfl]
      obtain ⟨c1, c2, c3⟩ := firstCand_spec (nbits := nbits) (by omega) (beNat b)
      have c4 : 2 ^ 2 ≤ 2 ^ (nbits - 1) := Nat.pow_le_pow_right (by decide) (by omega)
      rw [← a4] at c1 c2 c3
      rcases genSafe_start a2 a3 a5 c3 (by omega) g f (i + 1) with ⟨P, Q, p1, p2, p3, p4, p5, p6, p7, p8, p9, -⟩ | p1
      · rw [p1]
        exact safeLoop_no_ub hg f (i + 1) p2 p3 (by omega) p4 p5 p6
      · rw [p1]; simp
  · rw [e2]; simp

example : (genPrime (constRng 12345) 1000 Mpi.null 64 true 0).1 ≠ .ub := c65_no_ub (constRng_ok _) _ Mpi.null_WF _ _ _

/-- C65: the search for a prime ends, with a number of at most `nbits + 1` bits, if the generator does not fail and gives bases for the primes of that size. -/
theorem c65_ends {g : Rng} (hg : g.Ok) (hnf : ∀ i n, ∃ b, g i n = .ok b) {X : Mpi} (hX : X.WF) (hXl : X.p.length ≤ 128) {nbits : Nat} (h1 : 3 ≤ nbits)
    (h2 : nbits ≤ 8127) (hgood : ∀ q, q.Prime → 2 ^ (nbits - 1) ≤ q → q < 2 ^ (nbits + 1) → ∀ k ≤ 128, limbs q ≤ k → g.Good (k * 8) q)
    {f : Nat} (hf : 2 ^ nbits ≤ f) (i : Nat) :
    ∃ R j, genPrime g f X nbits false i = (.ok (.done R), j) ∧ R.toInt < 2 ^ (nbits + 1) := by
  rcases genPrime_start hg f hX (nbits := nbits) (by omega) (by omega) false i with ⟨b, A, b1, a1, a2, a3, a4, a5, a6⟩ | ⟨e, e1, -⟩
  · obtain ⟨c1, c2, c3⟩ := firstCand_spec (nbits := nbits) (by omega) (beNat b)
    rw [← a4] at c1 c2 c3
    have hpos : 0 < 2 ^ (nbits - 1) := by positivity
    obtain ⟨q, q1, q2, q3⟩ := Nat.exists_prime_lt_and_le_two_mul A.mag (by omega)
    have hq : q < 2 ^ (nbits + 1) := by rw [pow_succ]; omega
    have hodd : q % 2 = 1 := by
      rcases q1.eq_two_or_odd with h | h
      · have : 2 ^ 2 ≤ 2 ^ (nbits - 1) := Nat.pow_le_pow_right (by decide) (by omega)
        omega
      · exact h
    have hl : limbs q ≤ 127 := by
      rw [limbs_le_iff]
      refine lt_of_lt_of_le hq ?_
      rw [show (W64 : Nat) = 2 ^ 64 by norm_num, ← pow_mul]
      exact Nat.pow_le_pow_right (by decide) (by omega)
    have hk : bitsToLimbs nbits ≤ 128 := by rw [bitsToLimbs_le]; omega
    obtain ⟨R, j, r1, r2⟩ := genLoop_ends hg hnf q1 hl (hgood q q1 (by omega) hq) ((q - A.mag) / 2) f (i + 1) a2 a3 (by omega) (by omega) (by omega)
    refine ⟨R, j, by rw [a1]; exact r1, ?_⟩
    have h3 : R.toInt ≤ R.mag := by have := natAbs_toInt R; omega
    have h4 : R.mag < 2 ^ (nbits + 1) := by omega
    zify at h4
    omega
  · obtain ⟨b, hb⟩ := hnf i (bitsToLimbs nbits * 8)
    rw [hb] at e1; simp at e1

/-- C65: a first candidate that had to be shortened has its two highest bits set. -/
theorem c65_two_bits {nbits v : Nat} (h : 3 ≤ nbits) (hv : nbits < Nat.size v) : 3 * 2 ^ (nbits - 2) ≤ firstCand nbits v := by
  unfold firstCand
  rw [if_pos hv]
  have h1 : 2 ^ (nbits - 2) ≤ v / 2 ^ (Nat.size v - nbits + 1) := by
    rw [Nat.le_div_iff_mul_le (by positivity), ← pow_add, show nbits - 2 + (Nat.size v - nbits + 1) = Nat.size v - 1 by omega]
    by_contra hc
    have := Nat.size_le.2 (Nat.lt_of_not_le hc)
    omega
  have h2 : v / 2 ^ (Nat.size v - nbits + 1) < 2 ^ (nbits - 1) := by
    rw [Nat.div_lt_iff_lt_mul (by positivity), ← pow_add, show nbits - 1 + (Nat.size v - nbits + 1) = Nat.size v by omega]
    exact Nat.lt_size_self v
  generalize v / 2 ^ (Nat.size v - nbits + 1) = u at *
  refine le_trans ?_ Nat.left_le_or
  have h3 : u ||| 2 ^ (nbits - 1) = u + 2 ^ (nbits - 1) := by
    rw [Nat.or_comm]
    have := Nat.two_pow_add_eq_or_of_lt h2 1
    rw [mul_one] at this
    omega
  rw [h3]
  have : 2 ^ (nbits - 1) = 2 * 2 ^ (nbits - 2) := by rw [← pow_succ', show nbits - 2 + 1 = nbits - 1 by omega]
  omega

example : 3 * 2 ^ 8 ≤ firstCand 10 (2 ^ 40 + 5) := c65_two_bits (nbits := 10) (by decide) (by decide +kernel)

/-- C65, a negative result: a prime of `nbits` bits is not what the search gives in all cases; here a request for 4 bits gives 17. -/
theorem c65_bits_false : ∃ (g : Rng) (f : Nat) (X R : Mpi) (j : Nat), g.Ok ∧ X.WF ∧ genPrime g f X 4 false 0 = (.ok (.done R), j) ∧ R.toInt = 17 ∧ Nat.size 17 = 5 :=
  ⟨constRng 15, 2, Mpi.null, ⟨false, [17]⟩, 1, constRng_ok _, Mpi.null_WF, by decide +kernel, by decide +kernel, by decide +kernel⟩

/-- C65, a negative result: the search for a safe prime returns 1, which is neither success nor an error code of the library, when it meets a small prime. -/
theorem c65_one : ∃ (g : Rng) (f : Nat) (X : Mpi) (j : Nat), g.Ok ∧ X.WF ∧ genPrime g f X 3 true 0 = (.ok .one, j) :=
  ⟨constRng 5, 1, Mpi.null, 1, constRng_ok _, Mpi.null_WF, by decide +kernel⟩

/-! ## Cases -/

theorem gen17 : genPrime (constRng 15) 2 Mpi.null 4 false 0 = (.ok (.done ⟨false, [17]⟩), 1) := by decide +kernel

example : ∃ (b : Bytes) (t : Nat), (17 : Int) = firstCand 4 (beNat b) + 2 * t ∧ ∀ u : Nat, u < t →
    ∃ (C : Mpi) (k k' : Nat), C.toInt = firstCand 4 (beNat b) + 2 * u ∧ isPrime (constRng 15) C k = (.err .notAcceptable, k') := by
  obtain ⟨b, t, -, -, h1, -, -, -, h2⟩ := c65_result (constRng_ok _) Mpi.null_WF gen17
  refine ⟨b, t, h1, fun u hu => ?_⟩
  obtain ⟨C, k, k', -, h3⟩ := h2 u hu
  exact ⟨C, k, k', h3⟩

example : ∃ p : Nat, p.Prime ∧ (17 : Int) = p := c65_small_prime (constRng_ok _) Mpi.null_WF gen17 (by decide)

/-- A generator that gives 2039 first, and then 2. -/
def rng2039 : Rng := fun i n => .ok (beBytes n (if i = 0 then 2039 else 2))
theorem rng2039_ok : rng2039.Ok := fun _ n => Or.inl ⟨_, rfl, beBytes_length n _⟩

example : ∃ j, genPrime rng2039 1 Mpi.null 11 true 0 = (.ok (.done ⟨false, [2039]⟩), j) ∧
    ∃ (S : Mpi) (k k' : Nat), (2039 : Int) = 2 * S.toInt + 1 ∧ isPrime rng2039 S k' = (.ok (), j) := by
  have h : genPrime rng2039 1 Mpi.null 11 true 0 = (.ok (.done ⟨false, [2039]⟩), (genPrime rng2039 1 Mpi.null 11 true 0).2) := by decide +kernel
  obtain ⟨S, k, k', -, -, h1, -, h2, -⟩ := c65_result_safe rng2039_ok Mpi.null_WF h
  exact ⟨_, h, S, k, k', h1, h2⟩

example : ∃ R j, genPrime (constRng 2) 8 Mpi.null 3 false 0 = (.ok (.done R), j) ∧ R.toInt < 2 ^ 4 :=
  c65_ends (constRng_ok 2) (fun _ n => ⟨_, rfl⟩) Mpi.null_WF (by decide) (by decide) (by decide)
    (fun q hq h1 _ k _ hk => by
      have h1' : 4 ≤ q := h1
      have hk0 : k ≠ 0 := fun h0 => by
        rw [h0, limbs_le_iff, pow_zero] at hk
        omega
      refine constRng_good ?_ (by decide) ?_
      · exact lt_of_lt_of_le (by decide : 2 < 256 ^ 1) (Nat.pow_le_pow_right (by decide) (by omega))
      · rcases Nat.lt_or_ge q 5 with h | h
        · have : q = 4 := by omega
          rw [this] at hq
          exact absurd hq (by norm_num)
        · omega) (by decide) 0

end Verif.Bignum
