import Verif.Bignum.Exp
import Verif.Bignum.ModelInv

/-!
# Greatest common divisor and modular inverse
-/

namespace Verif.Bignum

open Verif
open Verif.Tdp (bitlen mpiSize)

/-! ## Greatest common divisor -/

theorem stein_odd {m m' g i j : Nat} (hg : g % 2 = 1) (h : Nat.gcd (2 ^ i * m) (2 ^ j * m') = g) : Nat.gcd m m' = g := by
  have hc : ∀ k, Nat.Coprime g (2 ^ k) := by
    intro k
    apply Nat.Coprime.pow_right
    rw [Nat.coprime_iff_gcd_eq_one, Nat.gcd_comm, Nat.gcd_rec, hg]; rfl
  apply Nat.dvd_antisymm
  · rw [← h]
    exact Nat.dvd_gcd (Dvd.dvd.mul_left (Nat.gcd_dvd_left _ _) _) (Dvd.dvd.mul_left (Nat.gcd_dvd_right _ _) _)
  · apply Nat.dvd_gcd
    · apply (hc i).dvd_of_dvd_mul_left
      rw [← h]; exact Nat.gcd_dvd_left _ _
    · apply (hc j).dvd_of_dvd_mul_left
      rw [← h]; exact Nat.gcd_dvd_right _ _

theorem stein_sub {m m' : Nat} (hm : m % 2 = 1) (hm' : m' % 2 = 1) (h : m' ≤ m) : Nat.gcd ((m - m') / 2) m' = Nat.gcd m m' := by
  have hc : Nat.Coprime 2 m' := by rw [Nat.coprime_iff_gcd_eq_one, Nat.gcd_rec, hm']; rfl
  have e : m - m' = 2 * ((m - m') / 2) := by omega
  rw [← Nat.gcd_sub_self_left h, e, hc.gcd_mul_left_cancel, ← e]

/-- Removing the factors 2. -/
theorem shiftR_lsb {X : Mpi} (hX : X.WF) (hn : X.neg = false) (h0 : X.mag ≠ 0) :
    ∃ R i, shiftR X (lsb X) = .ok R ∧ R.WF ∧ R.neg = false ∧ R.mag % 2 = 1 ∧ X.mag = 2 ^ i * R.mag := by
  obtain ⟨m, h1, h2⟩ := lsb_spec hX h0
  obtain ⟨R, r1, r2, r3, r4, -⟩ := shiftR_spec hX (lsb X)
  have hm : R.mag = m := by
    rw [r3, h1, Nat.mul_div_cancel_left _ (Nat.pow_pos (by decide))]
  exact ⟨R, lsb X, r1, r2, r4 hn, by rw [hm]; exact h2, by rw [hm]; exact h1⟩

theorem le_two_pow_mul (i m : Nat) : m ≤ 2 ^ i * m := Nat.le_mul_of_pos_left m (Nat.pow_pos (by decide))

theorem gcdLoop_spec : ∀ (f : Nat) {TA TB : Mpi} {g : Nat}, TA.WF → TB.WF → TA.neg = false → TB.neg = false → TB.mag ≠ 0 → g % 2 = 1 →
    Nat.gcd TA.mag TB.mag = g → TA.mag + TB.mag < f → ∃ R, gcdLoop f TA TB = .ok R ∧ R.WF ∧ R.neg = false ∧ R.mag = g := by
  intro f
  induction f with
  | zero => intro TA TB g _ _ _ _ _ _ _ h; omega
  | succ f ih =>
    intro TA TB g hA hB nA nB hB0 hg hgcd hf
    unfold gcdLoop
    by_cases hA0 : TA.mag = 0
    · rw [if_neg (by rw [not_not]; exact (cmpInt_zero_iff hA).2 hA0)]
      rw [hA0, Nat.gcd_zero_left] at hgcd
      exact ⟨TB, rfl, hB, nB, hgcd⟩
    · rw [if_pos (fun h => hA0 ((cmpInt_zero_iff hA).1 h))]
      obtain ⟨A1, i, a1, a2, a3, a4, a5⟩ := shiftR_lsb hA nA hA0
      obtain ⟨B1, j, b1, b2, b3, b4, b5⟩ := shiftR_lsb hB nB hB0
      have hAle := le_two_pow_mul i A1.mag
      have hBle := le_two_pow_mul j B1.mag
      rw [← a5] at hAle
      rw [← b5] at hBle
      rw [a5, b5] at hgcd
      have hgcd := stein_odd hg hgcd
      simp only [a1, b1, Out.bind_ok]
      rw [cmpMpi_spec a2 b2, toInt_pos a3, toInt_pos b3]
      by_cases hge : B1.mag ≤ A1.mag
      · rw [if_pos (by unfold sgn; split_ifs <;> omega)]
        obtain ⟨C, c1, c2, c3, c4⟩ := (subAbs_spec (A := .self) (B := .ext B1) a2 trivial b2).1 hge
        obtain ⟨D, d1, d2, d3, d4, -⟩ := shiftR_spec c2 1
        simp only [c1, d1, Out.bind_ok]
        have hC : C.mag = A1.mag - B1.mag := by
          have : C.mag + B1.mag = A1.mag := c3
          omega
        have hD : D.mag = (A1.mag - B1.mag) / 2 := by rw [d3, hC, pow_one]
        apply ih d2 b2 (d4 c4) b3 (by omega) hg
        · rw [hD, stein_sub a4 b4 hge, hgcd]
        · omega
      · rw [if_neg (by unfold sgn; split_ifs <;> omega)]
        obtain ⟨C, c1, c2, c3, c4⟩ := (subAbs_spec (A := .self) (B := .ext A1) b2 trivial a2).1 (by show A1.mag ≤ B1.mag; omega)
        obtain ⟨D, d1, d2, d3, d4, -⟩ := shiftR_spec c2 1
        simp only [c1, d1, Out.bind_ok]
        have hC : C.mag = B1.mag - A1.mag := by
          have : C.mag + A1.mag = B1.mag := c3
          omega
        have hD : D.mag = (B1.mag - A1.mag) / 2 := by rw [d3, hC, pow_one]
        apply ih a2 d2 a3 (d4 c4) (by omega) hg
        · rw [Nat.gcd_comm, hD, stein_sub b4 a4 (by omega), Nat.gcd_comm, hgcd]
        · omega

theorem gcdLoop_zero : ∀ (f : Nat) {TA TB : Mpi}, TA.WF → TB.WF → TA.neg = false → TB.neg = false → TB.mag = 0 → TA.mag < f →
    ∃ R, gcdLoop f TA TB = .ok R ∧ R.WF ∧ R.neg = false ∧ R.mag = 0 := by
  intro f
  induction f with
  | zero => intro TA TB _ _ _ _ _ h; omega
  | succ f ih =>
    intro TA TB hA hB nA nB hB0 hf
    unfold gcdLoop
    by_cases hA0 : TA.mag = 0
    · rw [if_neg (by rw [not_not]; exact (cmpInt_zero_iff hA).2 hA0)]
      exact ⟨TB, rfl, hB, nB, hB0⟩
    · rw [if_pos (fun h => hA0 ((cmpInt_zero_iff hA).1 h))]
      obtain ⟨A1, i, a1, a2, a3, a4, a5⟩ := shiftR_lsb hA nA hA0
      obtain ⟨B1, b1, b2, b3, b4, -⟩ := shiftR_spec hB (lsb TB)
      have hB1 : B1.mag = 0 := by rw [b3, hB0, Nat.zero_div]
      have hAle := le_two_pow_mul i A1.mag
      rw [← a5] at hAle
      simp only [a1, b1, Out.bind_ok]
      rw [cmpMpi_spec a2 b2, toInt_pos a3, toInt_pos (b4 nB), if_pos (by unfold sgn; split_ifs <;> omega)]
      obtain ⟨C, c1, c2, c3, c4⟩ := (subAbs_spec (A := .self) (B := .ext B1) a2 trivial b2).1 (by show B1.mag ≤ A1.mag; omega)
      obtain ⟨D, d1, d2, d3, d4, -⟩ := shiftR_spec c2 1
      simp only [c1, d1, Out.bind_ok]
      have hC : C.mag = A1.mag := by
        have : C.mag + B1.mag = A1.mag := c3
        omega
      apply ih d2 b2 (d4 c4) (b4 nB) hB1
      rw [d3, hC, pow_one]
      omega

/-- What the function returns. -/
def gcdVal (a b : Nat) : Nat := if b = 0 then 0 else Nat.gcd a b

theorem gcdMpi_spec {G A B : Mpi} (hG : G.WF) (hA : A.WF) (hB : B.WF) :
    ∃ R, gcdMpi G A B = .ok R ∧ R.WF ∧ R.toInt = (gcdVal A.mag B.mag : Int) := by
  obtain ⟨TA, a1, a2, a3, -, -⟩ := copy_spec Mpi.null_WF hA
  obtain ⟨TB, b1, b2, b3, -, -⟩ := copy_spec Mpi.null_WF hB
  have hlz : ∃ lz, (if lsb TB < lsb TA then lsb TB else lsb TA) = lz := ⟨_, rfl⟩
  obtain ⟨lz, hlz⟩ := hlz
  obtain ⟨C, c1, c2, c3, -, -⟩ := shiftR_spec a2 lz
  obtain ⟨D, d1, d2, d3, -, -⟩ := shiftR_spec b2 lz
  have wC : Mpi.WF { C with neg := false } := ⟨c2.ok, c2.len⟩
  have wD : Mpi.WF { D with neg := false } := ⟨d2.ok, d2.len⟩
  have fC := lt_fuel wC
  have fD := lt_fuel wD
  have mC : Mpi.mag { C with neg := false } = C.mag := mag_neg _ _
  have mD : Mpi.mag { D with neg := false } = D.mag := mag_neg _ _
  have hloop : ∃ R, gcdLoop (fuel { C with neg := false } + fuel { D with neg := false }) { C with neg := false } { D with neg := false } = .ok R ∧ R.WF ∧
      R.neg = false ∧ R.mag * 2 ^ lz = gcdVal A.mag B.mag := by
    unfold gcdVal
    by_cases hB0 : B.mag = 0
    · rw [if_pos hB0]
      obtain ⟨R, r1, r2, r3, r4⟩ := gcdLoop_zero _ wC wD rfl rfl (by rw [mD, d3, b3, hB0, Nat.zero_div]) (Nat.lt_add_right _ fC)
      exact ⟨R, r1, r2, r3, by rw [r4, Nat.zero_mul]⟩
    · rw [if_neg hB0]
      by_cases hA0 : A.mag = 0
      · have h0 : lz = 0 := by
          have := lsb_zero a2 (by rw [a3]; exact hA0)
          rw [this] at hlz
          rw [if_neg (by omega)] at hlz
          exact hlz.symm
        refine ⟨{ D with neg := false }, ?_, wD, rfl, ?_⟩
        · have : fuel { C with neg := false } + fuel { D with neg := false } = (fuel { C with neg := false } + fuel { D with neg := false } - 1) + 1 := by
            omega
          rw [this]
          unfold gcdLoop
          rw [if_neg (by rw [not_not]; exact (cmpInt_zero_iff wC).2 (by rw [mC, c3, a3, hA0, Nat.zero_div]))]
        · rw [mD, d3, b3, hA0, h0, pow_zero, Nat.div_one, Nat.mul_one, Nat.gcd_zero_left]
      · obtain ⟨m, m1, m2⟩ := lsb_spec a2 (by rw [a3]; exact hA0)
        obtain ⟨k, k1, k2⟩ := lsb_spec b2 (by rw [b3]; exact hB0)
        rw [a3] at m1
        rw [b3] at k1
        have p0 : 0 < 2 ^ lz := Nat.pow_pos (by decide)
        have hC : A.mag = 2 ^ lz * C.mag := by
          rw [c3, a3]
          refine (Nat.mul_div_cancel' ?_).symm
          rw [m1]
          exact Dvd.dvd.mul_right (pow_dvd_pow _ (by rw [← hlz]; split <;> omega)) _
        have hD : B.mag = 2 ^ lz * D.mag := by
          rw [d3, b3]
          refine (Nat.mul_div_cancel' ?_).symm
          rw [k1]
          exact Dvd.dvd.mul_right (pow_dvd_pow _ (by rw [← hlz]; split <;> omega)) _
        have hodd : Nat.gcd C.mag D.mag % 2 = 1 := by
          by_contra hne
          have h2 : 2 ∣ Nat.gcd C.mag D.mag := by omega
          have h2C := Nat.dvd_trans h2 (Nat.gcd_dvd_left _ _)
          have h2D := Nat.dvd_trans h2 (Nat.gcd_dvd_right _ _)
          by_cases hc : lsb TB < lsb TA
          · rw [if_pos hc] at hlz
            rw [k1, hlz] at hD
            have := Nat.eq_of_mul_eq_mul_left p0 hD
            omega
          · rw [if_neg hc] at hlz
            rw [m1, hlz] at hC
            have := Nat.eq_of_mul_eq_mul_left p0 hC
            omega
        obtain ⟨R, r1, r2, r3, r4⟩ := gcdLoop_spec (fuel { C with neg := false } + fuel { D with neg := false }) wC wD rfl rfl
          (by rw [mD]; intro h0; rw [h0, Nat.mul_zero] at hD; exact hB0 hD) hodd (by rw [mC, mD]) (by omega)
        refine ⟨R, r1, r2, r3, ?_⟩
        rw [r4, hC, hD, Nat.gcd_mul_left, Nat.mul_comm]
  obtain ⟨R, r1, r2, r3, r4⟩ := hloop
  have hgle : gcdVal A.mag B.mag < 2 ^ (64 * maxLimbs) := by
    rw [← W64_pow]
    refine lt_of_le_of_lt ?_ hB.mag_lt
    unfold gcdVal
    split
    · omega
    · exact Nat.gcd_le_right _ (by omega)
  have hshift : ∃ S, shiftL R lz = .ok S ∧ S.WF ∧ S.mag = R.mag * 2 ^ lz ∧ S.neg = false := by
    by_cases hR0 : R.mag = 0
    · have hB0 : B.mag = 0 := by
        by_contra hne
        unfold gcdVal at r4
        rw [hR0, Nat.zero_mul, if_neg hne] at r4
        exact hne (Nat.eq_zero_of_gcd_eq_zero_right r4.symm)
      have hz : lz = 0 := by
        have := lsb_zero b2 (by rw [b3]; exact hB0)
        rw [← hlz, this]
        split <;> omega
      obtain ⟨S, s1, s2, -, -, s3, s4⟩ := shiftL_toInt r2 (count := lz) (by
        rw [hR0, hz]
        have : bitlen 0 = 0 := by decide
        rw [this]; omega)
      exact ⟨S, s1, s2, s3, by rw [s4, r3]⟩
    · have hb : bitlen R.mag + lz ≤ 64 * maxLimbs := by
        rw [← bitlen_shl hR0, bitlen_le_iff, r4]; exact hgle
      obtain ⟨S, s1, s2, -, -, s3, s4⟩ := shiftL_toInt r2 hb
      exact ⟨S, s1, s2, s3, by rw [s4, r3]⟩
  obtain ⟨S, s1, s2, s3, s4⟩ := hshift
  obtain ⟨Z, z1, z2, z3, z4, -⟩ := copy_spec hG s2
  refine ⟨Z, ?_, z2, by rw [z4, toInt_pos s4, s3, r4]⟩
  unfold gcdMpi
  simp only [a1, b1, Out.bind_ok, hlz, c1, d1, r1, s1, z1]

/-! ## Modular inverse -/

theorem shiftR_one_ne {X R : Mpi} (h : X.p ≠ []) (hr : shiftR X 1 = .ok R) : R.p ≠ [] := by
  unfold shiftR at hr
  have hl : 0 < X.p.length := List.length_pos_iff.2 h
  simp only [show (1 : Nat) / 64 = 0 from rfl, show (1 : Nat) % 64 = 1 from rfl] at hr
  rw [if_neg (by omega)] at hr
  simp only [gt_iff_lt, lt_irrefl, if_false, zero_lt_one, if_true, Out.ok.injEq] at hr
  rw [← hr]
  intro h0
  simp only [List.reverse_eq_nil_iff] at h0
  cases hp : X.p.reverse with
  | nil => exact h (by simpa using hp)
  | cons x r => rw [hp] at h0; simp [shrBits] at h0

theorem read_low {X : Mpi} (h : X.p ≠ []) : limbAt X.p 0 = .ok (X.p.getD 0 0) := limbAt_spec (List.length_pos_iff.2 h)

/-- Halving an even number. -/
theorem half_ok {X : Mpi} (hX : X.WF) (hne : X.p ≠ []) (he : X.mag % 2 = 0) :
    ∃ R, shiftR X 1 = .ok R ∧ R.WF ∧ R.p ≠ [] ∧ X.toInt = 2 * R.toInt ∧ X.mag = 2 * R.mag := by
  obtain ⟨R, r1, r2, r3, -, r5⟩ := shiftR_spec hX 1
  refine ⟨R, r1, r2, shiftR_one_ne hne r1, ?_, by rw [r3]; omega⟩
  rw [r5]
  unfold Mpi.toInt
  split <;> omega

theorem even_mag (X : Mpi) : X.mag % 2 = 0 ↔ X.toInt % 2 = 0 := by
  unfold Mpi.toInt
  split <;> omega

/-- A number with coefficients: `T = U1 * a + U2 * n`. -/
structure TripOk (a n : Nat) (s : Trip) : Prop where
  wT : s.T.WF
  w1 : s.U1.WF
  w2 : s.U2.WF
  nT : s.T.p ≠ []
  n1 : s.U1.p ≠ []
  n2 : s.U2.p ≠ []
  eq : s.T.toInt = s.U1.toInt * a + s.U2.toInt * n

/-- Both coefficients are bounded. -/
def CoefLe (s : Trip) (b : Nat) : Prop := s.U1.toInt.natAbs ≤ b ∧ s.U2.toInt.natAbs ≤ b

theorem adjust_spec {TA TB : Mpi} (hA : TA.WF) (hB : TB.WF) (hAne : TA.p ≠ []) (hBne : TB.p ≠ []) (hAp : 0 ≤ TA.toInt) (hBp : 0 ≤ TB.toInt)
    (hpar : TA.mag % 2 = 1 ∨ TB.mag % 2 = 1) (hle : TA.mag ≤ TB.mag) {s : Trip} (hs : TripOk TA.mag TB.mag s) (he : s.T.toInt % 2 = 0)
    {b : Nat} (hb : CoefLe s b) (hbound : b + TB.mag < W64 ^ maxLimbs) :
    ∃ o U1 U2, oneOdd s.U1 s.U2 = .ok o ∧ adjust TA TB o s.U1 s.U2 = .ok (U1, U2) ∧ U1.WF ∧ U2.WF ∧ U1.p ≠ [] ∧ U2.p ≠ [] ∧
      U1.toInt % 2 = 0 ∧ U2.toInt % 2 = 0 ∧ s.T.toInt = U1.toInt * TA.mag + U2.toInt * TB.mag ∧
      U1.toInt.natAbs ≤ b + TB.mag ∧ U2.toInt.natAbs ≤ b + TB.mag := by
  have tA : TA.toInt = TA.mag := toInt_of_nonneg hAp
  have tB : TB.toInt = TB.mag := toInt_of_nonneg hBp
  have ho : oneOdd s.U1 s.U2 = .ok (decide (s.U1.mag % 2 = 1 ∨ s.U2.mag % 2 = 1)) := by
    unfold oneOdd
    rw [read_low hs.n1, Out.bind_ok, odd_limb hs.w1]
    by_cases h1 : s.U1.mag % 2 = 1
    · rw [if_pos (by omega)]
      simp [h1]
    · rw [if_neg (by omega), read_low hs.n2, Out.bind_ok, odd_limb hs.w2]
      have h1' : s.U1.mag % 2 = 0 := by omega
      rcases Nat.mod_two_eq_zero_or_one s.U2.mag with h2 | h2 <;> simp [h1', h2]
  have e1 := even_mag s.U1
  have e2 := even_mag s.U2
  have hsq := hs.eq
  by_cases hodd : s.U1.mag % 2 = 1 ∨ s.U2.mag % 2 = 1
  · obtain ⟨V1, v1, v2, v3, v4⟩ := add_ok hs.w1 hB (by rw [tB]; have := hb.1; generalize W64 ^ maxLimbs = w at *; omega) hs.n1 hBne
    obtain ⟨V2, u1, u2, u3, u4⟩ := sub_ok hs.w2 hA (by rw [tA]; have := hb.2; generalize W64 ^ maxLimbs = w at *; omega) hs.n2 hAne
    have l1 := List.length_pos_iff.2 hs.n1
    have l2 := List.length_pos_iff.2 hs.n2
    have hpe : V1.toInt % 2 = 0 ∧ V2.toInt % 2 = 0 := by
      rw [v3, u3, tA, tB]
      have hmul : (s.U1.toInt * TA.mag + s.U2.toInt * TB.mag) % 2 = 0 := by rw [← hsq]; exact he
      rw [Int.add_emod, Int.mul_emod, Int.mul_emod s.U2.toInt] at hmul
      have c1 := Int.emod_two_eq_zero_or_one s.U1.toInt
      have c2 := Int.emod_two_eq_zero_or_one s.U2.toInt
      have c3 : (TA.mag : Int) % 2 = 0 ∨ (TA.mag : Int) % 2 = 1 := Int.emod_two_eq_zero_or_one _
      have c4 : (TB.mag : Int) % 2 = 0 ∨ (TB.mag : Int) % 2 = 1 := Int.emod_two_eq_zero_or_one _
      rcases c1 with c1 | c1 <;> rcases c2 with c2 | c2 <;> rcases c3 with c3 | c3 <;> rcases c4 with c4 | c4 <;> rw [c1, c2, c3, c4] at hmul <;>
        first
        | (exfalso; revert hmul; decide)
        | omega
    refine ⟨true, V1, V2, by rw [ho]; simp [hodd], ?_, v2, u2, ?_, ?_, hpe.1, hpe.2, ?_, ?_, ?_⟩
    · unfold adjust
      rw [if_pos rfl]
      simp only [v1, u1, Out.bind_ok, Out.pure_eq]
    · intro h0; rw [h0, List.length_nil] at v4; omega
    · intro h0; rw [h0, List.length_nil] at u4; omega
    · rw [hsq, v3, u3, tA, tB]; ring
    · have := hb.1
      rw [v3, tB]; omega
    · have := hb.2
      rw [u3, tA]; omega
  · refine ⟨false, s.U1, s.U2, by rw [ho]; simp [hodd], by unfold adjust; rw [if_neg (by decide)], hs.w1, hs.w2, hs.n1, hs.n2, by omega, by omega, hsq, ?_, ?_⟩
    · exact le_trans hb.1 (Nat.le_add_right _ _)
    · exact le_trans hb.2 (Nat.le_add_right _ _)

theorem halfLoop_spec {TA TB : Mpi} (hA : TA.WF) (hB : TB.WF) (hAne : TA.p ≠ []) (hBne : TB.p ≠ []) (hAp : 0 ≤ TA.toInt) (hBp : 0 ≤ TB.toInt)
    (hpar : TA.mag % 2 = 1 ∨ TB.mag % 2 = 1) (hle : TA.mag ≤ TB.mag) : ∀ (f : Nat) {s : Trip} {b : Nat}, TripOk TA.mag TB.mag s → 0 < s.T.toInt →
    s.T.mag < f → CoefLe s b → max b TB.mag + TB.mag < W64 ^ maxLimbs →
    ∃ r, halfLoop TA TB f s = .ok r ∧ TripOk TA.mag TB.mag r ∧ 0 < r.T.toInt ∧ r.T.mag % 2 = 1 ∧ r.T.mag ∣ s.T.mag ∧
      (s.T.mag % 2 = 0 → 2 * r.T.mag ≤ s.T.mag ∧ CoefLe r (max ((b + TB.mag) / 2) TB.mag)) ∧ CoefLe r (max b TB.mag) := by
  intro f
  induction f with
  | zero => intro s b _ _ h; omega
  | succ f ih =>
    intro s b hs hpos hf hb hbound
    unfold halfLoop
    rw [read_low hs.nT, Out.bind_ok, odd_limb hs.wT]
    by_cases he : s.T.mag % 2 = 0
    · rw [if_pos he]
      have heI : s.T.toInt % 2 = 0 := (even_mag _).1 he
      obtain ⟨T, t1, t2, t3, t4, t5⟩ := half_ok hs.wT hs.nT he
      obtain ⟨o, U1, U2, o1, o2, u1, u2, n1, n2, p1, p2, q, b1, b2⟩ := adjust_spec hA hB hAne hBne hAp hBp hpar hle hs heI hb
        (lt_of_le_of_lt (Nat.add_le_add_right (le_max_left _ _) _) hbound)
      obtain ⟨V1, v1, v2, v3, v4, -⟩ := half_ok u1 n1 ((even_mag _).2 p1)
      obtain ⟨V2, w1, w2, w3, w4, -⟩ := half_ok u2 n2 ((even_mag _).2 p2)
      have hTI : T.toInt = V1.toInt * TA.mag + V2.toInt * TB.mag := by
        have : 2 * T.toInt = 2 * (V1.toInt * TA.mag + V2.toInt * TB.mag) := by
          rw [← t4, q, v4, w4]; ring
        omega
      have hb' : CoefLe ⟨T, V1, V2⟩ ((b + TB.mag) / 2) := by
        constructor
        · show V1.toInt.natAbs ≤ _; omega
        · show V2.toInt.natAbs ≤ _; omega
      have hmax : max ((b + TB.mag) / 2) TB.mag ≤ max b TB.mag := by omega
      have hbound' : max ((b + TB.mag) / 2) TB.mag + TB.mag < W64 ^ maxLimbs :=
        lt_of_le_of_lt (Nat.add_le_add_right hmax _) hbound
      have hTm : s.T.mag ≠ 0 := by rw [← natAbs_toInt]; omega
      obtain ⟨r, r1, r2, r3, r4, r5, -, r6⟩ := ih (s := ⟨T, V1, V2⟩) ⟨t2, v2, w2, t3, v3, w3, hTI⟩ (by show 0 < T.toInt; omega)
        (by show T.mag < f; omega) hb' hbound'
      have hrT : r.T.mag ≤ T.mag := Nat.le_of_dvd (by omega) r5
      refine ⟨r, ?_, r2, r3, r4, ?_, fun _ => ⟨by omega, r6⟩, ?_⟩
      · simp only [t1, o1, o2, v1, w1, Out.bind_ok, r1]
      · rw [t5]; exact Dvd.dvd.mul_left r5 _
      · exact ⟨le_trans r6.1 hmax, le_trans r6.2 hmax⟩
    · rw [if_neg he]
      exact ⟨s, rfl, hs, hpos, by omega, dvd_refl _, fun h => absurd h he, le_trans hb.1 (le_max_left _ _), le_trans hb.2 (le_max_left _ _)⟩

theorem odd_of_coprime {a b : Nat} (h : Nat.gcd a b = 1) : a % 2 = 1 ∨ b % 2 = 1 := by
  by_contra hn
  have h1 : 2 ∣ a := by omega
  have h2 : 2 ∣ b := by omega
  have := Nat.dvd_gcd h1 h2
  rw [h] at this
  omega

theorem subTrip_spec {a n : Nat} {s t : Trip} (hs : TripOk a n s) (ht : TripOk a n t) {b : Nat} (bs : CoefLe s b) (bt : CoefLe t b)
    (hT0 : 0 ≤ t.T.toInt) (hle : t.T.toInt ≤ s.T.toInt) (hbound : 2 * b < W64 ^ maxLimbs) :
    ∃ r, subTrip s t = .ok r ∧ TripOk a n r ∧ r.T.toInt = s.T.toInt - t.T.toInt ∧ CoefLe r (2 * b) := by
  have hm := hs.wT.mag_lt
  have hsm := natAbs_toInt s.T
  obtain ⟨T, t1, t2, t3, t4⟩ := sub_ok hs.wT ht.wT (by generalize W64 ^ maxLimbs = w at *; omega) hs.nT ht.nT
  have b1 := bs.1
  have b2 := bs.2
  have b3 := bt.1
  have b4 := bt.2
  obtain ⟨U, u1, u2, u3, u4⟩ := sub_ok hs.w1 ht.w1 (by generalize W64 ^ maxLimbs = w at *; omega) hs.n1 ht.n1
  obtain ⟨V, v1, v2, v3, v4⟩ := sub_ok hs.w2 ht.w2 (by generalize W64 ^ maxLimbs = w at *; omega) hs.n2 ht.n2
  have l0 := List.length_pos_iff.2 hs.nT
  have l1 := List.length_pos_iff.2 hs.n1
  have l2 := List.length_pos_iff.2 hs.n2
  refine ⟨⟨T, U, V⟩, ?_, ⟨t2, u2, v2, ?_, ?_, ?_, ?_⟩, t3, ?_, ?_⟩
  · unfold subTrip
    simp only [t1, u1, v1, Out.bind_ok, Out.pure_eq]
  · intro h0; rw [show T.p = [] from h0, List.length_nil] at t4; omega
  · intro h0; rw [show U.p = [] from h0, List.length_nil] at u4; omega
  · intro h0; rw [show V.p = [] from h0, List.length_nil] at v4; omega
  · show T.toInt = U.toInt * a + V.toInt * n
    rw [t3, u3, v3, hs.eq, ht.eq]; ring
  · show U.toInt.natAbs ≤ _
    omega
  · show V.toInt.natAbs ≤ _
    omega

/-- The bound on the coefficients at the head of the loop. -/
def HeadLe (n c : Nat) (s : Trip) : Prop := CoefLe s ((c + 1) * n) ∨ (s.T.mag % 2 = 0 ∧ CoefLe s ((2 * c + 1) * n))

/-- The two numbers have become smaller by `c` factors 2. -/
def HeadSmall (n c x y : Nat) : Prop := 2 ^ c * (x * y) ≤ n * n ∨ ((x % 2 = 0 ∨ y % 2 = 0) ∧ 2 ^ c * (x * y) ≤ 2 * (n * n))

theorem HeadSmall.count {n c x y : Nat} (hn : n < 2 ^ (64 * maxLimbs)) (hx : 0 < x) (hy : 0 < y) (h : HeadSmall n c x y) : c ≤ 128 * maxLimbs := by
  have hxy : 1 ≤ x * y := Nat.mul_pos hx hy
  have h1 : 2 ^ c ≤ 2 * (n * n) := by
    have h2 : 2 ^ c ≤ 2 ^ c * (x * y) := Nat.le_mul_of_pos_right _ hxy
    rcases h with h | h <;> omega
  have h2 : 2 * (n * n) < 2 ^ (128 * maxLimbs + 1) := by
    have h3 : n * n < 2 ^ (64 * maxLimbs) * 2 ^ (64 * maxLimbs) := Nat.mul_lt_mul'' hn hn
    have h4 : 2 ^ (128 * maxLimbs + 1) = 2 * (2 ^ (64 * maxLimbs) * 2 ^ (64 * maxLimbs)) := by
      rw [← pow_add, pow_succ, Nat.mul_comm]
      congr 2
    rw [h4]
    omega
  have := (Nat.pow_lt_pow_iff_right (a := 2) (by decide)).1 (lt_of_le_of_lt h1 h2)
  omega

theorem HeadSmall.half {n c x y x' y' : Nat} (h : HeadSmall n c x y) (hx : x' ≤ x) (hy : y' ≤ y) (hx2 : x % 2 = 0 → 2 * x' ≤ x)
    (hy2 : y % 2 = 0 → 2 * y' ≤ y) : 2 ^ c * (x' * y') ≤ n * n := by
  rcases h with h | ⟨h1, h2⟩
  · exact le_trans (Nat.mul_le_mul_left _ (Nat.mul_le_mul hx hy)) h
  · have : 2 * (x' * y') ≤ x * y := by
      rcases h1 with h1 | h1
      · calc 2 * (x' * y') = (2 * x') * y' := by ring
          _ ≤ x * y := Nat.mul_le_mul (hx2 h1) hy
      · calc 2 * (x' * y') = x' * (2 * y') := by ring
          _ ≤ x * y := Nat.mul_le_mul hx (hy2 h1)
    have h3 : 2 ^ c * (2 * (x' * y')) ≤ 2 * (n * n) := le_trans (Nat.mul_le_mul_left _ this) h2
    have h4 : 2 ^ c * (2 * (x' * y')) = 2 * (2 ^ c * (x' * y')) := by ring
    omega

theorem HeadSmall.next {n c x y x' y' : Nat} (h : 2 ^ c * (x * y) ≤ n * n) (hx : x' ≤ x) (hy : y' ≤ y) (he : x' % 2 = 0 ∨ y' % 2 = 0) :
    HeadSmall n (c + 1) x' y' := by
  refine Or.inr ⟨he, ?_⟩
  have h1 : 2 ^ c * (x' * y') ≤ n * n := le_trans (Nat.mul_le_mul_left _ (Nat.mul_le_mul hx hy)) h
  calc 2 ^ (c + 1) * (x' * y') = 2 * (2 ^ c * (x' * y')) := by rw [pow_succ]; ring
    _ ≤ 2 * (n * n) := by omega

theorem invLoop_spec {TA TB : Mpi} (hA : TA.WF) (hB : TB.WF) (hAne : TA.p ≠ []) (hBne : TB.p ≠ []) (hAp : 0 ≤ TA.toInt) (hBp : 0 ≤ TB.toInt)
    (hpar : TA.mag % 2 = 1 ∨ TB.mag % 2 = 1) (hle : TA.mag ≤ TB.mag) (hroom : W64 * TB.mag ≤ W64 ^ maxLimbs) (hB0 : 0 < TB.mag) :
    ∀ (f c : Nat) {u v : Trip}, TripOk TA.mag TB.mag u → TripOk TA.mag TB.mag v → 0 < u.T.toInt → 0 < v.T.toInt →
    Nat.gcd u.T.mag v.T.mag = 1 → HeadLe TB.mag c u → HeadLe TB.mag c v → HeadSmall TB.mag c u.T.mag v.T.mag → u.T.mag + v.T.mag < f →
    ∃ R, invLoop TA TB f u v = .ok R ∧ R.WF ∧ R.p ≠ [] ∧ ∃ y : Int, R.toInt * TA.mag + y * TB.mag = 1 := by
  intro f
  induction f with
  | zero => intro c u v _ _ _ _ _ _ _ _ h; omega
  | succ f ih =>
    intro c u v hu hv pu pv hg bu bv hs hf
    have mu : u.T.toInt = u.T.mag := toInt_of_nonneg pu.le
    have mv : v.T.toInt = v.T.mag := toInt_of_nonneg pv.le
    have hcount : c ≤ 128 * maxLimbs := hs.count (by rw [← W64_pow]; exact hB.mag_lt) (by omega) (by omega)
    have hroom2 : (2 * c + 2) * TB.mag < W64 ^ maxLimbs := by
      refine lt_of_lt_of_le ?_ hroom
      exact Nat.mul_lt_mul_of_pos_right (by unfold maxLimbs at hcount; omega) hB0
    have half : ∀ {s : Trip}, TripOk TA.mag TB.mag s → 0 < s.T.toInt → HeadLe TB.mag c s →
        ∃ r, halfLoop TA TB (fuel s.T) s = .ok r ∧ TripOk TA.mag TB.mag r ∧ 0 < r.T.toInt ∧ r.T.mag % 2 = 1 ∧ r.T.mag ∣ s.T.mag ∧
          (s.T.mag % 2 = 0 → 2 * r.T.mag ≤ s.T.mag) ∧ CoefLe r ((c + 1) * TB.mag) := by
      intro s ts ps bs
      have hmax1 : max ((c + 1) * TB.mag) TB.mag = (c + 1) * TB.mag := max_eq_left (Nat.le_mul_of_pos_left _ (by omega))
      have hmax2 : max ((2 * c + 1) * TB.mag) TB.mag = (2 * c + 1) * TB.mag := max_eq_left (Nat.le_mul_of_pos_left _ (by omega))
      rcases bs with bs | ⟨ev, bs⟩
      · obtain ⟨r, r1, r2, r3, r4, r5, r6, r7⟩ := halfLoop_spec hA hB hAne hBne hAp hBp hpar hle (fuel s.T) ts ps (lt_fuel ts.wT) bs (by
          rw [hmax1]
          refine lt_of_le_of_lt ?_ hroom2
          have : (c + 1) * TB.mag + TB.mag = (c + 2) * TB.mag := by ring
          rw [this]
          exact Nat.mul_le_mul_right _ (by omega))
        rw [hmax1] at r7
        exact ⟨r, r1, r2, r3, r4, r5, fun h => (r6 h).1, r7⟩
      · obtain ⟨r, r1, r2, r3, r4, r5, r6, r7⟩ := halfLoop_spec hA hB hAne hBne hAp hBp hpar hle (fuel s.T) ts ps (lt_fuel ts.wT) bs (by
          rw [hmax2]
          refine lt_of_le_of_lt ?_ hroom2
          have : (2 * c + 1) * TB.mag + TB.mag = (2 * c + 2) * TB.mag := by ring
          rw [this])
        have h8 := (r6 ev).2
        have e : ((2 * c + 1) * TB.mag + TB.mag) / 2 = (c + 1) * TB.mag := by
          have : (2 * c + 1) * TB.mag + TB.mag = 2 * ((c + 1) * TB.mag) := by ring
          rw [this, Nat.mul_div_cancel_left _ (by decide)]
        rw [e, hmax1] at h8
        exact ⟨r, r1, r2, r3, r4, r5, fun h => (r6 h).1, h8⟩
    obtain ⟨u', u1, u2, u3, u4, u5, u6, u7⟩ := half hu pu bu
    obtain ⟨v', v1, v2, v3, v4, v5, v6, v7⟩ := half hv pv bv
    have lu : u'.T.mag ≤ u.T.mag := Nat.le_of_dvd (by omega) u5
    have lv : v'.T.mag ≤ v.T.mag := Nat.le_of_dvd (by omega) v5
    have hsm := hs.half lu lv u6 v6
    have hg' : Nat.gcd u'.T.mag v'.T.mag = 1 := by
      have := Nat.gcd_dvd_gcd_of_dvd_left v'.T.mag u5
      have h2 := Nat.gcd_dvd_gcd_of_dvd_right u.T.mag v5
      have h3 := Nat.dvd_trans this h2
      rw [hg] at h3
      exact Nat.dvd_one.1 h3
    have mu' : u'.T.toInt = u'.T.mag := toInt_of_nonneg u3.le
    have mv' : v'.T.toInt = v'.T.mag := toInt_of_nonneg v3.le
    have hroom3 : 2 * ((c + 1) * TB.mag) < W64 ^ maxLimbs := by
      have : 2 * ((c + 1) * TB.mag) = (2 * c + 2) * TB.mag := by ring
      rw [this]; exact hroom2
    have hw1 : (c + 1) * TB.mag ≤ (c + 1 + 1) * TB.mag := Nat.mul_le_mul_right _ (by omega)
    have hw2 : 2 * ((c + 1) * TB.mag) ≤ (2 * (c + 1) + 1) * TB.mag := by
      have : 2 * ((c + 1) * TB.mag) = (2 * (c + 1)) * TB.mag := by ring
      rw [this]
      exact Nat.mul_le_mul_right _ (by omega)
    unfold invLoop
    simp only [u1, v1, Out.bind_ok]
    unfold invStep
    rw [cmpMpi_spec u2.wT v2.wT]
    by_cases hge : v'.T.toInt ≤ u'.T.toInt
    · rw [if_pos (by unfold sgn; split_ifs <;> omega)]
      obtain ⟨r, r1, r2, r3, r4⟩ := subTrip_spec u2 v2 u7 v7 v3.le hge hroom3
      simp only [r1, Out.bind_ok, Out.pure_eq]
      have hr0 : 0 ≤ r.T.toInt := by omega
      have hrm : r.T.toInt = r.T.mag := toInt_of_nonneg hr0
      by_cases hz : r.T.mag = 0
      · rw [if_neg (by rw [not_not]; exact (cmpInt_zero_iff r2.wT).2 hz)]
        have e : u'.T.mag = v'.T.mag := by omega
        rw [e, Nat.gcd_self] at hg'
        refine ⟨v'.U1, rfl, v2.w1, v2.n1, v'.U2.toInt, ?_⟩
        rw [← v2.eq, mv', hg']; rfl
      · rw [if_pos (fun h => hz ((cmpInt_zero_iff r2.wT).1 h))]
        have hrmag : r.T.mag = u'.T.mag - v'.T.mag := by omega
        refine ih (c + 1) r2 v2 (by omega) v3 ?_ (Or.inr ⟨by omega, ?_⟩) (Or.inl ?_) (HeadSmall.next hsm (by omega) (le_refl _) (Or.inl (by omega))) (by omega)
        · rw [hrmag, Nat.gcd_sub_self_left (by omega)]; exact hg'
        · exact ⟨le_trans r4.1 hw2, le_trans r4.2 hw2⟩
        · exact ⟨le_trans v7.1 hw1, le_trans v7.2 hw1⟩
    · rw [if_neg (by unfold sgn; split_ifs <;> omega)]
      obtain ⟨r, r1, r2, r3, r4⟩ := subTrip_spec v2 u2 v7 u7 u3.le (by omega) hroom3
      simp only [r1, Out.bind_ok, Out.pure_eq]
      rw [if_pos (fun h => by
        have := (cmpInt_zero_iff u2.wT).1 h
        omega)]
      have hrm : r.T.toInt = r.T.mag := toInt_of_nonneg (by omega)
      have hrmag : r.T.mag = v'.T.mag - u'.T.mag := by omega
      refine ih (c + 1) u2 r2 u3 (by omega) ?_ (Or.inl ?_) (Or.inr ⟨by omega, ?_⟩) (HeadSmall.next hsm (le_refl _) (by omega) (Or.inr (by omega))) (by omega)
      · rw [hrmag, Nat.gcd_sub_self_right (by omega)]; exact hg'
      · exact ⟨le_trans u7.1 hw1, le_trans u7.2 hw1⟩
      · exact ⟨le_trans r4.1 hw2, le_trans r4.2 hw2⟩

theorem invMod_small {X A N : Mpi} (hN : N.WF) (h : N.toInt ≤ 1) : invMod X A N = .err .badInput := by
  unfold invMod
  rw [cmpInt_spec hN (by decide), if_pos (by unfold sgn; split_ifs <;> omega)]

theorem invMod_gcd {X A N : Mpi} (hA : A.WF) (hN : N.WF) (hN1 : 1 < N.toInt) (hg : Nat.gcd A.mag N.mag ≠ 1) :
    invMod X A N = .err .notAcceptable := by
  have hNm : N.toInt = N.mag := toInt_of_nonneg (by omega)
  unfold invMod
  rw [cmpInt_spec hN (by decide), if_neg (by unfold sgn; split_ifs <;> omega)]
  obtain ⟨G, g1, g2, g3⟩ := gcdMpi_spec Mpi.null_WF hA hN
  unfold gcdVal at g3
  rw [if_neg (by omega)] at g3
  simp only [g1, Out.bind_ok]
  rw [cmpInt_spec g2 (by decide), if_pos (by unfold sgn; split_ifs <;> omega)]

theorem invMod_spec {X A N : Mpi} (hX : X.WF) (hA : A.WF) (hN : N.WF) (hN1 : 1 < N.toInt) (hg : Nat.gcd A.mag N.mag = 1) (hAl : A.p.length + 2 ≤ maxLimbs)
    (hroom : W64 * N.mag ≤ W64 ^ maxLimbs) :
    ∃ R, invMod X A N = .ok R ∧ R.WF ∧ 0 ≤ R.toInt ∧ R.toInt < N.toInt ∧ A.toInt * R.toInt % N.toInt = 1 := by
  have hNm : N.toInt = N.mag := toInt_of_nonneg (by omega)
  have hN0 : 0 < N.toInt := by omega
  have hA0 : A.mag ≠ 0 := by
    intro h0
    rw [h0, Nat.gcd_zero_left] at hg
    omega
  have hAne := nonnil_of_mag hA0
  have hNne : N.p ≠ [] := nonnil_of_mag (by omega)
  obtain ⟨G, g1, g2, g3⟩ := gcdMpi_spec Mpi.null_WF hA hN
  unfold gcdVal at g3
  rw [if_neg (by omega), hg] at g3
  obtain ⟨TA, a1, a2, a3, a4, -⟩ := modMpi_spec (A := .ext A) Mpi.null_WF hA hN hN0 hAl
  have hTAne : TA.p ≠ [] := by
    have h4 := a4 hAne
    intro h0
    rw [h0, List.length_nil] at h4
    omega
  rw [show Arg.get Mpi.null (.ext A) = A from rfl] at a3
  have hTA0 : 0 ≤ TA.toInt := by rw [a3]; exact Int.emod_nonneg _ (by omega)
  have hTAlt : TA.toInt < N.toInt := by rw [a3]; exact Int.emod_lt_of_pos _ hN0
  have hTAm : TA.toInt = TA.mag := toInt_of_nonneg hTA0
  have hgTA : Nat.gcd TA.mag N.mag = 1 := by
    have h1 : Int.gcd TA.toInt N.toInt = Int.gcd A.toInt N.toInt := by
      rw [a3, Int.gcd_emod]
    rw [Int.gcd_def, Int.gcd_def, natAbs_toInt, natAbs_toInt, natAbs_toInt, hg] at h1
    exact h1
  have hTApos : TA.mag ≠ 0 := by
    intro h0
    rw [h0, Nat.gcd_zero_left] at hgTA
    omega
  obtain ⟨TU, b1, b2, b3, b4, -⟩ := copy_spec Mpi.null_WF a2
  obtain ⟨TB, c1, c2, c3, c4, -⟩ := copy_spec Mpi.null_WF hN
  obtain ⟨O, o1, o2, o3, o4, -, -⟩ := lset_spec Mpi.null_WF (z := 1) (by decide)
  obtain ⟨Z, z1, z2, z3, z4, -, -⟩ := lset_spec Mpi.null_WF (z := 0) (by decide)
  have hOne : O.p ≠ [] := by
    intro h0
    rw [h0, List.length_nil] at o4
    omega
  have hZne : Z.p ≠ [] := by
    intro h0
    rw [h0, List.length_nil] at z4
    omega
  obtain ⟨V, v1, v2, v3, y, v4⟩ := invLoop_spec a2 c2 hTAne (nonnil_of_mag (by rw [c3]; omega)) hTA0 (by omega) (by rw [c3]; exact odd_of_coprime hgTA)
    (by omega) (by rw [c3]; exact hroom) (by omega) (fuel TU + fuel TB) 0 (u := ⟨TU, O, Z⟩) (v := ⟨TB, Z, O⟩)
    ⟨b2, o2, z2, nonnil_of_mag (X := TU) (by omega), hOne, hZne, by
      show TU.toInt = O.toInt * TA.mag + Z.toInt * TB.mag
      rw [o3, z3, b4, hTAm]; ring⟩
    ⟨c2, z2, o2, nonnil_of_mag (X := TB) (by omega), hZne, hOne, by
      show TB.toInt = Z.toInt * TA.mag + O.toInt * TB.mag
      rw [o3, z3, c4, hNm, c3]; ring⟩
    (by show 0 < TU.toInt; omega) (by show 0 < TB.toInt; omega) (by show Nat.gcd TU.mag TB.mag = 1; rw [b3, c3]; exact hgTA)
    (Or.inl ⟨by show O.toInt.natAbs ≤ _; rw [o3]; omega, by show Z.toInt.natAbs ≤ _; rw [z3]; omega⟩)
    (Or.inl ⟨by show Z.toInt.natAbs ≤ _; rw [z3]; omega, by show O.toInt.natAbs ≤ _; rw [o3]; omega⟩)
    (Or.inl (by
      show 2 ^ 0 * (TU.mag * TB.mag) ≤ TB.mag * TB.mag
      rw [pow_zero, Nat.one_mul]
      exact Nat.mul_le_mul_right _ (by omega)))
    (by
      show TU.mag + TB.mag < _
      have := lt_fuel b2
      have := lt_fuel c2
      omega)
  obtain ⟨S, s1, s2, s3, s4, -, -, -⟩ := addWhileNeg_spec hN hN0 (fuel V) v2 (lt_fuel v2)
  obtain ⟨Q, q1, q2, q3, -, -⟩ := subWhileGe_spec hN hN0 (fuel S) s2 s3 (lt_fuel s2)
  obtain ⟨R, r1, r2, -, r4, -⟩ := copy_spec hX q2
  have hR : R.toInt = V.toInt % N.toInt := by rw [r4, q3, s4]
  refine ⟨R, ?_, r2, ?_, ?_, ?_⟩
  · unfold invMod
    rw [cmpInt_spec hN (by decide), if_neg (by unfold sgn; split_ifs <;> omega)]
    simp only [g1, Out.bind_ok]
    rw [cmpInt_spec g2 (by decide), if_neg (by unfold sgn; split_ifs <;> omega)]
    simp only [a1, b1, c1, o1, z1, v1, s1, q1, r1, Out.bind_ok]
  · rw [hR]; exact Int.emod_nonneg _ (by omega)
  · rw [hR]; exact Int.emod_lt_of_pos _ hN0
  · rw [hR, Int.mul_emod, Int.emod_emod_of_dvd _ (dvd_refl _), ← a3]
    have h1 : TA.toInt * (V.toInt % N.toInt) % N.toInt = (V.toInt * TA.mag + y * TB.mag) % N.toInt := by
      rw [← hTAm, c3, ← hNm, Int.add_mul_emod_self_right, Int.mul_comm TA.toInt, Int.mul_emod, Int.emod_emod_of_dvd _ (dvd_refl _), ← Int.mul_emod]
    rw [h1, v4]
    exact Int.emod_eq_of_lt (by omega) hN1

end Verif.Bignum
