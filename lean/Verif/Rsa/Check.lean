import Verif.Rsa.Copy

/-!
# Checking keys on limbs
-/

namespace Verif.Rsa

open Verif Verif.Bignum Verif.Tdp

theorem low_bit {X : Mpi} (h : X.p ≠ []) : ∃ a, limbAt X.p 0 = .ok a ∧ (a &&& 1 = 0 ↔ X.mag % 2 = 0) := by
  obtain ⟨neg, p⟩ := X
  cases p with
  | nil => exact absurd rfl h
  | cons a l =>
    refine ⟨a, rfl, ?_⟩
    have : Mpi.mag ⟨neg, a :: l⟩ = a + W64 * val l := rfl
    rw [this, Nat.and_one_is_mod]
    omega

theorem mag_nil {X : Mpi} (h : X.p = []) : X.mag = 0 := by
  unfold Mpi.mag; rw [h]; rfl

/-- `mbedtls_rsa_check_pubkey` decides what `Verif.Tdp` says. -/
theorem checkPub_run {c : Ctx} {kn ke : Nat} (hN : Num kn c.N) (hE : Num ke c.E) :
    checkPub c = if Tdp.checkPub (abs c) = true then .ok () else .err .rsa := by
  have e1 : (abs c).N = c.N.mag := rfl
  have e2 : (abs c).E = c.E.mag := rfl
  have e3 : mpiMaxBits = 8192 := rfl
  unfold checkPub Tdp.checkPub
  rw [e1, e2, e3]
  by_cases h0 : c.N.p = [] ∨ c.E.p = []
  · rw [if_pos h0]
    have : c.N.mag % 2 = 0 ∨ c.E.mag % 2 = 0 := by
      rcases h0 with h | h
      · left; rw [mag_nil h]
      · right; rw [mag_nil h]
    rw [if_pos this]
    rfl
  · rw [if_neg h0]
    obtain ⟨n, n1, n2⟩ := low_bit (fun h => h0 (.inl h))
    obtain ⟨e, x1, x2⟩ := low_bit (fun h => h0 (.inr h))
    rw [n1, x1, Out.bind_ok, Out.bind_ok, bitlenL_spec hN.wf, bitlenL_spec hE.wf]
    by_cases h1 : c.N.mag % 2 = 0 ∨ c.E.mag % 2 = 0
    · rw [if_pos (by rw [n2, x2]; exact h1), if_pos h1]; rfl
    rw [if_neg (by rw [n2, x2]; exact h1), if_neg h1]
    by_cases h2 : bitlen c.N.mag < 128 ∨ bitlen c.N.mag > 8192
    · rw [if_pos h2, if_pos h2]; rfl
    rw [if_neg h2, if_neg h2]
    by_cases h3 : bitlen c.E.mag < 2 ∨ c.E.mag ≥ c.N.mag
    · rw [if_pos (by rw [cmpGe hE.v hN.v]; exact h3), if_pos h3]; rfl
    · rw [if_neg (by rw [cmpGe hE.v hN.v]; exact h3), if_neg h3]; rfl

theorem mod_M {X B : Mpi} {A : Arg} {x a : Int} {b kx ka kb : Nat} (hX : V X x kx) (hA : VA X A a ka) (hB : V B b kb) (h1 : ka ≤ 9998) :
    match mpiMod a b with
    | some v => ∃ R, modMpi X A B = .ok R ∧ V R v (max kx kb)
    | none => ∃ e, modMpi X A B = .err e := by
  unfold mpiMod
  have hl := hA.2.len
  by_cases h : b = 0
  · rw [if_pos h]
    exact ⟨_, (c63_mod hX.wf hA.1 hB.wf (by unfold maxLimbs; omega)).2.1 (by rw [hB.val, h]; rfl)⟩
  · rw [if_neg h]
    obtain ⟨R, r1, r2, _⟩ := mod_V hX hA hB (by omega) h1
    refine ⟨R, r1, ?_⟩
    rw [Int.toNat_of_nonneg (Int.emod_nonneg _ (by omega))]
    exact r2

theorem mod_E {X B : Mpi} {A : Arg} {x a b : Int} {kx ka kb : Nat} (hX : V X x kx) (hA : VA X A a ka) (hB : V B b kb) (h1 : ka ≤ 9998) :
    (∃ R, 0 < b ∧ modMpi X A B = .ok R ∧ V R (a % b) (max kx kb)) ∨ ∃ e, modMpi X A B = .err e := by
  have hl := hA.2.len
  have h2 := c63_mod hX.wf hA.1 hB.wf (by unfold maxLimbs; omega)
  rw [hB.val] at h2
  rcases lt_trichotomy b 0 with h | h | h
  · exact .inr ⟨_, h2.2.2 h⟩
  · exact .inr ⟨_, h2.2.1 h⟩
  · obtain ⟨n, rfl⟩ := Int.eq_ofNat_of_zero_le h.le
    obtain ⟨R, r1, r2, _⟩ := mod_V hX hA hB (by exact_mod_cast h) h1
    exact .inl ⟨R, h, r1, r2⟩

theorem err_of_bind {α β : Type} {x : Out α} {f : α → Out β} (h : (∃ e, x = .err e) ∨ ∃ a, x = .ok a ∧ ∃ e, f a = .err e) : ∃ e, (x >>= f) = .err e := by
  rcases h with ⟨e, rfl⟩ | ⟨a, rfl, e, h⟩
  · exact ⟨e, rfl⟩
  · exact ⟨e, h⟩

theorem cmpEq {X Y : Mpi} {x y : Int} {kx ky : Nat} (hX : V X x kx) (hY : V Y y ky) : cmpMpi X Y ≠ 0 ↔ x ≠ y := by
  rw [cmpMpi_spec hX.wf hY.wf, hX.val, hY.val, Ne, sgn_zero_iff]
  omega

theorem not_all {a b c d e f g : Prop} : (¬ a ∨ ¬ b ∨ ¬ c ∨ ¬ d ∨ ¬ e ∨ ¬ f ∨ ¬ g) ↔ ¬ ((((((a ∧ b) ∧ c) ∧ d) ∧ e) ∧ f) ∧ g) := by
  tauto

/-- The integers of a context, with their numbers of limbs. -/
structure Sized (c : Ctx) (kp kq kd ke k : Nat) : Prop where
  N : Num k c.N
  E : Num ke c.E
  D : Num kd c.D
  P : Num kp c.P
  Q : Num kq c.Q
  DP : Num k c.DP
  DQ : Num k c.DQ
  QP : Num k c.QP

/-- `mbedtls_rsa_check_privkey` decides what `Verif.Tdp` says, as long as the products fit. -/
theorem checkPriv_sized {c : Ctx} {kp kq kd ke k : Nat} (h : Sized c kp kq kd ke k) (hpq : kp + kq ≤ 9990) (hde : kd + ke ≤ 9990) :
    Same (checkPriv c) (if Tdp.checkPriv (abs c) = true then some () else none) := by
  unfold checkPriv Tdp.checkPriv
  rw [checkPub_run h.N h.E]
  by_cases hpub : Tdp.checkPub (abs c) = true
  swap
  · rw [if_neg hpub, if_pos (show Tdp.checkPub (abs c) = false by simpa using hpub)]
    exact ⟨_, rfl⟩
  rw [if_pos hpub, Out.bind_ok, if_neg (show ¬ Tdp.checkPub (abs c) = false by rw [hpub]; simp)]
  have hNodd : c.N.mag % 2 = 1 := by
    unfold Tdp.checkPub at hpub
    split at hpub
    · simp at hpub
    · rename_i h1
      have : (abs c).N = c.N.mag := rfl
      omega
  by_cases hp : c.P.p = [] ∨ c.Q.p = [] ∨ c.D.p = []
  · have : (abs c).priv = none := by unfold abs; simp only; rw [if_pos hp]
    rw [if_pos hp, this]
    exact ⟨_, rfl⟩
  have hpr : (abs c).priv = some { D := c.D.mag, P := c.P.mag, Q := c.Q.mag, DP := c.DP.mag, DQ := c.DQ.mag, QP := c.QP.mag } := by
    unfold abs; simp only; rw [if_neg hp]
  rw [if_neg hp, hpr]
  simp only
  have hNv : (abs c).N = c.N.mag := rfl
  have hEv : (abs c).E = c.E.mag := rfl
  rw [hNv, hEv]
  unfold checkPrivParts
  have n0 : V Mpi.null (0 : Nat) 0 := U.null.v
  obtain ⟨PQ, a1, a2, _⟩ := mul_V n0 (VA.ext h.P.v) (VA.ext h.Q.v) (by omega)
  obtain ⟨DE, b1, b2, _⟩ := mul_V n0 (VA.ext h.D.v) (VA.ext h.E.v) (by omega)
  obtain ⟨P1, p1, p2⟩ := sub1_V n0 (VA.ext h.P.v) (by omega)
  obtain ⟨Q1, q1, q2⟩ := sub1_V n0 (VA.ext h.Q.v) (by omega)
  obtain ⟨H, h1, h2, _⟩ := mul_V n0 (VA.ext p2) (VA.ext q2) (by omega)
  obtain ⟨G, g1, g2⟩ := gcd_V n0 h.E.v h2
  obtain ⟨G2, k1, k2⟩ := gcd_V n0 p2 q2
  rw [a1, Out.bind_ok, b1, Out.bind_ok, p1, Out.bind_ok, q1, Out.bind_ok, h1, Out.bind_ok, g1, Out.bind_ok, k1, Out.bind_ok]
  by_cases hg : mpiGcd ((c.P.mag : Int) - 1).natAbs ((c.Q.mag : Int) - 1).natAbs = 0
  · -- division by zero
    rw [c63_div_zero k2.wf (by rw [k2.val, hg]; rfl), Out.bind_err]
    have : Same (.err .divZero : Out Unit) none := ⟨_, rfl⟩
    split
    · simpa using this
    · rename_i hneg
      have e1 : ((c.P.mag : Int) - 1).toNat = ((c.P.mag : Int) - 1).natAbs := by omega
      have e2 : ((c.Q.mag : Int) - 1).toNat = ((c.Q.mag : Int) - 1).natAbs := by omega
      rw [e1, e2, if_pos hg]
      exact this
  obtain ⟨L, L', d1, d2, d3, _⟩ := divMpi_spec (Q := some .null) (R := some .null) (ra := false) h2.wf k2.wf Mpi.null_WF Mpi.null_WF (by simp)
    (by rw [k2.val]; exact_mod_cast hg) (by have := h2.len; unfold maxLimbs; omega)
  rw [d1, Out.bind_ok]
  cases L with
  | none => exact absurd d2 (by unfold Got; simp)
  | some L1 =>
  cases L' with
  | none => exact absurd d3 (by unfold Got; simp)
  | some L2 =>
  simp only [orUb_some, Out.bind_ok]
  have d2 : L1.WF ∧ L1.toInt = H.toInt.tdiv G2.toInt := d2
  have d3 : L2.WF ∧ L2.toInt = H.toInt.tmod G2.toInt := d3
  rw [h2.val, k2.val] at d2 d3
  have l1 : V L1 _ _ := ⟨d2.1, d2.2, le_refl _⟩
  have l2 : V L2 _ _ := ⟨d3.1, d3.2, le_refl _⟩
  by_cases hneg : (c.P.mag : Int) - 1 < 0 ∨ (c.Q.mag : Int) - 1 < 0
  · rw [if_pos hneg]
    show ∃ e, _
    rcases mod_E n0 (VA.ext b2) l1 (by omega) with ⟨I, _, i1, i2⟩ | ⟨e, i1⟩
    swap
    · rw [i1]; exact ⟨e, rfl⟩
    rw [i1, Out.bind_ok]
    rcases mod_E n0 (VA.ext h.D.v) p2 (by omega) with ⟨DP, hpos, i1, i2⟩ | ⟨e, i1⟩
    swap
    · rw [i1]; exact ⟨e, rfl⟩
    rw [i1, Out.bind_ok]
    rcases mod_E n0 (VA.ext h.D.v) q2 (by omega) with ⟨DQ, hpos', i1, i2⟩ | ⟨e, i1⟩
    swap
    · rw [i1]; exact ⟨e, rfl⟩
    omega
  · rw [if_neg hneg]
    have e1 : ((c.P.mag : Int) - 1).natAbs = ((c.P.mag : Int) - 1).toNat := by omega
    have e2 : ((c.Q.mag : Int) - 1).natAbs = ((c.Q.mag : Int) - 1).toNat := by omega
    rw [e1, e2] at hg
    rw [if_neg hg]
    have e3 : ((c.P.mag : Int) - 1) = (((c.P.mag : Int) - 1).toNat : Int) := by omega
    have e4 : ((c.Q.mag : Int) - 1) = (((c.Q.mag : Int) - 1).toNat : Int) := by omega
    rw [e1, e2] at l1 l2
    generalize ((c.P.mag : Int) - 1).toNat = pm at *
    generalize ((c.Q.mag : Int) - 1).toNat = qm at *
    rw [e3] at p2
    rw [e4] at q2
    rw [e3, e4] at l1 l2 g2
    have f1 : ((pm : Int) * (qm : Int)).tdiv (mpiGcd pm qm : Nat) = ((pm * qm / mpiGcd pm qm : Nat) : Int) := by
      rw [← Nat.cast_mul]; rfl
    have f2 : ((pm : Int) * (qm : Int)).tmod (mpiGcd pm qm : Nat) = ((pm * qm % mpiGcd pm qm : Nat) : Int) := by
      rw [← Nat.cast_mul]; rfl
    rw [f1] at l1
    rw [f2] at l2
    have f3 : (((pm : Int) * (qm : Int)).natAbs) = pm * qm := by rw [← Nat.cast_mul]; rfl
    rw [f3, Int.natAbs_natCast] at g2
    have b2' : V DE ((c.D.mag * c.E.mag : Nat) : Int) (max 0 (max 1 (kd + ke))) := by rw [Nat.cast_mul]; exact b2
    have m1 := mod_M n0 (VA.ext b2') l1 (by omega)
    have m2 := mod_M n0 (VA.ext h.D.v) p2 (by omega)
    have m3 := mod_M n0 (VA.ext h.D.v) q2 (by omega)
    have m4 := inv_U n0 h.Q.v h.P.v (by omega) (by omega)
    cases hm1 : mpiMod ((c.D.mag * c.E.mag : Nat) : Int) (pm * qm / mpiGcd pm qm) with
    | none =>
      rw [hm1] at m1
      obtain ⟨e, m1⟩ := m1
      rw [m1]
      exact ⟨e, rfl⟩
    | some I =>
    rw [hm1] at m1
    obtain ⟨RI, m1, v1⟩ := m1
    rw [m1, Out.bind_ok]
    cases hm2 : mpiMod (c.D.mag : Int) pm with
    | none =>
      rw [hm2] at m2
      obtain ⟨e, m2⟩ := m2
      rw [m2]
      exact ⟨e, rfl⟩
    | some DP =>
    rw [hm2] at m2
    obtain ⟨RDP, m2, v2⟩ := m2
    rw [m2, Out.bind_ok]
    cases hm3 : mpiMod (c.D.mag : Int) qm with
    | none =>
      rw [hm3] at m3
      obtain ⟨e, m3⟩ := m3
      rw [m3]
      exact ⟨e, rfl⟩
    | some DQ =>
    rw [hm3] at m3
    obtain ⟨RDQ, m3, v3⟩ := m3
    rw [m3, Out.bind_ok]
    cases hm4 : mpiInv c.Q.mag c.P.mag with
    | none =>
      rw [hm4] at m4
      obtain ⟨e, m4⟩ := m4
      rw [m4]
      exact ⟨e, rfl⟩
    | some QP =>
    rw [hm4] at m4
    obtain ⟨RQP, m4, v4, _⟩ := m4
    rw [m4, Out.bind_ok]
    have hL2 : cmpInt L2 0 ≠ 0 ↔ pm * qm % mpiGcd pm qm ≠ 0 := by
      rw [cmpInt_spec l2.wf (by decide), Ne, sgn_zero_iff, l2.val]
      omega
    have hG : cmpInt G 1 ≠ 0 ↔ mpiGcd c.E.mag (pm * qm) ≠ 1 := cmpOne g2
    have hI : cmpInt RI 1 ≠ 0 ↔ I ≠ 1 := cmpOne v1
    have hlimb : (cmpMpi PQ c.N ≠ 0 ∨ cmpMpi RDP c.DP ≠ 0 ∨ cmpMpi RDQ c.DQ ≠ 0 ∨ cmpMpi RQP c.QP ≠ 0 ∨ cmpInt L2 0 ≠ 0 ∨ cmpInt RI 1 ≠ 0 ∨ cmpInt G 1 ≠ 0) ↔
        ((c.P.mag : Int) * c.Q.mag ≠ c.N.mag ∨ (DP : Int) ≠ c.DP.mag ∨ (DQ : Int) ≠ c.DQ.mag ∨ (QP : Int) ≠ c.QP.mag ∨
        pm * qm % mpiGcd pm qm ≠ 0 ∨ I ≠ 1 ∨ mpiGcd c.E.mag (pm * qm) ≠ 1) := by
      rw [cmpEq a2 h.N.v, cmpEq v2 h.DP.v, cmpEq v3 h.DQ.v, cmpEq v4.v h.QP.v, hL2, hG, hI]
    simp only
    have hcond : ((c.P.mag : Int) * c.Q.mag ≠ c.N.mag ∨ (DP : Int) ≠ c.DP.mag ∨ (DQ : Int) ≠ c.DQ.mag ∨ (QP : Int) ≠ c.QP.mag ∨
        pm * qm % mpiGcd pm qm ≠ 0 ∨ I ≠ 1 ∨ mpiGcd c.E.mag (pm * qm) ≠ 1) ↔
        ¬ (decide (c.P.mag * c.Q.mag = c.N.mag) && decide (DP = c.DP.mag) && decide (DQ = c.DQ.mag) && decide (QP = c.QP.mag) &&
          decide (pm * qm % mpiGcd pm qm = 0) && decide (I = 1) && decide (mpiGcd c.E.mag (pm * qm) = 1)) = true := by
      simp only [Bool.and_eq_true, decide_eq_true_eq]
      have : (c.P.mag : Int) * c.Q.mag ≠ c.N.mag ↔ ¬ c.P.mag * c.Q.mag = c.N.mag := by
        rw [Ne, not_iff_not]; exact_mod_cast Iff.rfl
      rw [this]
      have t : ∀ x y : Nat, (x : Int) ≠ (y : Int) ↔ ¬ x = y := fun x y => by omega
      rw [t, t, t]
      exact not_all
    by_cases hf : (c.P.mag : Int) * c.Q.mag ≠ c.N.mag ∨ (DP : Int) ≠ c.DP.mag ∨ (DQ : Int) ≠ c.DQ.mag ∨ (QP : Int) ≠ c.QP.mag ∨
        pm * qm % mpiGcd pm qm ≠ 0 ∨ I ≠ 1 ∨ mpiGcd c.E.mag (pm * qm) ≠ 1
    · rw [if_pos (hlimb.2 hf), if_neg (hcond.1 hf)]
      exact ⟨_, rfl⟩
    · rw [if_neg (fun h' => hf (hlimb.1 h')), if_pos (by by_contra h'; exact hf (hcond.2 h'))]
      rfl

/-- `mbedtls_rsa_check_privkey` decides what `Verif.Tdp` says. -/
theorem checkPriv_run {c : Ctx} (h : Good c) : Same (checkPriv c) (if Tdp.checkPriv (abs c) = true then some () else none) :=
  checkPriv_sized (k := 300) ⟨h.N, h.E, h.D, h.P, h.Q, h.DP, h.DQ, h.QP⟩ (by omega) (by omega)

end Verif.Rsa
