import Verif.Bignum.Div
import Mathlib.Data.Int.DivMod

/-!
# Quotient, remainder, residue
-/

namespace Verif.Bignum

open Verif
open Verif.Tdp (bitlen mpiSize)

theorem limbs_eq (n : Nat) : limbs n = bitsToLimbs (bitlen n) := by
  have key : ∀ k, limbs n ≤ k ↔ bitsToLimbs (bitlen n) ≤ k := by
    intro k
    rw [limbs_le_iff, bitsToLimbs_le, bitlen_le_iff, W64_pow, Nat.mul_comm]
  exact le_antisymm ((key _).2 (le_refl _)) ((key _).1 (le_refl _))

theorem bitlen_shl {x : Nat} (hx : x ≠ 0) (k : Nat) : bitlen (x * 2 ^ k) = bitlen x + k := by
  unfold bitlen
  rw [if_neg hx, if_neg (Nat.mul_ne_zero hx (Nat.pow_pos (by decide)).ne')]
  have h := (Nat.log2_eq_iff hx).1 rfl
  have : (x * 2 ^ k).log2 = x.log2 + k := by
    rw [Nat.log2_eq_iff (Nat.mul_ne_zero hx (Nat.pow_pos (by decide)).ne')]
    constructor
    · rw [pow_add]; exact Nat.mul_le_mul_right _ h.1
    · rw [show x.log2 + k + 1 = (x.log2 + 1) + k by omega, pow_add]
      exact Nat.mul_lt_mul_of_pos_right h.2 (Nat.pow_pos (by decide))
  omega

theorem shlIf_spec {X : Mpi} (hX : X.WF) (hn : X.neg = false) (h0 : X.mag ≠ 0) (hl : X.p.length = limbs X.mag) {k : Nat} (hk : bitlen X.mag + k ≤ 64 * maxLimbs) :
    ∃ R, shlIf X k = .ok R ∧ R.WF ∧ R.mag = X.mag * 2 ^ k ∧ R.neg = false ∧ R.p.length = limbs (X.mag * 2 ^ k) := by
  unfold shlIf
  by_cases h : k = 0
  · subst h
    rw [if_pos rfl]
    exact ⟨X, rfl, hX, by simp, hn, by simpa using hl⟩
  · rw [if_neg h]
    have : maxLimbs = 10000 := rfl
    obtain ⟨R, r1, r2, r3, r4, r5⟩ := (shiftL_spec hX k (by omega)).1 hk
    refine ⟨R, r1, r2, r3, by rw [r4, hn], ?_⟩
    rw [r5, limbs_eq, bitlen_shl h0, hl, limbs_eq]
    apply max_eq_right
    rw [bitsToLimbs_le]
    have := (bitsToLimbs_le (bitlen X.mag + k) _).1 (le_refl _)
    omega

theorem limbs_pos {n : Nat} (h : n ≠ 0) : 1 ≤ limbs n := by unfold limbs; rw [if_neg h]; omega

theorem limbs_ge {n : Nat} (h : n ≠ 0) : W64 ^ (limbs n - 1) ≤ n := by
  by_contra hc
  have := (limbs_le_iff n (limbs n - 1)).2 (by omega)
  have := limbs_pos h
  omega

theorem limbs_lt (n : Nat) : n < W64 ^ limbs n := (limbs_le_iff _ _).1 (le_refl _)

theorem limbs_mono {a b : Nat} (h : a ≤ b) : limbs a ≤ limbs b := by
  rw [limbs_le_iff]
  exact lt_of_le_of_lt h (limbs_lt b)

theorem normK_lt (Y : Mpi) : normK Y ≤ 63 := by unfold normK; split <;> omega

/-- What the loop over the digits starts with. The highest limb of the divisor has 63 bits. -/
structure Prepared (A B : Mpi) (r : DivPrep) : Prop where
  yWF : r.Y.WF
  yneg : r.Y.neg = false
  ylen : r.t < r.Y.p.length
  ylow : W64 ^ r.t ≤ r.Y.mag
  yhigh : r.Y.mag < W64 ^ (r.t + 1)
  ytop : r.Y.mag < W64 ^ r.t * 9223372036854775808
  xWF : r.X.WF
  xpos : 0 ≤ r.X.toInt
  xlen : r.t + r.m + 1 ≤ r.X.p.length
  xlt : r.X.mag < r.Y.mag * W64 ^ r.m
  zok : LOk r.Z
  zlen : r.Z.length = A.p.length + 2
  mlen : r.m ≤ r.Z.length
  rest : r.X.mag % r.Y.mag = A.mag % B.mag * 2 ^ r.k
  quot : r.X.mag / r.Y.mag + W64 ^ r.m * val (r.Z.drop r.m) = A.mag / B.mag

theorem divPrep_spec {A B : Mpi} (hA : A.WF) (hB : B.WF) (hB0 : B.mag ≠ 0) (hAB : B.mag ≤ A.mag) (hl : A.p.length + 2 ≤ maxLimbs) :
    ∃ r, divPrep A B = .ok r ∧ Prepared A B r := by
  have hA0 : A.mag ≠ 0 := by omega
  have hAne := nonnil_of_mag hA0
  have hBne := nonnil_of_mag hB0
  obtain ⟨X0, x1, x2, x3, -, -⟩ := copy_spec Mpi.null_WF hA
  obtain ⟨Y0, y1, y2, y3, -, -⟩ := copy_spec Mpi.null_WF hB
  have xl := (copy_len hAne x1).2
  have yl := (copy_len hBne y1).2
  have hmaxv : maxLimbs = 10000 := rfl
  rw [show sig A.p = limbs A.mag from sig_eq_limbs hA.ok, show Mpi.null.p.length = 0 from rfl] at xl
  rw [show sig B.p = limbs B.mag from sig_eq_limbs hB.ok, show Mpi.null.p.length = 0 from rfl] at yl
  have hlA := limbs_pos hA0
  have hlB := limbs_pos hB0
  obtain ⟨Z0, z1, z2, -, -, z3, -⟩ := (grow_spec Mpi.null Mpi.null_WF (A.p.length + 2)).1 hl
  rw [show Mpi.null.p.length = 0 from rfl] at z3
  obtain ⟨Z, w1, w2, w3, w4, w5, w6⟩ := lset_spec z2 (z := 0) (by decide)
  have hZv : val Z.p = 0 := w6
  have hZl : Z.p.length = A.p.length + 2 := by omega
  set k := normK { Y0 with neg := false } with hk
  have hk63 : k ≤ 63 := normK_lt _
  have hAlen : limbs A.mag ≤ A.p.length := (limbs_le_iff _ _).2 (val_lt hA.ok)
  have hBA := limbs_mono hAB
  have hbA : bitlen A.mag ≤ 64 * A.p.length := by
    rw [bitlen_le_iff, ← W64_pow]; exact val_lt hA.ok
  have hbB : bitlen B.mag ≤ 64 * A.p.length := by
    rw [bitlen_le_iff, ← W64_pow]
    have := val_lt hA.ok
    unfold Mpi.mag at hAB ⊢
    omega
  obtain ⟨X, p1, p2, p3, p4, p5⟩ := shlIf_spec (X := { X0 with neg := false }) ⟨x2.ok, x2.len⟩ rfl (by rw [mag_neg, x3]; exact hA0)
    (by rw [mag_neg, x3]; simp only; omega) (k := k) (by rw [mag_neg, x3]; omega)
  obtain ⟨Y, q1, q2, q3, q4, q5⟩ := shlIf_spec (X := { Y0 with neg := false }) ⟨y2.ok, y2.len⟩ rfl (by rw [mag_neg, y3]; exact hB0)
    (by rw [mag_neg, y3]; simp only; omega) (k := k) (by rw [mag_neg, y3]; omega)
  simp only [mag_neg, x3] at p3 p5
  simp only [mag_neg, y3] at q3 q5
  rw [← p3] at p5
  rw [← q3] at q5
  have h2k : 0 < 2 ^ k := Nat.pow_pos (by decide)
  have hX0 : X.mag ≠ 0 := by rw [p3]; exact Nat.mul_ne_zero hA0 h2k.ne'
  have hY0 : Y.mag ≠ 0 := by rw [q3]; exact Nat.mul_ne_zero hB0 h2k.ne'
  have hYX : Y.mag ≤ X.mag := by rw [p3, q3]; exact Nat.mul_le_mul_right _ hAB
  have hn1 := limbs_pos hX0
  have ht1 := limbs_pos hY0
  have htn := limbs_mono hYX
  have hnA : limbs X.mag ≤ A.p.length + 1 := by
    rw [limbs_le_iff, p3, W64_pow, show 64 * (A.p.length + 1) = 64 * A.p.length + 64 by omega, pow_add, ← W64_pow]
    exact Nat.mul_lt_mul'' (val_lt hA.ok) (Nat.pow_lt_pow_right (by decide) (by omega))
  obtain ⟨n, hn⟩ : ∃ n, X.p.length = n + 1 := ⟨X.p.length - 1, by omega⟩
  obtain ⟨t, ht⟩ : ∃ t, Y.p.length = t + 1 := ⟨Y.p.length - 1, by omega⟩
  have hy1 : Y.mag < W64 ^ (t + 1) := by rw [← ht]; exact val_lt q2.ok
  have hy0 : W64 ^ t ≤ Y.mag := by
    have := limbs_ge hY0
    rwa [← q5, ht, Nat.add_sub_cancel] at this
  have hx1 : X.mag < W64 ^ (n + 1) := by rw [← hn]; exact val_lt p2.ok
  obtain ⟨m, hm⟩ : ∃ m, n = t + m := ⟨n - t, by omega⟩
  have hmm : n - t = m := by omega
  -- the shifted divisor
  obtain ⟨Y1, s1, s2, -, -, s3, s4⟩ := shiftL_toInt q2 (count := 64 * m) (by
    have : bitlen Y.mag ≤ 64 * (t + 1) := by rw [bitlen_le_iff, ← W64_pow]; exact hy1
    omega)
  rw [← W64_pow] at s3
  have hdpos : 0 < Y.mag * W64 ^ m := Nat.mul_pos (by omega) (Nat.pow_pos (by decide))
  have hquo : X.mag / (Y.mag * W64 ^ m) < W64 := by
    apply Nat.div_lt_of_lt_mul
    calc X.mag < W64 ^ (n + 1) := hx1
      _ = W64 ^ t * W64 ^ m * W64 := by rw [hm, pow_succ, pow_add]
      _ ≤ Y.mag * W64 ^ m * W64 := Nat.mul_le_mul_right _ (Nat.mul_le_mul_right _ hy0)
  have hX0i : 0 ≤ X.toInt := by rw [toInt_pos p4]; exact Int.natCast_nonneg _
  have hXne := nonnil_of_mag hX0
  have hzj : Z.p.getD m 0 = 0 := by
    rw [limb_eq w2.ok, hZv]; simp
  obtain ⟨U, u1, u2, u3, u4, u5⟩ := topLoop_spec s2 (by rw [s4, q4]) (by rw [s3]; exact hdpos) m (fuel X) p2 hX0i hXne w2.ok (by omega)
    (by
      rw [s3]
      have h1 := Nat.div_le_self X.mag (Y.mag * W64 ^ m)
      have h2 : X.mag < W64 ^ X.p.length := val_lt p2.ok
      unfold fuel
      exact lt_of_le_of_lt h1 (by omega))
    (by rw [hzj, s3, Nat.zero_add]; exact hquo)
  rw [hzj, s3, Nat.zero_add] at u1
  rw [s3] at u4
  -- the divisor again
  obtain ⟨Y2, v1, v2, v3, v4, -⟩ := shiftR_spec s2 (64 * m)
  rw [s3, ← W64_pow, Nat.mul_div_cancel _ (Nat.pow_pos (by decide))] at v3
  have hY2l : t < Y2.p.length := by
    by_contra hc
    have h1 := val_lt v2.ok
    have h2 : W64 ^ Y2.p.length ≤ W64 ^ t := Nat.pow_le_pow_right (by decide) (by omega)
    unfold Mpi.mag at v3 hy0
    omega
  set q := X.mag / (Y.mag * W64 ^ m) with hq
  refine ⟨⟨U, Y2, Z.p.set m q, m, t, k⟩, ?_, v2, v4 (by rw [s4, q4]), hY2l, by rw [v3]; exact hy0, by rw [v3]; exact hy1, ?_, u2, u3, ?_, ?_, w2.ok.set m hquo,
    by rw [List.length_set]; omega, show m ≤ (Z.p.set m q).length by rw [List.length_set]; omega, ?_, ?_⟩
  · unfold divPrep
    simp only [x1, y1, z1, w1, Out.bind_ok]
    rw [← hk, p1]
    simp only [Out.bind_ok]
    rw [q1]
    simp only [Out.bind_ok, hn, ht, Nat.add_sub_cancel, hmm, s1, u1, v1, Out.pure_eq]
  · show Y2.mag < W64 ^ t * 9223372036854775808
    rw [v3, W64_pow, show (9223372036854775808 : Nat) = 2 ^ 63 by norm_num, ← pow_add, ← bitlen_le_iff]
    have hb : bitlen Y.mag = bitlen B.mag + k := by rw [q3, bitlen_shl hB0]
    have hkn : (bitlen B.mag + k) % 64 = 63 := by
      rw [hk]
      unfold normK
      rw [bitlenL_spec (X := { Y0 with neg := false }) ⟨y2.ok, y2.len⟩, show Mpi.mag { Y0 with neg := false } = B.mag from y3]
      split <;> omega
    have : bitlen Y.mag ≤ 64 * (t + 1) := by rw [bitlen_le_iff, ← W64_pow]; exact hy1
    omega
  · show t + m + 1 ≤ U.p.length
    omega
  · show U.mag < Y2.mag * W64 ^ m
    rw [u4, v3]; exact Nat.mod_lt _ hdpos
  · show U.mag % Y2.mag = _
    rw [u4, v3, Nat.mod_mod_of_dvd _ (Dvd.intro _ rfl), p3, q3, Nat.mul_mod_mul_right]
  · show U.mag / Y2.mag + W64 ^ m * val ((Z.p.set m q).drop m) = _
    rw [u4, v3, ← val_div _ (w2.ok.set m hquo)]
    have hset := val_set (p := Z.p) (k := m) (by omega) q
    rw [hzj, hZv, Nat.mul_zero, Nat.add_zero, Nat.zero_add] at hset
    rw [hset, Nat.mul_div_cancel_left _ (Nat.pow_pos (by decide))]
    have hx : X.mag = X.mag % (Y.mag * W64 ^ m) + Y.mag * (W64 ^ m * q) := by
      have := Nat.mod_add_div X.mag (Y.mag * W64 ^ m)
      rw [← hq, Nat.mul_assoc] at this
      exact this.symm
    have e : X.mag / Y.mag = X.mag % (Y.mag * W64 ^ m) / Y.mag + W64 ^ m * q := by
      conv_lhs => rw [hx, Nat.add_mul_div_left _ _ (Nat.pos_of_ne_zero hY0)]
    rw [← e, p3, q3, Nat.mul_div_mul_right _ _ h2k]

theorem divCore_spec {A B : Mpi} (hA : A.WF) (hB : B.WF) (hB0 : B.mag ≠ 0) (hAB : B.mag ≤ A.mag) (hl : A.p.length + 2 ≤ maxLimbs) :
    ∃ X Z k, divCore A B = .ok (X, Z, k) ∧ X.WF ∧ 0 ≤ X.toInt ∧ X.mag = A.mag % B.mag * 2 ^ k ∧ X.p ≠ [] ∧ LOk Z ∧ Z.length = A.p.length + 2 ∧
      val Z = A.mag / B.mag := by
  obtain ⟨r, e, h⟩ := divPrep_spec hA hB hB0 hAB hl
  obtain ⟨R, Z', r1, r2, r3, r4, r5, r6, r7, r8, r9⟩ := divLoop_spec h.yWF h.yneg h.ylen h.ylow h.yhigh r.m h.xWF h.xpos h.zok h.xlen h.mlen h.xlt
  have hm := h.mlen
  refine ⟨R, Z', r.k, ?_, r2, r3, by rw [r4, h.rest], r5, r6, by rw [r7, h.zlen], ?_⟩
  · unfold divCore
    simp only [e, Out.bind_ok, r1, Out.pure_eq]
  · rw [val_take_drop Z' r.m (by omega), r9, r8, h.quot]

/-! ## `mbedtls_mpi_div_mpi` -/

/-- The optional destination got the value. -/
def Got : Option Mpi → Option Mpi → Int → Prop
  | none, none, _ => True
  | some _, some r, z => r.WF ∧ r.toInt = z
  | _, _, _ => False

/-- A destination is well formed. -/
def OptWF : Option Mpi → Prop
  | none => True
  | some m => m.WF

theorem cmpInt_zero_iff {B : Mpi} (hB : B.WF) : cmpInt B 0 = 0 ↔ B.mag = 0 := by
  rw [cmpInt_spec hB (by decide), Int.sub_zero, ← natAbs_toInt, Int.natAbs_eq_zero]
  unfold sgn
  rcases lt_trichotomy B.toInt 0 with h | h | h
  · rw [if_pos h]; exact ⟨fun h' => absurd h' (by decide), fun h' => by omega⟩
  · rw [if_neg (by omega), if_pos h]; exact ⟨fun _ => h, fun _ => rfl⟩
  · rw [if_neg (by omega), if_neg (by omega)]; exact ⟨fun h' => absurd h' (by decide), fun h' => by omega⟩

theorem tdiv_mag (A B : Mpi) : A.toInt.tdiv B.toInt = if xor A.neg B.neg then -((A.mag / B.mag : Nat) : Int) else ((A.mag / B.mag : Nat) : Int) := by
  unfold Mpi.toInt
  cases A.neg <;> cases B.neg <;> simp [Int.neg_tdiv, Int.tdiv_neg]

theorem tmod_mag (A B : Mpi) : A.toInt.tmod B.toInt = if A.neg then -((A.mag % B.mag : Nat) : Int) else ((A.mag % B.mag : Nat) : Int) := by
  unfold Mpi.toInt
  cases A.neg <;> cases B.neg <;> simp [Int.neg_tmod, Int.tmod_neg, ← Int.ofNat_tmod]

theorem copy_neg {X Y R : Mpi} (h : copy X Y = .ok R) (hn : Y.neg = false) : R.neg = false := by
  unfold copy at h
  by_cases h0 : Y.p = []
  · rw [if_pos h0] at h
    simp only [Out.ok.injEq] at h
    rw [← h]; rfl
  · rw [if_neg h0] at h
    obtain ⟨Z, z1, z2⟩ := Out.bind_eq_ok.1 h
    unfold grow at z1
    split at z1
    · simp at z1
    · simp only [Out.ok.injEq] at z1
      simp only [Out.pure_eq, Out.ok.injEq] at z2
      rw [← z2, ← z1]
      exact hn

/-- The remainder, where the length of the destination is also known. -/
theorem putR_spec {R X : Mpi} (hR : R.WF) (hX : X.WF) (hXne : X.p ≠ []) (k : Nat) (neg : Bool) :
    ∃ r, putR (some R) X k neg = .ok (some r) ∧ r.WF ∧
      r.toInt = (if neg then -((X.mag / 2 ^ k : Nat) : Int) else ((X.mag / 2 ^ k : Nat) : Int)) ∧ max 1 R.p.length ≤ r.p.length ∧ (neg = false → r.neg = false) := by
  unfold putR
  obtain ⟨S, s1, s2, s3, -, -⟩ := shiftR_spec hX k
  have hSne : S.p ≠ [] := by
    unfold shiftR at s1
    simp only at s1
    split at s1
    · obtain ⟨S', e1, -, -, e2, -⟩ := lset_spec hX (z := 0) (by decide)
      rw [e1] at s1
      simp only [Out.ok.injEq] at s1
      subst s1
      intro h
      rw [h, List.length_nil] at e2
      omega
    · simp only [Out.ok.injEq] at s1
      have hpl := List.length_pos_iff.2 hXne
      intro h
      rw [← s1] at h
      have h := congrArg List.length h
      have key : ∀ (t r0 : Nat) (l : List Nat), (shrBits t r0 l).length = l.length := by
        intro t r0 l
        induction l generalizing r0 with
        | nil => rfl
        | cons x r ih => simp [shrBits, ih]
      simp only at h
      split_ifs at h <;> simp only [key, List.length_reverse, List.length_append, List.length_drop, List.length_replicate, List.length_nil] at h <;> omega
  obtain ⟨C, c1, c2, c3, c4, -⟩ := copy_spec hR (Y := { S with neg := neg }) ⟨s2.ok, s2.len⟩
  have cl := (copy_len (Y := { S with neg := neg }) hSne c1)
  simp only [s1, c1, Out.bind_ok, Out.pure_eq]
  refine ⟨_, rfl, ?_, ?_, ?_, ?_⟩
  · split
    · exact ⟨c2.ok, c2.len⟩
    · exact c2
  · have c4' : C.toInt = if neg then -((X.mag / 2 ^ k : Nat) : Int) else ((X.mag / 2 ^ k : Nat) : Int) := by
      rw [c4, toInt_mk, s3]
    by_cases h : cmpInt C 0 = 0
    · rw [if_pos h, toInt_mk]
      have h0 := (cmpInt_zero_iff c2).1 h
      rw [← c4']
      unfold Mpi.toInt
      rw [h0]; simp
    · rw [if_neg h, c4']
  · have : (if cmpInt C 0 = 0 then { C with neg := false } else C).p = C.p := by split <;> rfl
    rw [this]; omega
  · intro hn
    split
    · rfl
    · exact copy_neg c1 hn

theorem divMpi_spec {A B : Mpi} {Q R : Option Mpi} {ra : Bool} (hA : A.WF) (hB : B.WF) (hQ : OptWF Q) (hR : OptWF R) (hra : ra = true → R = some A)
    (hB0 : B.toInt ≠ 0) (hl : A.p.length + 2 ≤ maxLimbs) :
    ∃ Q' R', divMpi false ra Q R A B = .ok (Q', R') ∧ Got Q Q' (A.toInt.tdiv B.toInt) ∧ Got R R' (A.toInt.tmod B.toInt) ∧
      (A.p ≠ [] → ∀ r r', R = some r → R' = some r' → max 1 r.p.length ≤ r'.p.length) ∧ (A.neg = false → ∀ r', R' = some r' → r'.neg = false) := by
  have hBm : B.mag ≠ 0 := by rw [← natAbs_toInt]; omega
  unfold divMpi
  rw [if_neg (by rw [cmpInt_zero_iff hB]; exact hBm), cmpAbs_spec hA hB]
  by_cases hlt : A.mag < B.mag
  · rw [if_pos (by unfold sgn; split_ifs <;> omega)]
    have hq : ∃ Q', optLset0 Q = .ok Q' ∧ Got Q Q' (A.toInt.tdiv B.toInt) := by
      rw [tdiv_mag, Nat.div_eq_of_lt hlt]
      cases Q with
      | none => exact ⟨none, rfl, trivial⟩
      | some q =>
        obtain ⟨S, s1, s2, s3, -⟩ := lset_spec (X := q) hQ (z := 0) (by decide)
        refine ⟨some S, by simp [optLset0, s1], s2, ?_⟩
        rw [s3]; simp
    obtain ⟨Q', q1, q2⟩ := hq
    have hr : ∃ R', copyUnless ra R A = .ok R' ∧ Got R R' (A.toInt.tmod B.toInt) ∧
        (A.p ≠ [] → ∀ r r', R = some r → R' = some r' → max 1 r.p.length ≤ r'.p.length) ∧ (A.neg = false → ∀ r', R' = some r' → r'.neg = false) := by
      have hval : A.toInt.tmod B.toInt = A.toInt := by
        rw [tmod_mag, Nat.mod_eq_of_lt hlt]; rfl
      rw [hval]
      unfold copyUnless
      cases ra with
      | true =>
        rw [if_pos rfl, hra rfl]
        refine ⟨some A, rfl, ⟨hA, rfl⟩, ?_, fun hn r' h => by rw [Option.some.injEq] at h; rw [← h]; exact hn⟩
        intro hne r r' h1 h2
        simp only [Option.some.injEq] at h1 h2
        rw [← h1, ← h2]
        have := List.length_pos_iff.2 hne
        omega
      | false =>
        rw [if_neg (by simp)]
        cases R with
        | none => exact ⟨none, rfl, trivial, fun _ r r' h => by simp at h, fun _ r' h => by simp at h⟩
        | some r =>
          obtain ⟨S, s1, s2, s3, s4, -⟩ := copy_spec (X := r) hR hA
          refine ⟨some S, by simp [optCopy, s1], ⟨s2, s4⟩, ?_, fun hn r' h => by rw [Option.some.injEq] at h; rw [← h]; exact copy_neg s1 hn⟩
          intro hne r0 r' h1 h2
          simp only [Option.some.injEq] at h1 h2
          have := (copy_len hne s1).2
          rw [← h1, ← h2]; omega
    obtain ⟨R', r1, r2, r3⟩ := hr
    refine ⟨Q', R', ?_, q2, r2, r3⟩
    simp only [q1, Out.bind_ok, Bool.false_eq_true, if_false, r1, Out.pure_eq]
  · rw [if_neg (by unfold sgn; split_ifs <;> omega)]
    obtain ⟨X, Z, k, e1, e2, e3, e4, e5, e6, e7, e8⟩ := divCore_spec hA hB hBm (by omega) hl
    simp only [e1, Out.bind_ok, Bool.false_eq_true, if_false]
    have hZW : Mpi.WF ⟨false, Z⟩ := ⟨e6, by simp only; omega⟩
    have hq : ∃ Q', putQ Q Z (xor A.neg B.neg) = .ok Q' ∧ Got Q Q' (A.toInt.tdiv B.toInt) := by
      rw [tdiv_mag]
      cases Q with
      | none => exact ⟨none, rfl, trivial⟩
      | some q =>
        obtain ⟨S, s1, s2, s3, -, -⟩ := copy_spec (X := q) hQ hZW
        refine ⟨some { S with neg := xor A.neg B.neg }, by simp [putQ, optCopy, s1], ⟨s2.ok, s2.len⟩, ?_⟩
        have : Mpi.mag ⟨false, Z⟩ = A.mag / B.mag := e8
        rw [toInt_mk, s3, this]
    obtain ⟨Q', q1, q2⟩ := hq
    have hr : ∃ R', putR R X k A.neg = .ok R' ∧ Got R R' (A.toInt.tmod B.toInt) ∧
        (A.p ≠ [] → ∀ r r', R = some r → R' = some r' → max 1 r.p.length ≤ r'.p.length) ∧ (A.neg = false → ∀ r', R' = some r' → r'.neg = false) := by
      cases R with
      | none => exact ⟨none, rfl, trivial, fun _ r r' h => by simp at h, fun _ r' h => by simp at h⟩
      | some r =>
        obtain ⟨S, s1, s2, s3, s4, s5⟩ := putR_spec (R := r) hR e2 e5 k A.neg
        refine ⟨some S, s1, ⟨s2, ?_⟩, ?_, fun hn r' h => by rw [Option.some.injEq] at h; rw [← h]; exact s5 hn⟩
        · rw [s3, tmod_mag, e4, Nat.mul_div_cancel _ (Nat.pow_pos (by decide))]
        · intro _ r0 r' h1 h2
          simp only [Option.some.injEq] at h1 h2
          rw [← h1, ← h2]; exact s4
    obtain ⟨R', r1, r2, r3⟩ := hr
    refine ⟨Q', R', ?_, q2, r2, r3⟩
    simp only [q1, r1, Out.bind_ok, Out.pure_eq]

/-! ## `mbedtls_mpi_mod_mpi` -/

theorem lt_fuel {X : Mpi} (hX : X.WF) : X.mag < fuel X := by
  have : X.mag < W64 ^ X.p.length := val_lt hX.ok
  unfold fuel; omega

theorem addWhileNeg_spec {B : Mpi} (hB : B.WF) (hB0 : 0 < B.toInt) : ∀ (f : Nat) {R : Mpi}, R.WF → R.mag < f →
    ∃ S, addWhileNeg B f R = .ok S ∧ S.WF ∧ 0 ≤ S.toInt ∧ S.toInt % B.toInt = R.toInt % B.toInt ∧ (R.p ≠ [] → R.p.length ≤ S.p.length) ∧
      (R.toInt < 0 → S.toInt < B.toInt) ∧ (0 ≤ R.toInt → S = R) := by
  have hBne : B.p ≠ [] := nonnil_of_mag (by rw [← natAbs_toInt]; omega)
  intro f
  induction f with
  | zero => intro R _ h; omega
  | succ f ih =>
    intro R hR hf
    rw [addWhileNeg, cmpInt_spec hR (by decide), Int.sub_zero]
    have hRm := hR.mag_lt
    have hBm := hB.mag_lt
    have e1 := natAbs_toInt R
    have e2 := natAbs_toInt B
    by_cases h : R.toInt < 0
    · rw [if_pos (by unfold sgn; split_ifs; omega)]
      obtain ⟨T, t1, t2, t3⟩ := (addMpi_spec hR (A := .self) trivial (B := .ext B) hB).1 (by
        show (R.toInt + B.toInt).natAbs < _
        omega)
      have hRne : R.p ≠ [] := nonnil_of_mag (by omega)
      have tl := addMpi_len (A := .self) (B := .ext B) hR trivial hB hRne hBne t1
      have t3' : T.toInt = R.toInt + B.toInt := t3
      simp only [t1, Out.bind_ok]
      by_cases hT : T.toInt < 0
      · obtain ⟨S, s1, s2, s3, s4, s5, s6, s7⟩ := ih t2 (by rw [← natAbs_toInt]; omega)
        refine ⟨S, s1, s2, s3, ?_, ?_, fun _ => s6 hT, by omega⟩
        · rw [s4, t3', Int.add_emod_right]
        · intro _
          have hTne : T.p ≠ [] := by
            intro hh
            rw [hh, List.length_nil] at tl
            have := List.length_pos_iff.2 hRne
            omega
          have := s5 hTne
          omega
      · -- the loop ends here, but it needs one more test
        obtain ⟨f', rfl⟩ : ∃ f', f = f' + 1 := ⟨f - 1, by omega⟩
        rw [addWhileNeg, cmpInt_spec t2 (by decide), Int.sub_zero, if_neg (by unfold sgn; split_ifs <;> omega)]
        refine ⟨T, rfl, t2, by omega, by rw [t3', Int.add_emod_right], fun _ => tl, fun _ => by omega, by omega⟩
    · rw [if_neg (by unfold sgn; split_ifs <;> omega)]
      exact ⟨R, rfl, hR, by omega, rfl, fun _ => le_refl _, fun h' => absurd h' h, fun _ => rfl⟩

theorem subWhileGe_spec {B : Mpi} (hB : B.WF) (hB0 : 0 < B.toInt) : ∀ (f : Nat) {R : Mpi}, R.WF → 0 ≤ R.toInt → R.mag < f →
    ∃ S, subWhileGe B f R = .ok S ∧ S.WF ∧ S.toInt = R.toInt % B.toInt ∧ (R.p ≠ [] → R.p.length ≤ S.p.length) ∧
      (R.toInt < B.toInt → S = R) := by
  have hBne : B.p ≠ [] := nonnil_of_mag (by rw [← natAbs_toInt]; omega)
  intro f
  induction f with
  | zero => intro R _ _ h; omega
  | succ f ih =>
    intro R hR hR0 hf
    rw [subWhileGe, cmpMpi_spec hR hB]
    have hRm := hR.mag_lt
    have hBm := hB.mag_lt
    have e1 := natAbs_toInt R
    have e2 := natAbs_toInt B
    by_cases h : B.toInt ≤ R.toInt
    · rw [if_pos (by unfold sgn; split_ifs <;> omega)]
      have hRne : R.p ≠ [] := nonnil_of_mag (by omega)
      obtain ⟨T, t1, t2, t3, t4⟩ := sub_ok hR hB (by omega) hRne hBne
      obtain ⟨S, s1, s2, s3, s4, -⟩ := ih t2 (by omega) (by rw [← natAbs_toInt]; omega)
      simp only [t1, Out.bind_ok]
      refine ⟨S, s1, s2, ?_, ?_, fun h' => by omega⟩
      · rw [s3, t3, Int.sub_emod_right]
      · intro _
        have hTne : T.p ≠ [] := by
          intro hh
          rw [hh, List.length_nil] at t4
          have := List.length_pos_iff.2 hRne
          omega
        have := s4 hTne
        omega
    · rw [if_neg (by unfold sgn; split_ifs <;> omega)]
      exact ⟨R, rfl, hR, (Int.emod_eq_of_lt hR0 (by omega)).symm, fun _ => le_refl _, fun _ => rfl⟩

theorem modMpi_spec {R B : Mpi} {A : Arg} (hR : R.WF) (hA : A.WF) (hB : B.WF) (hB0 : 0 < B.toInt) (hl : (A.get R).p.length + 2 ≤ maxLimbs) :
    ∃ S, modMpi R A B = .ok S ∧ S.WF ∧ S.toInt = (A.get R).toInt % B.toInt ∧ ((A.get R).p ≠ [] → max 1 R.p.length ≤ S.p.length) ∧
      ((A.get R).neg = false → S.neg = false) := by
  unfold modMpi
  rw [cmpInt_spec hB (by decide), Int.sub_zero, if_neg (by unfold sgn; split_ifs <;> omega)]
  obtain ⟨Q', R', d1, -, d2, d3, d4⟩ := divMpi_spec (Q := none) (R := some R) (ra := A.isSelf) (Arg.WF.get hR hA) hB trivial hR
    (by cases A <;> simp [Arg.isSelf, Arg.get]) (by omega) hl
  simp only [d1, Out.bind_ok]
  cases R' with
  | none => exact absurd d2 (by simp [Got])
  | some r =>
    obtain ⟨r1, r2⟩ := d2
    simp only [orUb_some, Out.bind_ok]
    obtain ⟨T, t1, t2, t3, t4, t5, -, t6⟩ := addWhileNeg_spec hB hB0 (fuel r) r1 (lt_fuel r1)
    obtain ⟨S, s1, s2, s3, s4, s5⟩ := subWhileGe_spec hB hB0 (fuel T) t2 t3 (lt_fuel t2)
    simp only [t1, Out.bind_ok, s1]
    refine ⟨S, rfl, s2, ?_, ?_, ?_⟩
    · rw [s3, t4, r2]
      have h := Int.mul_tdiv_add_tmod (A.get R).toInt B.toInt
      conv_rhs => rw [← h, Int.add_comm, Int.add_mul_emod_self_left]
    · intro hne
      have h1 := d3 hne R r rfl rfl
      have hrne : r.p ≠ [] := by
        intro h
        rw [h, List.length_nil] at h1
        omega
      have h2 := t5 hrne
      have hTne : T.p ≠ [] := by
        intro h
        rw [h, List.length_nil] at h2
        omega
      have h3 := s4 hTne
      omega
    · intro hn
      have h1 := d4 hn r rfl
      have h2 : 0 ≤ r.toInt := by rw [toInt_pos h1]; exact Int.natCast_nonneg _
      have h3 : T = r := t6 h2
      subst h3
      have h4 : T.toInt < B.toInt := by
        rw [r2, Int.tmod_eq_emod_of_nonneg (by rw [toInt_pos hn]; exact Int.natCast_nonneg _)]
        exact Int.emod_lt_of_pos _ hB0
      rw [s5 h4]
      exact h1

/-! ## `mbedtls_mpi_mod_int` -/

theorem modIntStep_spec {b y x : Nat} (hb : 0 < b) (hb2 : b ≤ 2 ^ 32) (hy : y < b) (hx : x < W64) : modIntStep b y x = (y * W64 + x) % b := by
  have key : ∀ (y h : Nat), y < b → h < 2 ^ 32 → ((y <<< 32) % W64 ||| h) - ((y <<< 32) % W64 ||| h) / b * b = (y * 2 ^ 32 + h) % b := by
    intro y h hy hh
    have : (y <<< 32) % W64 ||| h = y * 2 ^ 32 + h := by
      rw [Nat.mod_eq_of_lt (by rw [Nat.shiftLeft_eq]; omega), ← Nat.shiftLeft_add_eq_or_of_lt hh, Nat.shiftLeft_eq]
    rw [this, div_sub_mod]
  unfold modIntStep
  simp only
  have h1 : x >>> 32 < 2 ^ 32 := by rw [Nat.shiftRight_eq_div_pow]; omega
  have h2 : ((x <<< 32) % W64) >>> 32 = x % 2 ^ 32 := by rw [Nat.shiftRight_eq_div_pow, Nat.shiftLeft_eq]; omega
  rw [key y _ hy h1, h2, key _ _ (Nat.mod_lt _ hb) (by omega), Nat.shiftRight_eq_div_pow]
  rw [Nat.add_mod, Nat.mod_mul_mod, ← Nat.add_mod]
  have : (y * 2 ^ 32 + x / 2 ^ 32) * 2 ^ 32 + x % 2 ^ 32 = y * W64 + x := by omega
  rw [this]

theorem modIntFold {b : Nat} (hb : 0 < b) (hb2 : b ≤ 2 ^ 32) {p : List Nat} (hp : LOk p) : ∀ {y : Nat}, y < b →
    p.foldl (modIntStep b) y = (y * W64 ^ p.length + val p.reverse) % b := by
  induction p with
  | nil => intro y hy; simp [val, Nat.mod_eq_of_lt hy]
  | cons x r ih =>
    intro y hy
    rw [List.foldl_cons, modIntStep_spec hb hb2 hy hp.head, ih hp.tail (Nat.mod_lt _ hb), List.reverse_cons, val_append, List.length_reverse,
      List.length_cons, pow_succ]
    simp only [val]
    rw [Nat.add_mod, Nat.mod_mul_mod, ← Nat.add_mod]
    congr 1
    generalize W64 ^ r.length = k
    have : (y * W64 + x) * k = y * (k * W64) + k * (x + W64 * 0) := by ring
    omega

/-- `mbedtls_mpi_mod_int` returns the residue for divisors up to 2^32. -/
theorem modInt_spec {A : Mpi} (hA : A.WF) {b : Int} (hb : 0 < b) (hb2 : b ≤ 2 ^ 32) (hn : b = 2 → A.p ≠ []) :
    modInt A b = .ok (A.toInt % b).toNat := by
  unfold modInt
  rw [if_neg (by omega), if_neg (by omega)]
  by_cases h1 : b = 1
  · rw [if_pos h1, h1, Int.emod_one]; rfl
  · rw [if_neg h1]
    by_cases h2 : b = 2
    · rw [if_pos h2, limbAt_spec (List.length_pos_iff.2 (hn h2))]
      simp only [Out.bind_ok, Out.pure_eq]
      rw [Nat.and_one_is_mod, limb_eq hA.ok, pow_zero, Nat.div_one, h2]
      have h := natAbs_toInt A
      unfold Mpi.mag at h
      congr 1
      omega
    · rw [if_neg h2]
      simp only
      rw [modIntFold (by omega) (by omega) hA.ok.reverse (by omega), List.reverse_reverse, Nat.zero_mul, Nat.zero_add]
      congr 1
      obtain ⟨n, rfl⟩ : ∃ n : Nat, b = n := ⟨b.toNat, by omega⟩
      rw [Int.natAbs_natCast]
      have hv : val A.p = A.mag := rfl
      rw [hv]
      unfold Mpi.toInt
      cases A.neg with
      | false =>
        simp only [Bool.false_eq_true, false_and, if_false]
        rw [← Int.natCast_emod]; rfl
      | true =>
        simp only [true_and, if_true]
        by_cases h0 : A.mag % n = 0
        · rw [if_neg (by omega)]
          have : (-(A.mag : Int)) % (n : Int) = 0 := by
            apply Int.emod_eq_zero_of_dvd
            rw [Int.dvd_neg]
            exact_mod_cast Nat.dvd_of_mod_eq_zero h0
          rw [this]; omega
        · rw [if_pos h0]
          have : (-(A.mag : Int)) % (n : Int) = n - (A.mag % n : Nat) := by
            have hlt := Nat.mod_lt A.mag (show 0 < n by omega)
            have h3 : (-(A.mag : Int)) = ((n - A.mag % n : Nat) : Int) + n * (-((A.mag / n : Nat) : Int) - 1) := by
              have h4 := Nat.mod_add_div A.mag n
              have h5 : (A.mag : Int) = ((A.mag % n : Nat) : Int) + n * ((A.mag / n : Nat) : Int) := by exact_mod_cast h4.symm
              have h6 : ((n - A.mag % n : Nat) : Int) = (n : Int) - ((A.mag % n : Nat) : Int) := by omega
              rw [h6]
              conv_lhs => rw [h5]
              ring
            rw [h3, Int.add_mul_emod_self_left, Int.emod_eq_of_lt (by omega) (by omega)]
            omega
          rw [this]
          have := Nat.mod_lt A.mag (show 0 < n by omega)
          omega

end Verif.Bignum
