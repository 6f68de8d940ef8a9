import Verif.Bignum.ModelDiv
import Verif.Bignum.Bits

/-!
# The division returns quotient and remainder
-/

namespace Verif.Bignum

open Verif
open Verif.Tdp (bitlen mpiSize)

theorem Out.bind_eq_ok {α β : Type} {x : Out α} {f : α → Out β} {b : β} : (x >>= f) = .ok b ↔ ∃ a, x = .ok a ∧ f a = .ok b := by
  cases x <;> simp

/-! ## Memory only grows -/

theorem copy_len {X Y R : Mpi} (hY : Y.p ≠ []) (h : copy X Y = .ok R) : X.p.length ≤ R.p.length ∧ R.p.length = max (max (sig Y.p) 1) X.p.length := by
  unfold copy grow at h
  rw [if_neg hY] at h
  have hs := sig_le Y.p
  have hp : 0 < Y.p.length := List.length_pos_iff.2 hY
  by_cases hm : max (sig Y.p) 1 > maxLimbs
  · simp only [if_pos hm] at h
    exact absurd h (by simp)
  · simp only [if_neg hm, Out.bind_ok, Out.pure_eq, Out.ok.injEq] at h
    subst h
    simp only [List.length_append, List.length_take, List.length_replicate]
    omega

theorem copyArg_len {X R : Mpi} {A : Arg} (hA : (A.get X).p ≠ []) (h : copyArg X A = .ok R) : X.p.length ≤ R.p.length := by
  cases A with
  | self => simp only [copyArg, Out.ok.injEq] at h; subst h; exact le_refl _
  | ext m => exact (copy_len hA h).1

theorem subAbs_len {X R : Mpi} {A B : Arg} (hX : X.WF) (hA : A.WF) (hB : B.WF) (hA0 : (A.get X).p ≠ []) (h : subAbs X A B = .ok R) :
    X.p.length ≤ R.p.length := by
  by_cases hle : (B.get X).mag ≤ (A.get X).mag
  · unfold subAbs at h
    rw [cmpAbs_spec (Arg.WF.get hX hA) (Arg.WF.get hX hB), if_neg (by unfold sgn; split_ifs <;> omega)] at h
    obtain ⟨TB, h1, h2, h3, -⟩ := unalias_spec hX hB
    obtain ⟨Y, h4, h5, h6, -, h7⟩ := copyArg_spec hX hA
    simp only [h1, h4, Out.bind_ok] at h
    have hs : sig TB.p ≤ sig (A.get X).p := by
      rw [sig_eq_limbs h2.ok, sig_eq_limbs (Arg.WF.get hX hA).ok, limbs_le_iff]
      have := (limbs_le_iff (val (A.get X).p) _).1 (le_refl _)
      unfold Mpi.mag at h3 hle
      omega
    have hsl := sig_le TB.p
    obtain ⟨r, r1, r2, r3, r4⟩ := subLoop_val (h2.ok.take (sig TB.p)) h5.ok (c := 0) (by decide)
      (by rw [val_take_sig]; simp only [Mpi.mag] at *; omega) (by rw [List.length_take]; omega)
    simp only [subHlp, r1, orUb_some, Out.bind_ok, Out.pure_eq, Out.ok.injEq] at h
    subst h
    rw [r4]
    exact copyArg_len hA0 h4
  · rw [(subAbs_spec hX hA hB).2 (by omega)] at h
    exact absurd h (by simp)

theorem addAbs_len {X R : Mpi} {A B : Arg} (hX : X.WF) (hA : A.WF) (hB : B.WF) (hA0 : (A.get X).p ≠ []) (hB0 : (B.get X).p ≠ [])
    (h : addAbs X A B = .ok R) : X.p.length ≤ R.p.length := by
  unfold addAbs at h
  have hS : (swapSelf A B).1.WF ∧ (swapSelf A B).2.WF ∧ ((swapSelf A B).1.get X).p ≠ [] := by
    cases B with
    | self => exact ⟨trivial, hA, hB0⟩
    | ext m => exact ⟨hA, hB, hA0⟩
  obtain ⟨hS1, hS2, hS3⟩ := hS
  obtain ⟨Y, h4, h5, h6, -, h7⟩ := copyArg_spec hX hS1
  have hl := copyArg_len hS3 h4
  simp only [h4, Out.bind_ok] at h
  have hYW : Mpi.WF { Y with neg := false } := ⟨h5.ok, h5.len⟩
  have hb := Arg.WF.get hYW hS2
  have hbs := sig_le ((swapSelf A B).2.get { Y with neg := false }).p
  have hbl := hb.len
  obtain ⟨Z, z1, z2, -, -, z3, -⟩ := (grow_spec _ hYW (sig ((swapSelf A B).2.get { Y with neg := false }).p)).1 (by omega)
  simp only [z1, Out.bind_ok] at h
  obtain ⟨-, -, a3, -, -⟩ := addLoop_val (hb.ok.take (sig ((swapSelf A B).2.get { Y with neg := false }).p)) z2.ok
    (by rw [List.length_take]; omega) (c := 0) (by decide)
  split at h
  · exact absurd h (by simp)
  · simp only [Out.pure_eq, Out.ok.injEq] at h
    subst h
    simp only at z3 ⊢
    omega

theorem subMpi_len {X R : Mpi} {A B : Arg} (hX : X.WF) (hA : A.WF) (hB : B.WF) (hA0 : (A.get X).p ≠ []) (hB0 : (B.get X).p ≠ [])
    (h : subMpi X A B = .ok R) : X.p.length ≤ R.p.length := by
  unfold subMpi at h
  simp only at h
  split at h
  · split at h
    · obtain ⟨S, s1, s2⟩ := Out.bind_eq_ok.1 h
      simp only [Out.pure_eq, Out.ok.injEq] at s2
      subst s2
      exact (subAbs_len hX hA hB hA0 s1 :)
    · obtain ⟨S, s1, s2⟩ := Out.bind_eq_ok.1 h
      simp only [Out.pure_eq, Out.ok.injEq] at s2
      subst s2
      exact (subAbs_len hX hB hA hB0 s1 :)
  · obtain ⟨S, s1, s2⟩ := Out.bind_eq_ok.1 h
    simp only [Out.pure_eq, Out.ok.injEq] at s2
    subst s2
    exact (addAbs_len hX hA hB hA0 hB0 s1 :)

theorem addMpi_len {X R : Mpi} {A B : Arg} (hX : X.WF) (hA : A.WF) (hB : B.WF) (hA0 : (A.get X).p ≠ []) (hB0 : (B.get X).p ≠ [])
    (h : addMpi X A B = .ok R) : X.p.length ≤ R.p.length := by
  unfold addMpi at h
  simp only at h
  split at h
  · split at h
    · obtain ⟨S, s1, s2⟩ := Out.bind_eq_ok.1 h
      simp only [Out.pure_eq, Out.ok.injEq] at s2
      subst s2
      exact (subAbs_len hX hA hB hA0 s1 :)
    · obtain ⟨S, s1, s2⟩ := Out.bind_eq_ok.1 h
      simp only [Out.pure_eq, Out.ok.injEq] at s2
      subst s2
      exact (subAbs_len hX hB hA hB0 s1 :)
  · obtain ⟨S, s1, s2⟩ := Out.bind_eq_ok.1 h
    simp only [Out.pure_eq, Out.ok.injEq] at s2
    subst s2
    exact (addAbs_len hX hA hB hA0 hB0 s1 :)

/-! ## Simple forms of the specifications -/

theorem toInt_nonneg_iff (X : Mpi) : 0 ≤ X.toInt ↔ X.neg = false ∨ X.mag = 0 := by
  unfold Mpi.toInt; cases X.neg <;> simp

theorem toInt_of_nonneg {X : Mpi} (h : 0 ≤ X.toInt) : X.toInt = X.mag := by
  have := natAbs_toInt X
  omega

theorem toInt_pos {X : Mpi} (h : X.neg = false) : X.toInt = X.mag := by unfold Mpi.toInt; rw [h]; simp

theorem nonnil_of_mag {X : Mpi} (h : X.mag ≠ 0) : X.p ≠ [] := by
  intro hp
  apply h
  unfold Mpi.mag; rw [hp]; rfl

theorem limbs_one {b : Nat} (hb : b < W64) : limbs b ≤ 1 := by
  rw [limbs_le_iff]; simpa using hb

/-- Multiplication by a limb. -/
theorem mulInt_spec {X : Mpi} {A : Arg} (hX : X.WF) (hA : A.WF) {b : Nat} (hb : b < W64) (hl : limbs (A.get X).mag + 1 ≤ maxLimbs) :
    ∃ R, mulInt X A b = .ok R ∧ R.WF ∧ R.toInt = (A.get X).toInt * b ∧ max 1 X.p.length ≤ R.p.length := by
  have hbW : (Arg.ext ⟨false, [b]⟩).WF := ⟨LOk.cons hb LOk.nil, by simp [maxLimbs]⟩
  have hm : ((Arg.ext ⟨false, [b]⟩).get X).mag = b := by simp [Arg.get, Mpi.mag, val]
  have := limbs_one hb
  obtain ⟨R, h1, h2, h3, h4⟩ := (mulMpi_spec hX hA hbW).1 (by rw [hm]; omega)
  refine ⟨R, h1, h2, ?_, h4⟩
  rw [h3]
  simp [Arg.get, Mpi.toInt, Mpi.mag, val]

theorem sub_ok {X B : Mpi} (hX : X.WF) (hB : B.WF) (h : (X.toInt - B.toInt).natAbs < W64 ^ maxLimbs) (hX0 : X.p ≠ []) (hB0 : B.p ≠ []) :
    ∃ R, subMpi X .self (.ext B) = .ok R ∧ R.WF ∧ R.toInt = X.toInt - B.toInt ∧ X.p.length ≤ R.p.length := by
  obtain ⟨R, r1, r2, r3⟩ := (subMpi_spec hX (A := .self) trivial (B := .ext B) hB).1 h
  exact ⟨R, r1, r2, r3, subMpi_len (A := .self) (B := .ext B) hX trivial hB hX0 hB0 r1⟩

theorem add_ok {X B : Mpi} (hX : X.WF) (hB : B.WF) (h : (X.toInt + B.toInt).natAbs < W64 ^ maxLimbs) (hX0 : X.p ≠ []) (hB0 : B.p ≠ []) :
    ∃ R, addMpi X .self (.ext B) = .ok R ∧ R.WF ∧ R.toInt = X.toInt + B.toInt ∧ X.p.length ≤ R.p.length := by
  obtain ⟨R, r1, r2, r3⟩ := (addMpi_spec hX (A := .self) trivial (B := .ext B) hB).1 h
  exact ⟨R, r1, r2, r3, addMpi_len (A := .self) (B := .ext B) hX trivial hB hX0 hB0 r1⟩

/-! ## The digits of the quotient -/

theorem limbAt_spec {p : List Nat} {i : Nat} (h : i < p.length) : limbAt p i = .ok (p.getD i 0) := by
  unfold limbAt
  rw [List.getD_eq_getElem?_getD, List.getElem?_eq_getElem h]; rfl

theorem or_add {u1 u0 : Nat} (h : u0 < W64) : (u1 * W64 ||| u0) = u1 * W64 + u0 := by
  have := Nat.shiftLeft_add_eq_or_of_lt (i := 64) (b := u0) (by simpa using h) u1
  rw [Nat.shiftLeft_eq, show (2 : Nat) ^ 64 = W64 by norm_num] at this
  exact this.symm

theorem qLoop_spec {T1 T2 : Mpi} (h1 : T1.WF) (h2 : T2.WF) (n1 : T1.neg = false) (n2 : T2.neg = false) (hl : limbs T1.mag + 1 ≤ maxLimbs) :
    ∀ (f z : Nat), z < f → z < W64 → ∃ r, qLoop T1 T2 f ((z + 1) % W64) = .ok r ∧ r ≤ z ∧ T1.mag * r ≤ T2.mag ∧
      ∀ w ≤ z, T1.mag * w ≤ T2.mag → w ≤ r := by
  intro f
  induction f with
  | zero => intro z h; omega
  | succ f ih =>
    intro z hf hz
    have e : ((z + 1) % W64 + (W64 - 1)) % W64 = z := by omega
    rw [qLoop, e]
    obtain ⟨T, t1, t2, t3, -⟩ := mulInt_spec h1 (A := .self) trivial hz (by simpa [Arg.get] using hl)
    rw [t1]
    simp only [Out.bind_ok]
    rw [cmpMpi_spec t2 h2, t3, toInt_pos n2]
    have hv : (Arg.self.get T1).toInt * (z : Int) = ((T1.mag * z : Nat) : Int) := by
      rw [show Arg.self.get T1 = T1 from rfl, toInt_pos n1]; push_cast; ring
    rw [hv]
    by_cases hgt : T1.mag * z > T2.mag
    · rw [if_pos (by unfold sgn; split_ifs <;> omega)]
      have hz0 : z ≠ 0 := by rintro rfl; simp at hgt
      obtain ⟨r, r1, r2, r3, r4⟩ := ih (z - 1) (by omega) (by omega)
      rw [show (z - 1 + 1) % W64 = z by omega] at r1
      refine ⟨r, r1, by omega, r3, ?_⟩
      intro w hw hwm
      by_cases hwz : w = z
      · subst hwz; omega
      · exact r4 w (by omega) hwm
    · rw [if_neg (by unfold sgn; split_ifs <;> omega)]
      exact ⟨z, rfl, le_refl _, by omega, fun w hw _ => hw⟩

/-! The arithmetic of the estimate, for any base. -/

section base
variable {β : Nat} (hβ : 0 < β)
include hβ

theorem est_low {x y t m : Nat} (hy0 : β ^ t ≤ y) : x / (y * β ^ m) ≤ x / β ^ (t + m) / (y / β ^ t) := by
  have hWt : 0 < β ^ t := Nat.pow_pos hβ
  have hpos : 0 < y / β ^ t := Nat.div_pos hy0 hWt
  rw [Nat.le_div_iff_mul_le hpos, Nat.le_div_iff_mul_le (Nat.pow_pos hβ)]
  calc x / (y * β ^ m) * (y / β ^ t) * β ^ (t + m) = x / (y * β ^ m) * ((y / β ^ t) * β ^ t * β ^ m) := by rw [pow_add]; ring
    _ ≤ x / (y * β ^ m) * (y * β ^ m) := Nat.mul_le_mul_left _ (Nat.mul_le_mul_right _ (Nat.div_mul_le_self _ _))
    _ ≤ x := Nat.div_mul_le_self _ _

theorem est_top2 {y t : Nat} (h : t ≥ 1) : y * β / β ^ t = y / β ^ (t - 1) := by
  conv_lhs => rw [show t = (t - 1) + 1 by omega, pow_succ]
  exact Nat.mul_div_mul_right _ _ hβ

theorem est_top3 {x i : Nat} (h : i ≥ 1) : x * (β * β) / β ^ (i + 1) = x / β ^ (i - 1) := by
  conv_lhs => rw [show i + 1 = (i - 1) + 2 by omega, pow_add, pow_two]
  exact Nat.mul_div_mul_right _ _ (Nat.mul_pos hβ hβ)

omit hβ in
theorem digit_split (x i : Nat) : x / β ^ i % β + β * (x / β ^ (i + 1)) = x / β ^ i := by
  rw [pow_succ, ← Nat.div_div_eq_div_mul]
  exact Nat.mod_add_div _ _

theorem est_test {x y t m : Nat} : y * β / β ^ t * (x / (y * β ^ m)) ≤ x * (β * β) / β ^ (t + m + 1) := by
  set q := x / (y * β ^ m) with hq
  have hqx : q * (y * β ^ m) ≤ x := Nat.div_mul_le_self _ _
  rw [Nat.le_div_iff_mul_le (Nat.pow_pos hβ)]
  calc y * β / β ^ t * q * β ^ (t + m + 1) = (y * β / β ^ t * β ^ t) * (q * β ^ m * β) := by
        rw [pow_succ, pow_add]; ring
    _ ≤ (y * β) * (q * β ^ m * β) := Nat.mul_le_mul_right _ (Nat.div_mul_le_self _ _)
    _ = q * (y * β ^ m) * (β * β) := by ring
    _ ≤ x * (β * β) := Nat.mul_le_mul_right _ hqx

theorem est_high {x y t m r : Nat} (hy0 : β ^ t ≤ y) (hr : r < β) (h : y * β / β ^ t * r ≤ x * (β * β) / β ^ (t + m + 1)) :
    r ≤ x / (y * β ^ m) + 1 := by
  have hWt : 0 < β ^ t := Nat.pow_pos hβ
  have hypos : 0 < y := by omega
  set q := x / (y * β ^ m) with hq
  have hxq : x < (q + 1) * (y * β ^ m) := by
    have := Nat.lt_div_mul_add (a := x) (b := y * β ^ m) (Nat.mul_pos hypos (Nat.pow_pos hβ))
    rw [← hq] at this
    rw [Nat.add_mul]; omega
  rw [Nat.le_div_iff_mul_le (Nat.pow_pos hβ)] at h
  have hyu : y * β < (y * β / β ^ t + 1) * β ^ t := by
    have := Nat.lt_div_mul_add (a := y * β) (b := β ^ t) hWt
    rw [Nat.add_mul]; omega
  by_contra hcon
  have hr2 : q + 2 ≤ r := by omega
  have h1 : r * (y * β ^ m) * (β * β) ≤ x * (β * β) + r * β ^ (t + m + 1) := by
    calc r * (y * β ^ m) * (β * β) = (y * β) * (r * (β ^ m * β)) := by ring
      _ ≤ ((y * β / β ^ t + 1) * β ^ t) * (r * (β ^ m * β)) := Nat.mul_le_mul_right _ (le_of_lt hyu)
      _ = y * β / β ^ t * r * β ^ (t + m + 1) + r * β ^ (t + m + 1) := by rw [pow_succ, pow_add]; ring
      _ ≤ x * (β * β) + r * β ^ (t + m + 1) := Nat.add_le_add_right h _
  have h2 : r * β ^ (t + m + 1) < (y * β ^ m) * (β * β) := by
    calc r * β ^ (t + m + 1) < β * β ^ (t + m + 1) := Nat.mul_lt_mul_of_pos_right hr (Nat.pow_pos hβ)
      _ = (β ^ t * β ^ m) * (β * β) := by rw [pow_succ, pow_add]; ring
      _ ≤ _ := Nat.mul_le_mul_right _ (Nat.mul_le_mul_right _ hy0)
  have h3 : (q + 1) * (y * β ^ m) * (β * β) + (y * β ^ m) * (β * β) ≤ r * (y * β ^ m) * (β * β) := by
    calc (q + 1) * (y * β ^ m) * (β * β) + (y * β ^ m) * (β * β) = (q + 2) * ((y * β ^ m) * (β * β)) := by ring
      _ ≤ r * ((y * β ^ m) * (β * β)) := Nat.mul_le_mul_right _ hr2
      _ = _ := by ring
  have h4 : x * (β * β) < (q + 1) * (y * β ^ m) * (β * β) := Nat.mul_lt_mul_of_pos_right hxq (Nat.mul_pos hβ hβ)
  omega

end base

theorem qDigit_spec {x y : List Nat} (hx : LOk x) (hy : LOk y) {t m : Nat} (hi : t + m + 1 < x.length) (ht : t < y.length)
    (hy0 : W64 ^ t ≤ val y) (hy1 : val y < W64 ^ (t + 1)) (hlt : val x < val y * W64 ^ (m + 1)) :
    ∃ z, qDigit x y (t + m + 1) t = .ok z ∧ z < W64 ∧ val x / (val y * W64 ^ m) ≤ z ∧ z ≤ val x / (val y * W64 ^ m) + 1 := by
  have hWt : 0 < W64 ^ t := Nat.pow_pos (by decide)
  have hWm : 0 < W64 ^ m := Nat.pow_pos (by decide)
  have hypos : 0 < val y := by omega
  set q := val x / (val y * W64 ^ m) with hq
  -- the digit is a limb
  have hqW : q < W64 := by
    rw [hq]
    apply Nat.div_lt_of_lt_mul
    rw [Nat.mul_assoc, ← pow_succ]; exact hlt
  have hWpos : 0 < W64 := by decide
  -- the limbs
  have hxi1 : val x < W64 ^ (t + m + 2) := by
    calc val x < val y * W64 ^ (m + 1) := hlt
      _ ≤ W64 ^ (t + 1) * W64 ^ (m + 1) := Nat.mul_le_mul_right _ (le_of_lt hy1)
      _ = W64 ^ (t + m + 2) := by rw [← pow_add]; congr 1; omega
  have hxi : x.getD (t + m + 1) 0 = val x / W64 ^ (t + m + 1) := by
    rw [limb_eq hx]
    apply Nat.mod_eq_of_lt
    apply Nat.div_lt_of_lt_mul
    rw [← pow_succ]; exact hxi1
  have hyt : y.getD t 0 = val y / W64 ^ t := by
    rw [limb_eq hy]
    apply Nat.mod_eq_of_lt
    apply Nat.div_lt_of_lt_mul
    rw [← pow_succ]; exact hy1
  have hx1 : x.getD (t + m) 0 = val x / W64 ^ (t + m) % W64 := limb_eq hx _
  have hxi' : x.getD (t + m + 1) 0 * W64 + x.getD (t + m) 0 = val x / W64 ^ (t + m) := by
    rw [hxi, hx1]
    have := digit_split (β := W64) (val x) (t + m)
    omega
  have hytpos : 0 < val y / W64 ^ t := Nat.div_pos hy0 hWt
  -- the first estimate
  have hest : ∃ e, qEst x y (t + m + 1) t = .ok e ∧ e < W64 ∧ q ≤ e := by
    unfold qEst
    rw [limbAt_spec hi, limbAt_spec ht]
    simp only [Out.bind_ok]
    by_cases hge : x.getD (t + m + 1) 0 ≥ y.getD t 0
    · rw [if_pos hge]
      exact ⟨_, rfl, by omega, by omega⟩
    · rw [if_neg hge, show t + m + 1 - 1 = t + m by omega, limbAt_spec (by omega)]
      simp only [Out.bind_ok]
      refine ⟨_, rfl, ?_, ?_⟩
      · unfold intDiv
        split
        · decide
        · exact lt_of_le_of_lt (Nat.min_le_right _ _) (by decide)
      · unfold intDiv
        rw [if_neg (by omega), or_add (hx.getD _), hxi', hyt]
        have := est_low (x := val x) (m := m) hWpos hy0
        rw [← hq] at this
        exact Nat.le_min.2 ⟨this, by omega⟩
  obtain ⟨e, e1, e2, e3⟩ := hest
  -- the two highest limbs of the divisor, the three highest ones of the dividend
  have hy2 : ∃ y0, limbIf (decide (t ≥ 1)) y (t - 1) = .ok y0 ∧ y0 < W64 ∧ y0 + W64 * y.getD t 0 = val y * W64 / W64 ^ t := by
    unfold limbIf
    by_cases h : t ≥ 1
    · rw [if_pos (by simpa using h), limbAt_spec (by omega)]
      refine ⟨_, rfl, hy.getD _, ?_⟩
      rw [limb_eq hy, hyt, est_top2 hWpos h]
      have := digit_split (β := W64) (val y) (t - 1)
      rwa [show t - 1 + 1 = t by omega] at this
    · rw [if_neg (by simpa using h)]
      have : t = 0 := by omega
      subst this
      refine ⟨0, rfl, by decide, ?_⟩
      rw [hyt, pow_zero, Nat.div_one, Nat.div_one, Nat.zero_add, Nat.mul_comm]
  obtain ⟨y0, y01, y02, y03⟩ := hy2
  have hx3 : ∃ x0, limbIf (decide (t + m + 1 ≥ 2)) x (t + m + 1 - 2) = .ok x0 ∧ x0 < W64 ∧
      x0 + W64 * (x.getD (t + m) 0 + W64 * x.getD (t + m + 1) 0) = val x * (W64 * W64) / W64 ^ (t + m + 1) := by
    unfold limbIf
    have hcomb : x.getD (t + m) 0 + W64 * x.getD (t + m + 1) 0 = val x / W64 ^ (t + m) := by rw [← hxi']; omega
    rw [hcomb]
    by_cases h : t + m + 1 ≥ 2
    · rw [if_pos (by simpa using h), limbAt_spec (by omega)]
      refine ⟨_, rfl, hx.getD _, ?_⟩
      rw [limb_eq hx, show t + m + 1 - 2 = t + m - 1 by omega, est_top3 hWpos (show t + m ≥ 1 by omega)]
      have := digit_split (β := W64) (val x) (t + m - 1)
      rwa [show t + m - 1 + 1 = t + m by omega] at this
    · rw [if_neg (by simpa using h)]
      have h0 : t + m = 0 := by omega
      refine ⟨0, rfl, by decide, ?_⟩
      rw [h0, pow_zero, Nat.div_one, Nat.zero_add, Nat.zero_add, pow_one, ← Nat.mul_assoc, Nat.mul_div_cancel _ hWpos, Nat.mul_comm]
  obtain ⟨x0, x01, x02, x03⟩ := hx3
  -- the loop
  have hT1 : Mpi.WF ⟨false, [y0, y.getD t 0]⟩ := ⟨LOk.cons y02 (LOk.cons (hy.getD _) LOk.nil), by simp [maxLimbs]⟩
  have hT2 : Mpi.WF ⟨false, [x0, x.getD (t + m) 0, x.getD (t + m + 1) 0]⟩ :=
    ⟨LOk.cons x02 (LOk.cons (hx.getD _) (LOk.cons (hx.getD _) LOk.nil)), by simp [maxLimbs]⟩
  have mT1 : Mpi.mag ⟨false, [y0, y.getD t 0]⟩ = val y * W64 / W64 ^ t := by rw [← y03]; simp [Mpi.mag, val]
  have mT2 : Mpi.mag ⟨false, [x0, x.getD (t + m) 0, x.getD (t + m + 1) 0]⟩ = val x * (W64 * W64) / W64 ^ (t + m + 1) := by
    rw [← x03]; simp [Mpi.mag, val]
  have hlT1 : limbs (Mpi.mag ⟨false, [y0, y.getD t 0]⟩) + 1 ≤ maxLimbs := by
    have : limbs (Mpi.mag ⟨false, [y0, y.getD t 0]⟩) ≤ 2 := by
      rw [limbs_le_iff]
      exact val_lt hT1.ok
    have : 3 ≤ maxLimbs := by decide
    omega
  obtain ⟨r, r1, r2, r3, r4⟩ := qLoop_spec hT1 hT2 rfl rfl hlT1 (W64 + 1) e (by omega) e2
  refine ⟨r, ?_, by omega, ?_, ?_⟩
  · unfold qDigit
    simp only [e1, y01, x01, Out.bind_ok]
    rw [limbAt_spec ht, limbAt_spec hi]
    have : limbIf (decide (t + m + 1 ≥ 1)) x (t + m + 1 - 1) = .ok (x.getD (t + m) 0) := by
      unfold limbIf
      rw [if_pos (by simp), show t + m + 1 - 1 = t + m by omega, limbAt_spec (by omega)]
    rw [this]
    simp only [Out.bind_ok]
    exact r1
  · -- the true digit passes the test
    apply r4 q e3
    rw [mT1, mT2]
    exact est_test hWpos
  · rw [mT1, mT2] at r3
    exact est_high hWpos hy0 (by omega) r3


/-! ## One step -/

theorem div_sub_mod (x d : Nat) : x - x / d * d = x % d := by
  have := Nat.div_add_mod x d
  rw [Nat.mul_comm] at this
  omega

theorem magBound {y m : Nat} {t : Nat} (hy1 : y < W64 ^ (t + 1)) {z : Nat} (hz : z < W64) : bitlen (y * z) + 64 * m ≤ 64 * (t + m + 2) := by
  have h : y * z < W64 ^ (t + 2) := by
    rw [show t + 2 = (t + 1) + 1 by omega, pow_succ]
    exact Nat.mul_lt_mul'' hy1 hz
  rw [W64_pow, ← bitlen_le_iff] at h
  omega

theorem shiftL_toInt {X : Mpi} (hX : X.WF) {count : Nat} (hc : bitlen X.mag + count ≤ 64 * maxLimbs) :
    ∃ R, shiftL X count = .ok R ∧ R.WF ∧ R.toInt = X.toInt * 2 ^ count ∧ X.p.length ≤ R.p.length ∧ R.mag = X.mag * 2 ^ count ∧ R.neg = X.neg := by
  have : maxLimbs = 10000 := rfl
  obtain ⟨R, r1, r2, r3, r4, r5⟩ := (shiftL_spec hX count (by omega)).1 hc
  refine ⟨R, r1, r2, ?_, by omega, r3, r4⟩
  unfold Mpi.toInt
  rw [r3, r4]
  cases X.neg <;> simp

theorem divStep_spec {X Y : Mpi} (hX : X.WF) (hY : Y.WF) (hX0 : 0 ≤ X.toInt) (hYn : Y.neg = false) {t m z : Nat} (hi : t + m + 2 ≤ X.p.length)
    (hy0 : W64 ^ t ≤ Y.mag) (hy1 : Y.mag < W64 ^ (t + 1)) (hz : z < W64)
    (hz1 : X.mag / (Y.mag * W64 ^ m) ≤ z) (hz2 : z ≤ X.mag / (Y.mag * W64 ^ m) + 1) :
    ∃ R, divStep X Y z m = .ok (R, X.mag / (Y.mag * W64 ^ m)) ∧ R.WF ∧ 0 ≤ R.toInt ∧ R.mag = X.mag % (Y.mag * W64 ^ m) ∧
      X.p.length ≤ R.p.length := by
  have hxl := hX.len
  have hWt : 0 < W64 ^ t := Nat.pow_pos (by decide)
  have hypos : 0 < Y.mag := by omega
  have hYne : Y.p ≠ [] := nonnil_of_mag (by omega)
  have hXne : X.p ≠ [] := by
    intro h
    rw [h, List.length_nil] at hi
    omega
  have hlY : limbs Y.mag ≤ t + 1 := (limbs_le_iff _ _).2 hy1
  have hpow : ((2 : Int) ^ (64 * m)) = ((W64 ^ m : Nat) : Int) := by rw [W64_pow]; push_cast; rfl
  have hXt := toInt_of_nonneg hX0
  have hXm := hX.mag_lt
  -- the multiple
  obtain ⟨T, t1, t2, t3, t4⟩ := mulInt_spec Mpi.null_WF (A := .ext Y) hY hz (by
    show limbs Y.mag + 1 ≤ maxLimbs
    omega)
  have hTn : T.toInt = ((Y.mag * z : Nat) : Int) := by
    rw [t3, show (Arg.ext Y).get Mpi.null = Y from rfl, toInt_pos hYn]; push_cast; ring
  have hTm : T.mag = Y.mag * z := by
    have := natAbs_toInt T
    rw [hTn, Int.natAbs_natCast] at this
    exact this.symm
  obtain ⟨S, s1, s2, s3, s4, -⟩ := shiftL_toInt t2 (count := 64 * m) (by
    rw [hTm]
    have := magBound (m := m) hy1 hz
    omega)
  have hSm := s2.mag_lt
  rw [hTn, hpow] at s3
  set d := Y.mag * W64 ^ m with hd
  have hS : S.toInt = ((z * d : Nat) : Int) := by rw [s3, hd]; push_cast; ring
  rw [← natAbs_toInt, hS, Int.natAbs_natCast] at hSm
  have hSne : S.p ≠ [] := by
    intro h
    rw [h, List.length_nil] at s4
    omega
  obtain ⟨R, r1, r2, r3, r4⟩ := sub_ok hX s2 (by rw [hXt, hS]; omega) hXne hSne
  rw [hXt, hS] at r3
  unfold divStep
  simp only [t1, s1, r1, Out.bind_ok]
  rw [cmpInt_spec r2 (by decide), r3]
  set q := X.mag / d with hq
  have hqd : q * d ≤ X.mag := Nat.div_mul_le_self _ _
  have hmod : X.mag - q * d = X.mag % d := div_sub_mod _ _
  have hlt : 0 < d → X.mag < (q + 1) * d := by
    intro hdpos
    have := Nat.lt_div_mul_add (a := X.mag) (b := d) hdpos
    rw [← hq] at this
    rw [Nat.add_mul]; omega
  clear_value q
  rcases (show z = q ∨ z = q + 1 by omega) with e | e
  · rw [e] at r3 ⊢
    rw [if_neg (by unfold sgn; split_ifs <;> omega)]
    refine ⟨R, rfl, r2, by rw [r3]; omega, ?_, r4⟩
    rw [← natAbs_toInt, r3]; omega
  · have hdpos : 0 < d := Nat.mul_pos hypos (Nat.pow_pos (by decide))
    have hlt := hlt hdpos
    rw [e] at r3 ⊢
    rw [if_pos (by unfold sgn; split_ifs <;> omega)]
    obtain ⟨C, c1, c2, c3, c4, -⟩ := copy_spec s2 hY
    have hCl := (copy_len hYne c1).1
    obtain ⟨D, d1, d2, d3, d4, -⟩ := shiftL_toInt c2 (count := 64 * m) (by
      rw [c3]
      have := magBound (m := m) (z := 1) hy1 (by decide)
      rw [Nat.mul_one] at this
      omega)
    rw [c4, toInt_pos hYn, hpow] at d3
    have hD : D.toInt = (d : Int) := by rw [d3, hd]; push_cast; rfl
    have hDne : D.p ≠ [] := by
      intro h
      rw [h, List.length_nil] at d4
      omega
    have hRne : R.p ≠ [] := by
      intro h
      rw [h, List.length_nil] at r4
      omega
    have e2 : (((q + 1) * d : Nat) : Int) = (q * d : Nat) + d := by push_cast; ring
    obtain ⟨F, f1, f2, f3, f4⟩ := add_ok r2 d2 (by rw [r3, hD, e2]; omega) hRne hDne
    simp only [c1, d1, f1, Out.bind_ok, Out.pure_eq]
    rw [r3, hD, e2] at f3
    have ez : (q + 1 + (W64 - 1)) % W64 = q := by omega
    refine ⟨F, by rw [ez], f2, by rw [f3]; omega, ?_, by omega⟩
    rw [← natAbs_toInt, f3]; omega

/-! ## The loops -/

theorem setLimb_spec {p : List Nat} {i v : Nat} (h : i < p.length) : setLimb p i v = .ok (p.set i v) := by
  unfold setLimb; rw [if_pos h]

theorem divLoop_spec {Y : Mpi} (hY : Y.WF) (hYn : Y.neg = false) {t : Nat} (ht : t < Y.p.length) (hy0 : W64 ^ t ≤ Y.mag) (hy1 : Y.mag < W64 ^ (t + 1)) :
    ∀ (m : Nat) {X : Mpi} {Z : List Nat}, X.WF → 0 ≤ X.toInt → LOk Z → t + m + 1 ≤ X.p.length → m ≤ Z.length → X.mag < Y.mag * W64 ^ m →
    ∃ R Z', divLoop Y t m X Z = .ok (R, Z') ∧ R.WF ∧ 0 ≤ R.toInt ∧ R.mag = X.mag % Y.mag ∧ R.p ≠ [] ∧ LOk Z' ∧ Z'.length = Z.length ∧
      Z'.drop m = Z.drop m ∧ val (Z'.take m) = X.mag / Y.mag := by
  intro m
  induction m with
  | zero =>
    intro X Z hX hX0 hZ hl _ hlt
    rw [pow_zero, Nat.mul_one] at hlt
    refine ⟨X, Z, rfl, hX, hX0, (Nat.mod_eq_of_lt hlt).symm, ?_, hZ, rfl, rfl, ?_⟩
    · intro h
      rw [h, List.length_nil] at hl
      omega
    · rw [Nat.div_eq_of_lt hlt]; rfl
  | succ m ih =>
    intro X Z hX hX0 hZ hl hmZ hlt
    obtain ⟨z, z1, z2, z3, z4⟩ := qDigit_spec hX.ok hY.ok (t := t) (m := m) (by omega) ht hy0 hy1 hlt
    obtain ⟨S, s1, s2, s3, s4, s5⟩ := divStep_spec hX hY hX0 hYn (m := m) (by omega) hy0 hy1 z2 z3 z4
    have hypos : 0 < Y.mag := lt_of_lt_of_le (Nat.pow_pos (by decide)) hy0
    have hdpos : 0 < Y.mag * W64 ^ m := Nat.mul_pos hypos (Nat.pow_pos (by decide))
    set q := X.mag / (Y.mag * W64 ^ m) with hq
    have hqW : q < W64 := by
      rw [hq]
      apply Nat.div_lt_of_lt_mul
      rw [Nat.mul_assoc, ← pow_succ]; exact hlt
    obtain ⟨R, Z', r1, r2, r3, r4, r5, r6, r7, r8, r9⟩ := ih (X := S) (Z := Z.set m q) s2 s3 (hZ.set m hqW) (by omega) (by rw [List.length_set]; omega)
      (by rw [s4]; exact Nat.mod_lt _ hdpos)
    rw [List.length_set] at r7
    refine ⟨R, Z', ?_, r2, r3, ?_, r5, r6, r7, ?_, ?_⟩
    · rw [divLoop, show (t + m + 1) = t + m + 1 from rfl, z1]
      simp only [Out.bind_ok, s1]
      rw [setLimb_spec (by omega)]
      simp only [Out.bind_ok, r1]
    · rw [r4, s4]
      exact Nat.mod_mod_of_dvd _ (Dvd.intro _ rfl)
    · have e1 := congrArg (List.drop 1) r8
      rw [List.drop_drop, List.drop_drop, Nat.add_comm] at e1
      rw [Nat.add_comm, e1, List.drop_set, if_pos (by omega)]
    · have hget : Z'.getD m 0 = q := by
        have := congrArg (fun l => l.getD 0 0) r8
        simp only [List.getD_eq_getElem?_getD, List.getElem?_drop, Nat.add_zero] at this
        rw [List.getD_eq_getElem?_getD, this, List.getElem?_set_self (by omega)]; rfl
      rw [val_take_succ (by omega), r9, s4, hget]
      have hx : X.mag = X.mag % (Y.mag * W64 ^ m) + Y.mag * (W64 ^ m * q) := by
        have := Nat.mod_add_div X.mag (Y.mag * W64 ^ m)
        rw [← hq, Nat.mul_assoc] at this
        exact this.symm
      conv_rhs => rw [hx, Nat.add_mul_div_left _ _ hypos]

theorem topLoop_spec {Y : Mpi} (hY : Y.WF) (hYn : Y.neg = false) (hypos : 0 < Y.mag) (j : Nat) :
    ∀ (f : Nat) {X : Mpi} {Z : List Nat}, X.WF → 0 ≤ X.toInt → X.p ≠ [] → LOk Z → j < Z.length → X.mag / Y.mag < f →
      Z.getD j 0 + X.mag / Y.mag < W64 →
    ∃ R, topLoop Y j f X Z = .ok (R, Z.set j (Z.getD j 0 + X.mag / Y.mag)) ∧ R.WF ∧ 0 ≤ R.toInt ∧ R.mag = X.mag % Y.mag ∧
      X.p.length ≤ R.p.length := by
  intro f
  induction f with
  | zero => intro X Z _ _ _ _ _ h; exact absurd h (Nat.not_lt_zero _)
  | succ f ih =>
    intro X Z hX hX0 hXne hZ hj hf hW
    rw [topLoop, cmpMpi_spec hX hY, toInt_of_nonneg hX0, toInt_pos hYn]
    have hYne : Y.p ≠ [] := nonnil_of_mag (by omega)
    have hXm := hX.mag_lt
    have hYm := hY.mag_lt
    have hnn : 0 ≤ X.mag / Y.mag := Nat.zero_le _
    by_cases hge : Y.mag ≤ X.mag
    · rw [if_pos (by unfold sgn; split_ifs <;> omega), limbAt_spec hj]
      simp only [Out.bind_ok]
      obtain ⟨R, r1, r2, r3, r4⟩ := sub_ok hX hY (by rw [toInt_of_nonneg hX0, toInt_pos hYn]; omega) hXne hYne
      rw [toInt_of_nonneg hX0, toInt_pos hYn] at r3
      have hRm : R.mag = X.mag - Y.mag := by rw [← natAbs_toInt, r3]; omega
      have hdiv : X.mag / Y.mag = (X.mag - Y.mag) / Y.mag + 1 := by
        conv_lhs => rw [show X.mag = (X.mag - Y.mag) + Y.mag by omega, Nat.add_div_right _ hypos]
      have hmod : X.mag % Y.mag = (X.mag - Y.mag) % Y.mag := by
        conv_lhs => rw [show X.mag = (X.mag - Y.mag) + Y.mag by omega, Nat.add_mod_right]
      generalize X.mag / Y.mag = u at *
      obtain ⟨w, hw⟩ : ∃ w, (X.mag - Y.mag) / Y.mag = w := ⟨_, rfl⟩
      rw [hw] at hdiv
      have hz : (Z.getD j 0 + 1) % W64 = Z.getD j 0 + 1 := Nat.mod_eq_of_lt (by omega)
      have hg : (Z.set j (Z.getD j 0 + 1)).getD j 0 = Z.getD j 0 + 1 := by
        rw [List.getD_eq_getElem?_getD, List.getElem?_set_self hj]; rfl
      have hRne : R.p ≠ [] := by
        intro h
        rw [h, List.length_nil] at r4
        have := List.length_pos_iff.2 hXne
        omega
      obtain ⟨S, s1, s2, s3, s4, s5⟩ := ih (X := R) (Z := Z.set j (Z.getD j 0 + 1)) r2 (by rw [r3]; omega) hRne (hZ.set j (by omega))
        (by rw [List.length_set]; exact hj) (by rw [hRm, hw]; omega) (by rw [hg, hRm, hw]; omega)
      simp only [r1, Out.bind_ok]
      rw [hz, s1, hg, List.set_set, hRm, hw]
      refine ⟨S, ?_, s2, s3, by rw [s4, hRm, hmod], by omega⟩
      rw [show Z.getD j 0 + 1 + w = Z.getD j 0 + u by omega]
    · rw [if_neg (by unfold sgn; split_ifs <;> omega)]
      have hlt : X.mag < Y.mag := by omega
      refine ⟨X, ?_, hX, hX0, (Nat.mod_eq_of_lt hlt).symm, le_refl _⟩
      rw [Nat.div_eq_of_lt hlt, Nat.add_zero]
      have : Z.set j (Z.getD j 0) = Z := by
        rw [List.getD_eq_getElem?_getD, List.getElem?_eq_getElem hj]
        simp
      rw [this]

end Verif.Bignum
