import Verif.Bignum.Limbs
import Mathlib.Data.Nat.Log
import Mathlib.Algebra.Order.Ring.Int
import Mathlib.Tactic.SplitIfs

/-!
# Integers: copying, comparison, addition, subtraction and multiplication return the exact integers
-/

namespace Verif.Bignum

open Verif

/-- The absolute value. -/
def Mpi.mag (X : Mpi) : Nat := val X.p

/-- The integer an object stands for. -/
def Mpi.toInt (X : Mpi) : Int := if X.neg then -(X.mag : Int) else X.mag

/-- The objects the library produces: limbs below 2^64, at most `MBEDTLS_MPI_MAX_LIMBS` of them. -/
structure Mpi.WF (X : Mpi) : Prop where
  ok : LOk X.p
  len : X.p.length ≤ maxLimbs

/-- The arguments that are other objects are well formed. -/
def Arg.WF : Arg → Prop
  | .self => True
  | .ext m => m.WF

theorem Arg.WF.get {X : Mpi} (hX : X.WF) : ∀ {A : Arg}, A.WF → (A.get X).WF
  | .self, _ => hX
  | .ext _, h => h

/-- The number of limbs an absolute value needs. -/
def limbs (n : Nat) : Nat := if n = 0 then 0 else Nat.log W64 n + 1

theorem limbs_le_iff (n k : Nat) : limbs n ≤ k ↔ n < W64 ^ k := by
  unfold limbs
  by_cases h : n = 0
  · subst h; simp
  · rw [if_neg h, ← Nat.log_lt_iff_lt_pow (by decide) h]; omega

theorem sig_eq_limbs {p : List Nat} (h : LOk p) : sig p = limbs (val p) := by
  apply le_antisymm
  · exact sig_le_of_lt ((limbs_le_iff _ _).1 (le_refl _))
  · exact (limbs_le_iff _ _).2 (val_lt_sig h)

theorem Mpi.null_WF : Mpi.null.WF := ⟨LOk.nil, by decide⟩

theorem Mpi.WF.mag_lt {X : Mpi} (h : X.WF) : X.mag < W64 ^ maxLimbs :=
  lt_of_lt_of_le (val_lt h.ok) (Nat.pow_le_pow_right (by decide) h.len)

theorem small_WF {z : Int} (h : z.natAbs < W64) : (small z).WF :=
  ⟨LOk.cons h LOk.nil, by simp [small, maxLimbs]⟩

theorem small_toInt (z : Int) : (small z).toInt = z := by
  unfold small Mpi.toInt Mpi.mag
  simp only [val]
  by_cases h : z < 0
  · rw [if_pos (by simpa using h)]; omega
  · rw [if_neg (by simpa using h)]; omega

theorem natAbs_toInt (X : Mpi) : X.toInt.natAbs = X.mag := by
  unfold Mpi.toInt
  split <;> simp

/-! ## Growing and copying -/

theorem grow_spec (X : Mpi) (hX : X.WF) (nb : Nat) :
    (nb ≤ maxLimbs → ∃ R, grow X nb = .ok R ∧ R.WF ∧ R.mag = X.mag ∧ R.neg = X.neg ∧ R.p.length = max nb X.p.length ∧
      R.p = X.p ++ List.replicate (nb - X.p.length) 0) ∧
    (maxLimbs < nb → grow X nb = .err .alloc) := by
  unfold grow
  constructor
  · intro h
    rw [if_neg (by omega)]
    have hl := hX.len
    refine ⟨_, rfl, ⟨hX.ok.append (LOk.zeros _), ?_⟩, ?_, rfl, ?_, rfl⟩
    · simp only [List.length_append, List.length_replicate]; omega
    · simp only [Mpi.mag]; rw [val_append, val_zeros]; simp
    · simp only [List.length_append, List.length_replicate]; omega
  · intro h; rw [if_pos (by omega)]

theorem copy_spec {X Y : Mpi} (hX : X.WF) (hY : Y.WF) :
    ∃ R, copy X Y = .ok R ∧ R.WF ∧ R.mag = Y.mag ∧ R.toInt = Y.toInt ∧ sig Y.p ≤ R.p.length := by
  unfold copy
  by_cases h : Y.p = []
  · rw [if_pos h]
    refine ⟨_, rfl, Mpi.null_WF, ?_, ?_, ?_⟩
    · simp [Mpi.mag, Mpi.null, h]
    · simp [Mpi.toInt, Mpi.mag, Mpi.null, h, val]
    · have := sig_le Y.p
      rw [h] at this ⊢
      exact this
  · rw [if_neg h]
    have hlen := hY.len
    have hpos : 1 ≤ Y.p.length := by
      have := List.length_pos_iff.2 h
      omega
    have hs := sig_le Y.p
    obtain ⟨R, hR, hW, -, hn, hl, -⟩ := (grow_spec { X with neg := Y.neg } ⟨hX.ok, hX.len⟩ (max (sig Y.p) 1)).1 (by omega)
    simp only [hR, Out.bind_ok, Out.pure_eq]
    have hv : val (Y.p.take (max (sig Y.p) 1) ++ List.replicate (R.p.length - max (sig Y.p) 1) 0) = val Y.p := by
      rw [val_append, val_zeros, val_take_ge_sig _ (by omega)]; simp
    refine ⟨_, rfl, ⟨(hY.ok.take _).append (LOk.zeros _), ?_⟩, ?_, ?_, ?_⟩
    · have := hW.len
      simp only [List.length_append, List.length_replicate, List.length_take]
      omega
    · simpa [Mpi.mag] using hv
    · simp only [Mpi.toInt, Mpi.mag, hv, hn]
    · simp only [List.length_append, List.length_replicate, List.length_take]
      omega

theorem copyArg_spec {X : Mpi} {A : Arg} (hX : X.WF) (hA : A.WF) :
    ∃ R, copyArg X A = .ok R ∧ R.WF ∧ R.mag = (A.get X).mag ∧ R.toInt = (A.get X).toInt ∧ sig (A.get X).p ≤ R.p.length := by
  cases A with
  | self => exact ⟨X, rfl, hX, rfl, rfl, sig_le _⟩
  | ext m => exact copy_spec hX hA

theorem unalias_spec {X : Mpi} {A : Arg} (hX : X.WF) (hA : A.WF) :
    ∃ R, unalias X A = .ok R ∧ R.WF ∧ R.mag = (A.get X).mag ∧ R.toInt = (A.get X).toInt := by
  cases A with
  | self =>
    obtain ⟨R, h1, h2, h3, h4, -⟩ := copy_spec Mpi.null_WF hX
    exact ⟨R, h1, h2, h3, h4⟩
  | ext m => exact ⟨m, rfl, hA, rfl, rfl⟩

theorem lset_spec {X : Mpi} (hX : X.WF) {z : Int} (hz : z.natAbs < W64) :
    ∃ R, lset X z = .ok R ∧ R.WF ∧ R.toInt = z ∧ R.p.length = max 1 X.p.length ∧ R.neg = decide (z < 0) ∧ R.mag = z.natAbs := by
  unfold lset
  obtain ⟨R, hR, hW, -, hn, hl, -⟩ := (grow_spec X hX 1).1 (by decide)
  simp only [hR, Out.bind_ok, Out.pure_eq]
  have hm : val (z.natAbs :: List.replicate (R.p.length - 1) 0) = z.natAbs := by rw [val, val_zeros]; simp
  have := hW.len
  refine ⟨_, rfl, ⟨LOk.cons hz (LOk.zeros _), ?_⟩, ?_, ?_, rfl, hm⟩
  · simp only [List.length_cons, List.length_replicate]
    have : 1 ≤ maxLimbs := by decide
    omega
  · simp only [Mpi.toInt, Mpi.mag, hm]
    by_cases h : z < 0
    · rw [if_pos (by simpa using h)]; omega
    · rw [if_neg (by simpa using h)]; omega
  · simp only [List.length_cons, List.length_replicate]; omega

/-! ## Comparison -/

/-- The sign of the difference, as the comparisons return it. -/
def sgn (z : Int) : Int := if z < 0 then -1 else if z = 0 then 0 else 1

theorem cmpSame {X Y : Mpi} (hX : LOk X.p) (hY : LOk Y.p) (h : sig X.p = sig Y.p) :
    cmpLoop (X.p.take (sig X.p)).reverse (Y.p.take (sig Y.p)).reverse = sgn ((X.mag : Int) - Y.mag) := by
  rw [val_reverse_lt (hX.take _).reverse (hY.take _).reverse (by
    rw [List.length_reverse, List.length_reverse, List.length_take, List.length_take]
    have := sig_le X.p
    have := sig_le Y.p
    omega), List.reverse_reverse, List.reverse_reverse, val_take_sig, val_take_sig]
  unfold sgn Mpi.mag
  split_ifs <;> omega

theorem sig_lt_mag {p q : List Nat} (hp : LOk p) (h : sig p < sig q) : val p < val q := by
  have h1 := val_lt_sig hp
  have h2 := val_ge_sig (p := q) (by omega)
  have h3 : W64 ^ sig p ≤ W64 ^ (sig q - 1) := Nat.pow_le_pow_right (by decide) (by omega)
  omega

theorem cmpAbs_spec {X Y : Mpi} (hX : X.WF) (hY : Y.WF) : cmpAbs X Y = sgn ((X.mag : Int) - Y.mag) := by
  unfold cmpAbs
  simp only
  by_cases h0 : sig X.p = 0 ∧ sig Y.p = 0
  · rw [if_pos h0]
    have h1 := (sig_zero_iff _).1 h0.1
    have h2 := (sig_zero_iff _).1 h0.2
    unfold Mpi.mag sgn; rw [h1, h2]; decide
  · rw [if_neg h0]
    by_cases h1 : sig X.p > sig Y.p
    · rw [if_pos h1]
      have := sig_lt_mag hY.ok h1
      unfold sgn Mpi.mag
      rw [if_neg (by omega), if_neg (by omega)]
    · rw [if_neg h1]
      by_cases h2 : sig Y.p > sig X.p
      · rw [if_pos h2]
        have := sig_lt_mag hX.ok h2
        unfold sgn Mpi.mag
        rw [if_pos (by omega)]
      · rw [if_neg h2]
        exact cmpSame hX.ok hY.ok (by omega)

theorem cmpMpi_spec {X Y : Mpi} (hX : X.WF) (hY : Y.WF) : cmpMpi X Y = sgn (X.toInt - Y.toInt) := by
  unfold cmpMpi
  simp only
  by_cases h0 : sig X.p = 0 ∧ sig Y.p = 0
  · rw [if_pos h0]
    have h1 := (sig_zero_iff _).1 h0.1
    have h2 := (sig_zero_iff _).1 h0.2
    have e1 : X.toInt = 0 := by unfold Mpi.toInt Mpi.mag; rw [h1]; simp
    have e2 : Y.toInt = 0 := by unfold Mpi.toInt Mpi.mag; rw [h2]; simp
    rw [e1, e2]; decide
  · rw [if_neg h0]
    by_cases h1 : sig X.p > sig Y.p
    · rw [if_pos h1]
      have := sig_lt_mag hY.ok h1
      unfold sgn Mpi.toInt Mpi.s Mpi.mag
      cases X.neg <;> cases Y.neg <;> simp only [Bool.false_eq_true, if_true, if_false] <;> split_ifs <;> omega
    · rw [if_neg h1]
      by_cases h2 : sig Y.p > sig X.p
      · rw [if_pos h2]
        have := sig_lt_mag hX.ok h2
        unfold sgn Mpi.toInt Mpi.s Mpi.mag
        cases X.neg <;> cases Y.neg <;> simp only [Bool.false_eq_true, if_true, if_false] <;> split_ifs <;> omega
      · rw [if_neg h2]
        have hs : sig X.p = sig Y.p := by omega
        have hx0 : val X.p ≠ 0 := fun h => h0 ⟨(sig_zero_iff _).2 h, by rw [← hs]; exact (sig_zero_iff _).2 h⟩
        have hy0 : val Y.p ≠ 0 := fun h => h0 ⟨by rw [hs]; exact (sig_zero_iff _).2 h, (sig_zero_iff _).2 h⟩
        rw [cmpSame hX.ok hY.ok hs]
        unfold sgn Mpi.toInt Mpi.s Mpi.mag
        cases X.neg <;> cases Y.neg <;> simp <;> split_ifs <;> omega

theorem cmpInt_spec {X : Mpi} (hX : X.WF) {z : Int} (hz : z.natAbs < W64) : cmpInt X z = sgn (X.toInt - z) := by
  unfold cmpInt
  rw [cmpMpi_spec hX (small_WF hz), small_toInt]

/-! ## Addition and subtraction -/

theorem mag_neg (X : Mpi) (b : Bool) : Mpi.mag { X with neg := b } = X.mag := rfl

theorem addAbs_core {X Y : Mpi} (hX : X.WF) (b : List Nat) (hb : LOk b) (hbl : b.length ≤ maxLimbs) (hY : val b = Y.mag) :
    (X.mag + Y.mag < W64 ^ maxLimbs → ∃ R,
      (do let Z ← grow X (sig b)
          let p := addLoop 0 (b.take (sig b)) Z.p
          if p.length > Z.p.length ∧ p.length > maxLimbs then .err .alloc else pure { Z with p := p } : Out Mpi) = .ok R ∧ R.WF ∧
        R.mag = X.mag + Y.mag ∧ R.neg = X.neg) ∧
    (W64 ^ maxLimbs ≤ X.mag + Y.mag →
      (do let Z ← grow X (sig b)
          let p := addLoop 0 (b.take (sig b)) Z.p
          if p.length > Z.p.length ∧ p.length > maxLimbs then .err .alloc else pure { Z with p := p } : Out Mpi) = .err .alloc) := by
  have hs := sig_le b
  obtain ⟨Z, hZ, hW, hm, hn, hl, -⟩ := (grow_spec X hX (sig b)).1 (by omega)
  simp only [hZ, Out.bind_ok, Out.pure_eq]
  obtain ⟨h1, h2, h3, h4, h5⟩ := addLoop_val (hb.take (sig b)) hW.ok (by rw [List.length_take]; omega) (c := 0) (by decide)
  rw [val_take_sig, hY, Nat.zero_add] at h1 h4
  have hm' : val Z.p = X.mag := hm
  rw [hm'] at h1 h4
  have hzl := hW.len
  constructor
  · intro hlt
    have hc : ¬((addLoop 0 (b.take (sig b)) Z.p).length > Z.p.length ∧ (addLoop 0 (b.take (sig b)) Z.p).length > maxLimbs) := by
      rintro ⟨ha, hb⟩
      have : Z.p.length = maxLimbs := by omega
      rw [this] at h4
      have := h4 (by omega)
      omega
    rw [if_neg hc]
    refine ⟨_, rfl, ⟨h2, ?_⟩, ?_, hn⟩
    · show (addLoop 0 (b.take (sig b)) Z.p).length ≤ maxLimbs
      omega
    · show val (addLoop 0 (b.take (sig b)) Z.p) = X.mag + Y.mag
      omega
  · intro hge
    have hlt := val_lt h2
    have hgt : maxLimbs < (addLoop 0 (b.take (sig b)) Z.p).length := by
      by_contra hcon
      have : W64 ^ (addLoop 0 (b.take (sig b)) Z.p).length ≤ W64 ^ maxLimbs := Nat.pow_le_pow_right (by decide) (by omega)
      omega
    rw [if_pos ⟨by omega, hgt⟩]

theorem addAbs_spec {X : Mpi} {A B : Arg} (hX : X.WF) (hA : A.WF) (hB : B.WF) :
    ((A.get X).mag + (B.get X).mag < W64 ^ maxLimbs → ∃ R, addAbs X A B = .ok R ∧ R.WF ∧ R.mag = (A.get X).mag + (B.get X).mag ∧ R.neg = false) ∧
    (W64 ^ maxLimbs ≤ (A.get X).mag + (B.get X).mag → addAbs X A B = .err .alloc) := by
  -- the arguments after the exchange, the copied value and the value of the second one are those of A and B
  have key : ∀ A B : Arg, A.WF → B.WF → (B = .self → A = .self) →
      ((A.get X).mag + (B.get X).mag < W64 ^ maxLimbs → ∃ R,
        (do let Y ← copyArg X A
            let Y := { Y with neg := false }
            let b := (B.get Y).p
            let Z ← grow Y (sig b)
            let p := addLoop 0 (b.take (sig b)) Z.p
            if p.length > Z.p.length ∧ p.length > maxLimbs then .err .alloc else pure { Z with p := p } : Out Mpi) = .ok R ∧ R.WF ∧
          R.mag = (A.get X).mag + (B.get X).mag ∧ R.neg = false) ∧
      (W64 ^ maxLimbs ≤ (A.get X).mag + (B.get X).mag →
        (do let Y ← copyArg X A
            let Y := { Y with neg := false }
            let b := (B.get Y).p
            let Z ← grow Y (sig b)
            let p := addLoop 0 (b.take (sig b)) Z.p
            if p.length > Z.p.length ∧ p.length > maxLimbs then .err .alloc else pure { Z with p := p } : Out Mpi) = .err .alloc) := by
    intro A B hA hB hself
    obtain ⟨Y, hY, hW, hm, -, -⟩ := copyArg_spec hX hA
    simp only [hY, Out.bind_ok]
    have hYW : Mpi.WF { Y with neg := false } := ⟨hW.ok, hW.len⟩
    have hbv : val (B.get { Y with neg := false }).p = (B.get X).mag := by
      cases B with
      | self =>
        have := hself rfl
        subst this
        simp only [copyArg, Out.ok.injEq] at hY
        subst hY
        rfl
      | ext m => rfl
    have hbW := Arg.WF.get hYW hB
    have := addAbs_core (Y := B.get X) hYW (B.get { Y with neg := false }).p hbW.ok hbW.len hbv
    rw [mag_neg, hm] at this
    exact this
  unfold addAbs
  cases B with
  | self =>
    cases A with
    | self => exact key .self .self trivial trivial (fun _ => rfl)
    | ext m =>
      have := key .self (.ext m) trivial hA (by simp)
      rw [Nat.add_comm] at this
      exact this
  | ext m => exact key A (.ext m) hA hB (by simp)

theorem subAbs_spec {X : Mpi} {A B : Arg} (hX : X.WF) (hA : A.WF) (hB : B.WF) :
    ((B.get X).mag ≤ (A.get X).mag → ∃ R, subAbs X A B = .ok R ∧ R.WF ∧ R.mag + (B.get X).mag = (A.get X).mag ∧ R.neg = false) ∧
    ((A.get X).mag < (B.get X).mag → subAbs X A B = .err .negative) := by
  have hAW := Arg.WF.get hX hA
  have hBW := Arg.WF.get hX hB
  unfold subAbs
  rw [cmpAbs_spec hAW hBW]
  constructor
  · intro hle
    rw [if_neg (by unfold sgn; split_ifs <;> omega)]
    obtain ⟨TB, h1, h2, h3, -⟩ := unalias_spec hX hB
    obtain ⟨Y, h4, h5, h6, -, h7⟩ := copyArg_spec hX hA
    simp only [h1, h4, Out.bind_ok]
    have hs : sig TB.p ≤ sig (A.get X).p := by
      rw [sig_eq_limbs h2.ok, sig_eq_limbs hAW.ok, limbs_le_iff]
      have := (limbs_le_iff (val (A.get X).p) _).1 (le_refl _)
      unfold Mpi.mag at h3 hle
      omega
    have hsl := sig_le TB.p
    obtain ⟨r, r1, r2, r3, r4⟩ := subLoop_val (h2.ok.take (sig TB.p)) h5.ok (c := 0) (by decide)
      (by rw [val_take_sig]; simp only [Mpi.mag] at *; omega) (by rw [List.length_take]; omega)
    simp only [subHlp, r1, orUb_some, Out.bind_ok, Out.pure_eq]
    refine ⟨_, rfl, ⟨r3, by rw [r4]; exact h5.len⟩, ?_, rfl⟩
    rw [val_take_sig] at r2
    simp only [Mpi.mag] at *
    omega
  · intro hlt
    rw [if_pos (by unfold sgn; split_ifs <;> omega)]

theorem toInt_mk (X : Mpi) (b : Bool) : Mpi.toInt { X with neg := b } = if b then -(X.mag : Int) else X.mag := rfl

/-- The common part of addition and subtraction: the absolute values are subtracted. -/
theorem subtractCase {X : Mpi} {A B : Arg} (hX : X.WF) (hA : A.WF) (hB : B.WF) (s : Bool) :
    ∃ R, (if cmpAbs (A.get X) (B.get X) ≥ 0 then do
        let X ← subAbs X A B
        pure { X with neg := s }
      else do
        let X ← subAbs X B A
        pure { X with neg := !s } : Out Mpi) = .ok R ∧ R.WF ∧
      R.toInt = if s then ((B.get X).mag : Int) - (A.get X).mag else (A.get X).mag - (B.get X).mag := by
  rw [cmpAbs_spec (Arg.WF.get hX hA) (Arg.WF.get hX hB)]
  by_cases h : (B.get X).mag ≤ (A.get X).mag
  · rw [if_pos (by unfold sgn; split_ifs <;> omega)]
    obtain ⟨R, h1, h2, h3, h4⟩ := (subAbs_spec hX hA hB).1 h
    simp only [h1, Out.bind_ok, Out.pure_eq]
    refine ⟨_, rfl, ⟨h2.ok, h2.len⟩, ?_⟩
    rw [toInt_mk]; cases s <;> simp <;> omega
  · rw [if_neg (by unfold sgn; split_ifs <;> omega)]
    obtain ⟨R, h1, h2, h3, h4⟩ := (subAbs_spec hX hB hA).1 (by omega)
    simp only [h1, Out.bind_ok, Out.pure_eq]
    refine ⟨_, rfl, ⟨h2.ok, h2.len⟩, ?_⟩
    rw [toInt_mk]; cases s <;> simp <;> omega

theorem addCase {X : Mpi} {A B : Arg} (hX : X.WF) (hA : A.WF) (hB : B.WF) (s : Bool) :
    ((A.get X).mag + (B.get X).mag < W64 ^ maxLimbs → ∃ R, (do
        let X ← addAbs X A B
        pure { X with neg := s } : Out Mpi) = .ok R ∧ R.WF ∧
      R.toInt = if s then -((A.get X).mag + (B.get X).mag : Int) else (A.get X).mag + (B.get X).mag) ∧
    (W64 ^ maxLimbs ≤ (A.get X).mag + (B.get X).mag → (do
        let X ← addAbs X A B
        pure { X with neg := s } : Out Mpi) = .err .alloc) := by
  constructor
  · intro h
    obtain ⟨R, h1, h2, h3, h4⟩ := (addAbs_spec hX hA hB).1 h
    simp only [h1, Out.bind_ok, Out.pure_eq]
    refine ⟨_, rfl, ⟨h2.ok, h2.len⟩, ?_⟩
    rw [toInt_mk, h3]; cases s <;> simp
  · intro h
    rw [(addAbs_spec hX hA hB).2 h]; rfl

theorem addMpi_spec {X : Mpi} {A B : Arg} (hX : X.WF) (hA : A.WF) (hB : B.WF) :
    (((A.get X).toInt + (B.get X).toInt).natAbs < W64 ^ maxLimbs →
      ∃ R, addMpi X A B = .ok R ∧ R.WF ∧ R.toInt = (A.get X).toInt + (B.get X).toInt) ∧
    (W64 ^ maxLimbs ≤ ((A.get X).toInt + (B.get X).toInt).natAbs → addMpi X A B = .err .alloc) := by
  have hA' := (Arg.WF.get hX hA).mag_lt
  have hB' := (Arg.WF.get hX hB).mag_lt
  obtain ⟨R, h1, h2, h3⟩ := subtractCase hX hA hB (A.get X).neg
  obtain ⟨k1, k2⟩ := addCase hX hA hB (A.get X).neg
  unfold addMpi
  simp only
  by_cases hs : (A.get X).neg ≠ (B.get X).neg
  · rw [if_pos hs]
    constructor
    · intro _
      refine ⟨R, h1, h2, ?_⟩
      rw [h3]; unfold Mpi.toInt
      cases ha : (A.get X).neg <;> cases hb : (B.get X).neg <;> simp_all <;> omega
    · intro h
      exfalso
      revert h; unfold Mpi.toInt
      cases ha : (A.get X).neg <;> cases hb : (B.get X).neg <;> simp_all <;> omega
  · rw [if_neg hs]
    have e : (A.get X).toInt + (B.get X).toInt = if (A.get X).neg then -((A.get X).mag + (B.get X).mag : Int) else (A.get X).mag + (B.get X).mag := by
      unfold Mpi.toInt
      cases ha : (A.get X).neg <;> cases hb : (B.get X).neg <;> simp_all <;> omega
    have e2 : ((A.get X).toInt + (B.get X).toInt).natAbs = (A.get X).mag + (B.get X).mag := by rw [e]; split <;> omega
    rw [e2, e]
    exact ⟨k1, k2⟩

theorem subMpi_spec {X : Mpi} {A B : Arg} (hX : X.WF) (hA : A.WF) (hB : B.WF) :
    (((A.get X).toInt - (B.get X).toInt).natAbs < W64 ^ maxLimbs →
      ∃ R, subMpi X A B = .ok R ∧ R.WF ∧ R.toInt = (A.get X).toInt - (B.get X).toInt) ∧
    (W64 ^ maxLimbs ≤ ((A.get X).toInt - (B.get X).toInt).natAbs → subMpi X A B = .err .alloc) := by
  have hA' := (Arg.WF.get hX hA).mag_lt
  have hB' := (Arg.WF.get hX hB).mag_lt
  obtain ⟨R, h1, h2, h3⟩ := subtractCase hX hA hB (A.get X).neg
  obtain ⟨k1, k2⟩ := addCase hX hA hB (A.get X).neg
  unfold subMpi
  simp only
  by_cases hs : (A.get X).neg = (B.get X).neg
  · rw [if_pos hs]
    constructor
    · intro _
      refine ⟨R, h1, h2, ?_⟩
      rw [h3]; unfold Mpi.toInt
      cases ha : (A.get X).neg <;> cases hb : (B.get X).neg <;> simp_all <;> omega
    · intro h
      exfalso
      revert h; unfold Mpi.toInt
      cases ha : (A.get X).neg <;> cases hb : (B.get X).neg <;> simp_all <;> omega
  · rw [if_neg hs]
    have e : (A.get X).toInt - (B.get X).toInt = if (A.get X).neg then -((A.get X).mag + (B.get X).mag : Int) else (A.get X).mag + (B.get X).mag := by
      unfold Mpi.toInt
      cases ha : (A.get X).neg <;> cases hb : (B.get X).neg <;> simp_all <;> omega
    have e2 : ((A.get X).toInt - (B.get X).toInt).natAbs = (A.get X).mag + (B.get X).mag := by rw [e]; split <;> omega
    rw [e2, e]
    exact ⟨k1, k2⟩

/-! ## Multiplication -/

theorem mulMpi_spec {X : Mpi} {A B : Arg} (hX : X.WF) (hA : A.WF) (hB : B.WF) :
    (limbs (A.get X).mag + limbs (B.get X).mag ≤ maxLimbs →
      ∃ R, mulMpi X A B = .ok R ∧ R.WF ∧ R.toInt = (A.get X).toInt * (B.get X).toInt ∧ max 1 X.p.length ≤ R.p.length) ∧
    (maxLimbs < limbs (A.get X).mag + limbs (B.get X).mag → mulMpi X A B = .err .alloc) := by
  unfold mulMpi
  obtain ⟨TA, a1, a2, a3, a4⟩ := unalias_spec hX hA
  obtain ⟨TB, b1, b2, b3, b4⟩ := unalias_spec hX hB
  simp only [a1, b1, Out.bind_ok]
  have ea : sig TA.p = limbs (A.get X).mag := by rw [sig_eq_limbs a2.ok, ← a3]; rfl
  have eb : sig TB.p = limbs (B.get X).mag := by rw [sig_eq_limbs b2.ok, ← b3]; rfl
  rw [← ea, ← eb]
  constructor
  · intro hle
    obtain ⟨Y, y1, y2, -, -, y3, -⟩ := (grow_spec X hX (sig TA.p + sig TB.p)).1 hle
    obtain ⟨Z, z1, z2, z3, z4, z5, z6⟩ := lset_spec y2 (z := 0) (by decide)
    simp only [y1, z1, Out.bind_ok]
    have hsa := sig_le TA.p
    have hsb := sig_le TB.p
    have hz0 : val Z.p = 0 := by simpa [Mpi.mag] using z6
    have hprod : val TB.p * val TA.p < W64 ^ Z.p.length := by
      have h1 := val_lt_sig a2.ok
      have h2 := val_lt_sig b2.ok
      calc val TB.p * val TA.p < W64 ^ sig TB.p * W64 ^ sig TA.p := Nat.mul_lt_mul'' h2 h1
        _ = W64 ^ (sig TB.p + sig TA.p) := (pow_add _ _ _).symm
        _ ≤ W64 ^ Z.p.length := Nat.pow_le_pow_right (by decide) (by omega)
    obtain ⟨r, r1, r2, r3, r4⟩ := mulRows_val (a2.ok.take (sig TA.p)) b2.ok (j := sig TB.p) z2.ok hsb
      (by rw [List.length_take]; omega) (by rw [val_take_sig, val_take_sig, hz0]; omega)
    rw [r1]
    simp only [orUb_some, Out.bind_ok, Out.pure_eq]
    refine ⟨_, rfl, ⟨r3, by rw [r4]; exact z2.len⟩, ?_, by simp only [r4]; omega⟩
    rw [← a4, ← b4]
    rw [val_take_sig, val_take_sig, hz0, Nat.add_zero] at r2
    simp only [Mpi.toInt, Mpi.mag, r2]
    cases TA.neg <;> cases TB.neg <;> simp <;> ring
  · intro hgt
    rw [(grow_spec X hX (sig TA.p + sig TB.p)).2 hgt]; rfl

end Verif.Bignum
