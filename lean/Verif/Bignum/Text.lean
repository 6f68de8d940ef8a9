import Verif.Bignum.ModelText
import Verif.Bignum.Lengths
import Mathlib.Data.Nat.Digits.Lemmas

/-!
# Texts of numbers: specification and lemmas
-/

namespace Verif.Bignum

open Verif

/-! ## Specification -/

def upperDigits : List Nat := "0123456789ABCDEF".toList.map Char.toNat
def lowerDigits : List Nat := "0123456789abcdef".toList.map Char.toNat

/-- The character is the digit in one of the two alphabets. -/
def Digit (c d : Nat) : Prop := upperDigits[d]? = some c ∨ lowerDigits[d]? = some c

instance (c d : Nat) : Decidable (Digit c d) := inferInstanceAs (Decidable (_ ∨ _))

/-- Characters and the digits they stand for, all below the radix. -/
def Digits (r : Nat) (cs ds : List Nat) : Prop := List.Forall₂ (fun c d => Digit c d ∧ d < r) cs ds

/-- The text stands for the integer: an optional minus sign, then digits, most significant first.  (No digits at all stand for 0.) -/
def Denotes (r : Nat) (s : List Nat) (z : Int) : Prop :=
  ∃ cs ds, Digits r cs ds ∧ (s = cs ∧ z = (Nat.ofDigits r ds.reverse : Nat) ∨ s = 0x2d :: cs ∧ z = -((Nat.ofDigits r ds.reverse : Nat) : Int))

/-- The digit in upper case. -/
def upperDigit (d : Nat) : Nat := upperDigits.getD d 0

/-- The shortest text of a natural number. -/
def natText (r m : Nat) : List Nat := if m = 0 then [upperDigit 0] else (Nat.digits r m).reverse.map upperDigit

/-- The shortest hexadecimal text that consists of whole bytes. -/
def hexText (m : Nat) : List Nat :=
  (if m = 0 then [0] else (Nat.digits 256 m).reverse).flatMap fun b => [upperDigit (b / 16), upperDigit (b % 16)]

/-- The sign of the object, also that of a negative zero. -/
def signText (X : Mpi) : List Nat := if X.neg then [0x2d] else []

/-! ## Digits -/

theorem digit_lt {c d : Nat} (h : Digit c d) : d < 16 := by
  rcases h with h | h
  · exact (List.getElem?_eq_some_iff.1 h).1
  · exact (List.getElem?_eq_some_iff.1 h).1

theorem getDigit_table : ∀ c < 128, (∀ d < 16, Digit c d → getDigit 16 c = .ok d) ∧ ((∀ d < 16, ¬Digit c d) → getDigit 16 c = .err .invalidChar) := by
  decide +kernel

theorem digit_char {c d : Nat} (h : Digit c d) : c < 128 ∧ c ≠ 0 ∧ c ≠ 0x2d := by
  have hd := digit_lt h
  have : ∀ d < 16, ∀ x, (upperDigits[d]? = some x ∨ lowerDigits[d]? = some x) → x < 128 ∧ x ≠ 0 ∧ x ≠ 0x2d := by
    intro d hd x hx
    have h1 : ∀ d < 16, upperDigits.getD d 0 < 128 ∧ upperDigits.getD d 0 ≠ 0 ∧ upperDigits.getD d 0 ≠ 0x2d := by decide
    have h2 : ∀ d < 16, lowerDigits.getD d 0 < 128 ∧ lowerDigits.getD d 0 ≠ 0 ∧ lowerDigits.getD d 0 ≠ 0x2d := by decide
    rcases hx with hx | hx
    · have := h1 d hd
      rw [List.getD_eq_getElem?_getD, hx] at this
      exact this
    · have := h2 d hd
      rw [List.getD_eq_getElem?_getD, hx] at this
      exact this
  exact this d hd c h

theorem getDigit_radix (r c : Nat) (hr : r ≤ 16) :
    getDigit r c = match getDigit 16 c with
      | .ok d => if d < r then .ok d else .err .invalidChar
      | o => o := by
  unfold getDigit
  simp only
  generalize (if c ≥ 0x61 ∧ c ≤ 0x66 then c - 0x57 else if c ≥ 0x41 ∧ c ≤ 0x46 then c - 0x37 else if c ≥ 0x30 ∧ c ≤ 0x39 then c - 0x30 else 255) = d
  by_cases h : d ≥ 16
  · rw [if_pos h, if_pos (by omega)]
  · rw [if_neg h]
    by_cases h2 : d ≥ r
    · rw [if_pos h2]; simp only; rw [if_neg (by omega)]
    · rw [if_neg h2]; simp only; rw [if_pos (by omega)]

theorem getDigit_ok {r c d : Nat} (hr : r ≤ 16) (h : Digit c d) (hd : d < r) : getDigit r c = .ok d := by
  rw [getDigit_radix r c hr, (getDigit_table c (digit_char h).1).1 d (digit_lt h) h]
  simp only
  rw [if_pos hd]

theorem getDigit_bad {r c : Nat} (hr : r ≤ 16) (h : ∀ d, ¬(Digit c d ∧ d < r)) : getDigit r c = .err .invalidChar := by
  rw [getDigit_radix r c hr]
  by_cases hc : c < 128
  · by_cases h2 : ∃ d < 16, Digit c d
    · obtain ⟨d, hd, h2⟩ := h2
      rw [(getDigit_table c hc).1 d hd h2]
      simp only
      rw [if_neg (fun h3 => h d ⟨h2, h3⟩)]
    · rw [(getDigit_table c hc).2 (fun d hd h3 => h2 ⟨d, hd, h3⟩)]
  · have : getDigit 16 c = .err .invalidChar := by
      unfold getDigit
      simp only
      rw [if_neg (show ¬(c ≥ 0x61 ∧ c ≤ 0x66) by omega), if_neg (show ¬(c ≥ 0x41 ∧ c ≤ 0x46) by omega), if_neg (show ¬(c ≥ 0x30 ∧ c ≤ 0x39) by omega)]
      rfl
    rw [this]

theorem digit_unique {c d e : Nat} (h : Digit c d) (h' : Digit c e) : d = e := by
  have h1 := getDigit_ok (r := 16) le_rfl h (digit_lt h)
  rw [getDigit_ok (r := 16) le_rfl h' (digit_lt h')] at h1
  exact (Out.ok.inj h1).symm

theorem digits_unique {r : Nat} {cs ds es : List Nat} (h : Digits r cs ds) (h' : Digits r cs es) : ds = es := by
  induction h generalizing es with
  | nil => cases h'; rfl
  | cons h0 _ ih =>
    cases h' with
    | cons h1 h2 => rw [digit_unique h0.1 h1.1, ih h2]

theorem digits_chars {r : Nat} {cs ds : List Nat} (h : Digits r cs ds) : ∀ c ∈ cs, c ≠ 0 ∧ c ≠ 0x2d := by
  induction h with
  | nil => intro c hc; simp at hc
  | cons h0 _ ih =>
    intro c hc
    rcases List.mem_cons.1 hc with h | h
    · rw [h]; exact (digit_char h0.1).2
    · exact ih c h

theorem digits_lt {r : Nat} {cs ds : List Nat} (h : Digits r cs ds) : ∀ d ∈ ds, d < r := by
  induction h with
  | nil => intro c hc; simp at hc
  | cons h0 _ ih =>
    intro c hc
    rcases List.mem_cons.1 hc with h | h
    · rw [h]; exact h0.2
    · exact ih c h

theorem Digits.reverse {r : Nat} {cs ds : List Nat} (h : Digits r cs ds) : Digits r cs.reverse ds.reverse := List.rel_reverse h

theorem Digits.append {r : Nat} {a b c d : List Nat} (h : Digits r a b) (h' : Digits r c d) : Digits r (a ++ c) (b ++ d) := List.rel_append h h'

/-- A text stands for one integer at most. -/
theorem Denotes.unique {r : Nat} {s : List Nat} {y z : Int} (h : Denotes r s y) (h' : Denotes r s z) : y = z := by
  obtain ⟨cs, ds, h1, h2⟩ := h
  obtain ⟨cs', ds', h1', h2'⟩ := h'
  rcases h2 with ⟨e, e2⟩ | ⟨e, e2⟩ <;> rcases h2' with ⟨e', e2'⟩ | ⟨e', e2'⟩
  · have : cs = cs' := by rw [← e, ← e']
    subst this
    rw [e2, e2', digits_unique h1 h1']
  · exact absurd rfl ((digits_chars h1 0x2d (by rw [← e, e']; exact List.mem_cons_self ..)).2)
  · exact absurd rfl ((digits_chars h1' 0x2d (by rw [← e', e]; exact List.mem_cons_self ..)).2)
  · have : cs = cs' := by rw [e] at e'; exact (List.cons.inj e').2
    subst this
    rw [e2, e2', digits_unique h1 h1']

theorem Denotes.no_zero {r : Nat} {s : List Nat} {z : Int} (h : Denotes r s z) : 0 ∉ s := by
  obtain ⟨cs, ds, h1, ⟨rfl, -⟩ | ⟨rfl, -⟩⟩ := h
  · intro h; exact (digits_chars h1 0 h).1 rfl
  · intro h
    rcases List.mem_cons.1 h with h | h
    · exact absurd h (by decide)
    · exact (digits_chars h1 0 h).1 rfl

/-! ## Reading hexadecimal digits -/

theorem pow16 (j : Nat) : (16 : Nat) ^ j = W64 ^ (j / 16) * 2 ^ (4 * (j % 16)) := by
  rw [W64_pow, ← pow_add, show (16 : Nat) = 2 ^ 4 by norm_num, ← pow_mul]
  congr 1; omega

/-- One digit. -/
theorem hexStep {p : List Nat} {j d : Nat} (hp : LOk p) (hd : d < 16) (hk : j < 16 * p.length) :
    ∃ q, (do let x ← limbAt p (j / 16); setLimb p (j / 16) (x ||| ((d <<< ((j % 16) <<< 2)) % W64))) = .ok q ∧ LOk q ∧ q.length = p.length ∧
      (val p < 16 ^ j → val q = val p + 16 ^ j * d) := by
  have hk : j / 16 < p.length := by omega
  have hg : p[j / 16]? = some (p.getD (j / 16) 0) := by
    rw [List.getD_eq_getElem?_getD, List.getElem?_eq_getElem hk]; rfl
  have hsh : (j % 16) <<< 2 = 4 * (j % 16) := by rw [Nat.shiftLeft_eq]; omega
  have h2 : 16 * 2 ^ (4 * (j % 16)) ≤ W64 := by
    rw [show (W64 : Nat) = 2 ^ 64 by norm_num, show (16 : Nat) = 2 ^ 4 by norm_num, ← pow_add]
    exact Nat.pow_le_pow_right (by decide) (by omega)
  have h1 : d * 2 ^ (4 * (j % 16)) ≤ 15 * 2 ^ (4 * (j % 16)) := Nat.mul_le_mul_right _ (by omega)
  have hpos : 0 < 2 ^ (4 * (j % 16)) := by positivity
  have hmod : (d <<< ((j % 16) <<< 2)) % W64 = d <<< (4 * (j % 16)) := by
    rw [hsh, Nat.shiftLeft_eq]
    exact Nat.mod_eq_of_lt (by omega)
  have hx : p.getD (j / 16) 0 < W64 := hp.getD _
  unfold limbAt setLimb
  rw [hg, hmod]
  simp only [orUb_some, Out.bind_ok, if_pos hk]
  have hlt : (p.getD (j / 16) 0 ||| d <<< (4 * (j % 16))) < W64 := by
    rw [show (W64 : Nat) = 2 ^ 64 by norm_num] at hx ⊢
    apply Nat.or_lt_two_pow hx
    rw [Nat.shiftLeft_eq]
    rw [show (W64 : Nat) = 2 ^ 64 by norm_num] at h2
    omega
  refine ⟨_, rfl, hp.set _ hlt, by rw [List.length_set], fun hv => ?_⟩
  have hsmall : p.getD (j / 16) 0 < 2 ^ (4 * (j % 16)) := by
    have h1 := val_set hk 0
    rw [Nat.mul_zero, Nat.add_zero] at h1
    rw [pow16] at hv
    have : W64 ^ (j / 16) * p.getD (j / 16) 0 < W64 ^ (j / 16) * 2 ^ (4 * (j % 16)) := by omega
    exact Nat.lt_of_mul_lt_mul_left this
  have hor : (p.getD (j / 16) 0 ||| d <<< (4 * (j % 16))) = p.getD (j / 16) 0 + d * 2 ^ (4 * (j % 16)) := by
    rw [Nat.or_comm, ← Nat.shiftLeft_add_eq_or_of_lt hsmall, Nat.shiftLeft_eq, Nat.add_comm]
  rw [hor]
  have hval := val_set hk (p.getD (j / 16) 0 + d * 2 ^ (4 * (j % 16)))
  have e : W64 ^ (j / 16) * (p.getD (j / 16) 0 + d * 2 ^ (4 * (j % 16))) = W64 ^ (j / 16) * p.getD (j / 16) 0 + 16 ^ j * d := by
    rw [pow16]; ring
  rw [e] at hval
  omega

theorem readHex_cons {c : Nat} {rest : List Nat} {j : Nat} {X : Mpi} (h : ¬(rest.length = 0 ∧ c = 0x2d)) :
    readHex (c :: rest) j X = (do
      let d ← getDigit 16 c
      let p ← (do let x ← limbAt X.p (j / 16); setLimb X.p (j / 16) (x ||| ((d <<< ((j % 16) <<< 2)) % W64)))
      readHex rest (j + 1) { X with p := p }) := by
  rw [readHex, if_neg h]
  cases getDigit 16 c with
  | ok d =>
    simp only [Out.bind_ok]
    cases limbAt X.p (j / 16) <;> rfl
  | err e => rfl
  | ub => rfl

/-- Reading digits from the last one, up to the sign. -/
theorem readHex_ok {rs ds tl : List Nat} (h : Digits 16 rs ds) (ht : tl = [] ∨ tl = [0x2d]) : ∀ (j : Nat) {X : Mpi}, X.WF → X.mag < 16 ^ j →
    j + rs.length ≤ 16 * X.p.length →
    ∃ R, readHex (rs ++ tl) j X = .ok R ∧ R.WF ∧ R.mag = X.mag + 16 ^ j * Nat.ofDigits 16 ds ∧ R.neg = (X.neg || !tl.isEmpty) := by
  induction h with
  | nil =>
    intro j X hX _ _
    rcases ht with rfl | rfl
    · exact ⟨X, rfl, hX, by simp, by simp⟩
    · refine ⟨{ X with neg := true }, ?_, ⟨hX.ok, hX.len⟩, by simp [Mpi.mag], by simp⟩
      rw [List.nil_append, readHex, if_pos ⟨rfl, rfl⟩]
  | @cons c d rs ds h0 _ ih =>
    intro j X hX hv hl
    rw [List.length_cons] at hl
    obtain ⟨q, q1, q2, q3, q4⟩ := hexStep (j := j) hX.ok h0.2 (by omega)
    rw [List.cons_append, readHex_cons (fun hc => (digit_char h0.1).2.2 hc.2), getDigit_ok le_rfl h0.1 h0.2]
    simp only [Out.bind_ok, q1]
    have hm : Mpi.mag { X with p := q } = X.mag + 16 ^ j * d := q4 hv
    obtain ⟨R, r1, r2, r3, r4⟩ := ih (j + 1) (X := { X with p := q }) ⟨q2, by simp only [q3]; exact hX.len⟩ (by
      rw [hm, pow_succ]
      have : 16 ^ j * d ≤ 16 ^ j * 15 := Nat.mul_le_mul_left _ (by have := h0.2; omega)
      omega) (by simp only [q3]; omega)
    refine ⟨R, r1, r2, ?_, r4⟩
    rw [r3, hm, Nat.ofDigits_cons, pow_succ]; ring

/-- A text read from the end: digits and an optional sign, or an invalid character. -/
theorem readHex_or (rs : List Nat) : (∃ cs ds tl, rs = cs ++ tl ∧ Digits 16 cs ds ∧ (tl = [] ∨ tl = [0x2d])) ∨
    ∀ (j : Nat) {X : Mpi}, X.WF → j + rs.length ≤ 16 * X.p.length → readHex rs j X = .err .invalidChar := by
  induction rs with
  | nil => exact .inl ⟨[], [], [], rfl, .nil, .inl rfl⟩
  | cons c r ih =>
    by_cases hm : r.length = 0 ∧ c = 0x2d
    · refine .inl ⟨[], [], [0x2d], ?_, .nil, .inr rfl⟩
      rw [List.length_eq_zero_iff.1 hm.1, hm.2]; rfl
    · by_cases hd : ∃ d, Digit c d ∧ d < 16
      · obtain ⟨d, hd⟩ := hd
        rcases ih with ⟨cs, ds, tl, h1, h2, h3⟩ | ih
        · exact .inl ⟨c :: cs, d :: ds, tl, by rw [h1]; rfl, .cons hd h2, h3⟩
        · refine .inr fun j X hX hl => ?_
          rw [List.length_cons] at hl
          obtain ⟨q, q1, q2, q3, -⟩ := hexStep (j := j) hX.ok hd.2 (by omega)
          rw [readHex_cons hm, getDigit_ok le_rfl hd.1 hd.2]
          simp only [Out.bind_ok, q1]
          exact ih (j + 1) ⟨q2, by simp only [q3]; exact hX.len⟩ (by simp only [q3]; omega)
      · refine .inr fun j X _ _ => ?_
        rw [readHex_cons hm, getDigit_bad le_rfl (fun d h => hd ⟨d, h⟩)]
        rfl

/-! ## Reading other digits -/

theorem mulInt_neg {X A R : Mpi} {b : Nat} (h : mulInt X (.ext A) b = .ok R) : R.neg = A.neg := by
  unfold mulInt mulMpi at h
  obtain ⟨TA, t1, h⟩ := Out.bind_eq_ok.1 h
  obtain ⟨TB, t2, h⟩ := Out.bind_eq_ok.1 h
  simp only [unalias, Out.ok.injEq] at t1 t2
  subst t1 t2
  obtain ⟨Y, -, h⟩ := Out.bind_eq_ok.1 h
  obtain ⟨Z, -, h⟩ := Out.bind_eq_ok.1 h
  obtain ⟨q, -, h⟩ := Out.bind_eq_ok.1 h
  simp only [Out.pure_eq, Out.ok.injEq] at h
  rw [← h]
  simp

theorem small_nat_neg (d : Nat) : (small (d : Int)).neg = false := by simp [small]

/-- Adding a digit to the absolute value. -/
def addDigit (X T : Mpi) (d : Nat) : Out Mpi := if X.s = 1 then addInt X (.ext T) d else subInt X (.ext T) d

theorem s_eq (X : Mpi) : X.s = 1 ↔ X.neg = false := by unfold Mpi.s; cases X.neg <;> simp

theorem addDigit_neg {X T R : Mpi} {d : Nat} (hT : T.neg = X.neg) (h : addDigit X T d = .ok R) : R.neg = X.neg := by
  unfold addDigit at h
  split at h
  · rename_i hs
    rw [s_eq] at hs
    unfold addInt addMpi at h
    simp only [Arg.get, hT, hs, small_nat_neg, ne_eq, not_true_eq_false, if_false] at h
    obtain ⟨Y, -, h⟩ := Out.bind_eq_ok.1 h
    simp only [Out.pure_eq, Out.ok.injEq] at h
    rw [← h, hs]
  · rename_i hs
    rw [s_eq, Bool.not_eq_false] at hs
    unfold subInt subMpi at h
    simp only [Arg.get, hT, hs, small_nat_neg, Bool.true_eq_false, if_false] at h
    obtain ⟨Y, -, h⟩ := Out.bind_eq_ok.1 h
    simp only [Out.pure_eq, Out.ok.injEq] at h
    rw [← h, hs]

theorem toInt_neg {X : Mpi} (h : X.neg = true) : X.toInt = -(X.mag : Int) := by unfold Mpi.toInt; rw [h]; simp

theorem digitStep {X T0 : Mpi} {r d : Nat} (hX : X.WF) (hT0 : T0.WF) (hr : r ≤ 16) (hd : d < 16) (hl : limbs X.mag + 1 ≤ maxLimbs)
    (hv : X.mag * r + d < W64 ^ maxLimbs) :
    ∃ T R, mulInt T0 (.ext X) r = .ok T ∧ T.WF ∧ addDigit X T d = .ok R ∧ R.WF ∧ R.mag = X.mag * r + d ∧ R.neg = X.neg := by
  obtain ⟨T, t1, t2, t3, -⟩ := mulInt_spec hT0 (A := .ext X) hX (b := r) (by omega) hl
  have hn := mulInt_neg t1
  simp only [Arg.get] at t3
  have hB : (Arg.ext (small (d : Int))).WF := small_WF (by simp; omega)
  have key : ∃ R, addDigit X T d = .ok R ∧ R.WF ∧ R.mag = X.mag * r + d := by
    unfold addDigit
    by_cases hs : X.neg = false
    · rw [if_pos ((s_eq X).2 hs)]
      rw [toInt_pos hs] at t3
      have e : T.toInt + (d : Int) = ((X.mag * r + d : Nat) : Int) := by rw [t3]; push_cast; ring
      have := (addMpi_spec hX (A := .ext T) t2 hB).1
      simp only [Arg.get, small_toInt] at this
      obtain ⟨R, r1, r2, r3⟩ := this (by rw [e]; exact hv)
      exact ⟨R, r1, r2, by rw [← natAbs_toInt, r3, e]; rfl⟩
    · rw [if_neg (fun h => hs ((s_eq X).1 h))]
      rw [Bool.not_eq_false] at hs
      rw [toInt_neg hs] at t3
      have e : T.toInt - (d : Int) = -((X.mag * r + d : Nat) : Int) := by rw [t3]; push_cast; ring
      have := (subMpi_spec hX (A := .ext T) t2 hB).1
      simp only [Arg.get, small_toInt] at this
      obtain ⟨R, r1, r2, r3⟩ := this (by rw [e, Int.natAbs_neg]; exact hv)
      exact ⟨R, r1, r2, by rw [← natAbs_toInt, r3, e, Int.natAbs_neg]; rfl⟩
  obtain ⟨R, r1, r2, r3⟩ := key
  exact ⟨T, R, t1, t2, r1, r2, r3, addDigit_neg hn r1⟩

theorem readDigits_cons {radix c i : Nat} {rest : List Nat} {X T : Mpi} (h : ¬(i = 0 ∧ c = 0x2d)) :
    readDigits radix (c :: rest) i X T = (do
      let d ← getDigit radix c
      let T ← mulInt T (.ext X) radix
      let X ← addDigit X T d
      readDigits radix rest (i + 1) X T) := by
  rw [readDigits, if_neg h]
  unfold addDigit
  cases getDigit radix c with
  | ok d =>
    simp only [Out.bind_ok]
    cases mulInt T (.ext X) radix with
    | ok T' => simp only [Out.bind_ok]; split <;> rfl
    | err e => rfl
    | ub => rfl
  | err e => rfl
  | ub => rfl

theorem digits_step_bound {m r d k : Nat} (hd : d < r) (h : (m + 1) * r ^ (k + 1) ≤ W64 ^ (maxLimbs - 1)) (hr : 0 < r) :
    limbs m + 1 ≤ maxLimbs ∧ m * r + d < W64 ^ maxLimbs ∧ (m * r + d + 1) * r ^ k ≤ W64 ^ (maxLimbs - 1) := by
  have e1 : (m * r + d + 1) * r ^ k ≤ (m + 1) * r ^ (k + 1) := by
    rw [pow_succ, show (m + 1) * (r ^ k * r) = (m * r + r) * r ^ k by ring]
    exact Nat.mul_le_mul_right _ (by omega)
  have p1 : 0 < r ^ k := Nat.pow_pos hr
  have p2 : 0 < r ^ (k + 1) := Nat.pow_pos hr
  have e2 : m * r + d + 1 ≤ (m * r + d + 1) * r ^ k := Nat.le_mul_of_pos_right _ p1
  have e3 : m + 1 ≤ (m + 1) * r ^ (k + 1) := Nat.le_mul_of_pos_right _ p2
  have hle : W64 ^ (maxLimbs - 1) ≤ W64 ^ maxLimbs := Nat.pow_le_pow_right (by norm_num) (by omega)
  have hlim : limbs m ≤ maxLimbs - 1 := (limbs_le_iff _ _).2 (by omega)
  refine ⟨?_, by omega, by omega⟩
  have : maxLimbs = 10000 := rfl
  omega

/-- Reading digits after the first position. -/
theorem readDigits_ok {r : Nat} (hr : 2 ≤ r) (hr2 : r ≤ 16) {cs ds : List Nat} (h : Digits r cs ds) : ∀ (i : Nat) {X T : Mpi}, X.WF → T.WF →
    (X.mag + 1) * r ^ cs.length ≤ W64 ^ (maxLimbs - 1) →
    ∃ R, readDigits r cs i X T = .ok R ∧ R.WF ∧ R.mag = X.mag * r ^ ds.length + Nat.ofDigits r ds.reverse ∧ R.neg = X.neg := by
  induction h with
  | nil => intro i X T hX _ _; exact ⟨X, rfl, hX, by simp, rfl⟩
  | @cons c d rs ds h0 _ ih =>
    intro i X T hX hT hl
    rw [List.length_cons] at hl
    obtain ⟨b1, b2, b3⟩ := digits_step_bound h0.2 hl (by omega)
    obtain ⟨T', X', t1, t2, x1, x2, x3, x4⟩ := digitStep hX hT hr2 (digit_lt h0.1) b1 b2
    rw [readDigits_cons (fun hc => (digit_char h0.1).2.2 hc.2), getDigit_ok hr2 h0.1 h0.2]
    simp only [Out.bind_ok, t1, x1]
    obtain ⟨R, r1, r2, r3, r4⟩ := ih (i + 1) x2 t2 (by rw [x3]; exact b3)
    refine ⟨R, r1, r2, ?_, by rw [r4, x4]⟩
    rw [r3, x3, List.reverse_cons, Nat.ofDigits_append, List.length_reverse, List.length_cons, Nat.ofDigits_singleton, pow_succ]
    ring

/-- Digits, or an invalid character. -/
theorem readDigits_or {r : Nat} (hr : 2 ≤ r) (hr2 : r ≤ 16) (cs : List Nat) : (∃ ds, Digits r cs ds) ∨
    ∀ (i : Nat) {X T : Mpi}, X.WF → T.WF → 0 < i → (X.mag + 1) * r ^ cs.length ≤ W64 ^ (maxLimbs - 1) →
      readDigits r cs i X T = .err .invalidChar := by
  induction cs with
  | nil => exact .inl ⟨[], .nil⟩
  | cons c cs ih =>
    by_cases hd : ∃ d, Digit c d ∧ d < r
    · obtain ⟨d, hd⟩ := hd
      rcases ih with ⟨ds, h⟩ | ih
      · exact .inl ⟨d :: ds, .cons hd h⟩
      · refine .inr fun i X T hX hT hi hl => ?_
        rw [List.length_cons] at hl
        obtain ⟨b1, b2, b3⟩ := digits_step_bound hd.2 hl (by omega)
        obtain ⟨T', X', t1, t2, x1, x2, x3, x4⟩ := digitStep hX hT hr2 (digit_lt hd.1) b1 b2
        rw [readDigits_cons (by omega), getDigit_ok hr2 hd.1 hd.2]
        simp only [Out.bind_ok, t1, x1]
        exact ih (i + 1) x2 t2 (by omega) (by rw [x3]; exact b3)
    · refine .inr fun i X T _ _ hi _ => ?_
      rw [readDigits_cons (by omega), getDigit_bad hr2 (fun d h => hd ⟨d, h⟩)]
      rfl

theorem getDigit_cases {r c : Nat} (hr : r ≤ 16) : (∃ d < r, getDigit r c = .ok d) ∨ getDigit r c = .err .invalidChar := by
  by_cases hd : ∃ d, Digit c d ∧ d < r
  · obtain ⟨d, hd⟩ := hd
    exact .inl ⟨d, hd.2, getDigit_ok hr hd.1 hd.2⟩
  · exact .inr (getDigit_bad hr (fun d h => hd ⟨d, h⟩))

/-- Whatever the text, there is no access outside an array. -/
theorem readDigits_safe {r : Nat} (hr2 : r ≤ 16) (cs : List Nat) : ∀ (i : Nat) {X T : Mpi}, X.WF → T.WF →
    (∃ R, readDigits r cs i X T = .ok R ∧ R.WF) ∨ readDigits r cs i X T = .err .invalidChar ∨ readDigits r cs i X T = .err .alloc := by
  induction cs with
  | nil => intro i X T hX _; exact .inl ⟨X, rfl, hX⟩
  | cons c cs ih =>
    intro i X T hX hT
    by_cases hm : i = 0 ∧ c = 0x2d
    · rw [readDigits, if_pos hm]
      exact ih (i + 1) (X := { X with neg := true }) ⟨hX.ok, hX.len⟩ hT
    · rw [readDigits_cons hm]
      rcases getDigit_cases (c := c) hr2 with ⟨d, hd, e⟩ | e
      · rw [e]
        simp only [Out.bind_ok]
        have hbW : (Arg.ext ⟨false, [r]⟩).WF := ⟨LOk.cons (by omega) LOk.nil, by simp [maxLimbs]⟩
        obtain ⟨m1, m2⟩ := mulMpi_spec hT (A := .ext X) hX hbW
        by_cases hl : limbs ((Arg.ext X).get T).mag + limbs ((Arg.ext ⟨false, [r]⟩).get T).mag ≤ maxLimbs
        · obtain ⟨T', t1, t2, -⟩ := m1 hl
          have t1' : mulInt T (.ext X) r = .ok T' := t1
          rw [t1']
          simp only [Out.bind_ok]
          have hB : (Arg.ext (small (d : Int))).WF := small_WF (by simp; omega)
          have hcase : (∃ R, addDigit X T' d = .ok R ∧ R.WF) ∨ addDigit X T' d = .err .alloc := by
            unfold addDigit
            split
            · obtain ⟨a1, a2⟩ := addMpi_spec hX (A := .ext T') t2 hB
              by_cases h : (((Arg.ext T').get X).toInt + ((Arg.ext (small (d : Int))).get X).toInt).natAbs < W64 ^ maxLimbs
              · obtain ⟨R, r1, r2, -⟩ := a1 h; exact .inl ⟨R, r1, r2⟩
              · exact .inr (a2 (Nat.le_of_not_lt h))
            · obtain ⟨a1, a2⟩ := subMpi_spec hX (A := .ext T') t2 hB
              by_cases h : (((Arg.ext T').get X).toInt - ((Arg.ext (small (d : Int))).get X).toInt).natAbs < W64 ^ maxLimbs
              · obtain ⟨R, r1, r2, -⟩ := a1 h; exact .inl ⟨R, r1, r2⟩
              · exact .inr (a2 (Nat.le_of_not_lt h))
          rcases hcase with ⟨R, r1, r2⟩ | h
          · rw [r1]
            simp only [Out.bind_ok]
            exact ih (i + 1) r2 t2
          · rw [h]; exact .inr (.inr rfl)
        · have : mulInt T (.ext X) r = .err .alloc := m2 (by omega)
          rw [this]; exact .inr (.inr rfl)
      · rw [e]; exact .inr (.inl rfl)

/-! ## Writing digits -/

theorem divMpi_qup {A B Q q : Mpi} (h : divMpi false false (some Q) none A B = .ok (some q, none)) :
    q.p.length ≤ max Q.p.length (max 1 (sig q.p)) ∧ (A.neg = false → B.neg = false → q.neg = false) := by
  unfold divMpi at h
  split at h
  · simp at h
  · split at h
    · obtain ⟨Q', q1, h⟩ := Out.bind_eq_ok.1 h
      obtain ⟨R', -, h⟩ := Out.bind_eq_ok.1 h
      simp only [Out.pure_eq, Out.ok.injEq, Prod.mk.injEq] at h
      rw [h.1] at q1
      simp only [optLset0] at q1
      obtain ⟨S, s1, s2⟩ := Out.bind_eq_ok.1 q1
      simp only [Out.pure_eq, Out.ok.injEq, Option.some.injEq] at s2
      rw [← s2]
      have hl := lset_up s1
      refine ⟨by omega, fun _ _ => ?_⟩
      unfold lset at s1
      obtain ⟨Y, -, s1⟩ := Out.bind_eq_ok.1 s1
      simp only [Out.pure_eq, Out.ok.injEq] at s1
      rw [← s1]; rfl
    · obtain ⟨s, -, h⟩ := Out.bind_eq_ok.1 h
      simp only [Bool.false_eq_true, if_false] at h
      obtain ⟨Q', q1, h⟩ := Out.bind_eq_ok.1 h
      obtain ⟨R', -, h⟩ := Out.bind_eq_ok.1 h
      simp only [Out.pure_eq, Out.ok.injEq, Prod.mk.injEq] at h
      rw [h.1] at q1
      simp only [putQ, optCopy] at q1
      obtain ⟨Q2, q2, q1⟩ := Out.bind_eq_ok.1 q1
      obtain ⟨S, s1, s2⟩ := Out.bind_eq_ok.1 q2
      simp only [Out.pure_eq, Out.ok.injEq] at s2 q1
      rw [← s2] at q1
      simp only [Option.map_some, Option.some.injEq] at q1
      rw [← q1]
      exact ⟨(copy_up s1).1, fun ha hb => by simp [ha, hb]⟩

theorem divIntSelf_spec {X : Mpi} {b : Nat} (hX : X.WF) (hn : X.neg = false) (hb : 0 < b) (hb2 : b ≤ 16) (hl : X.p.length + 2 ≤ maxLimbs) :
    ∃ R, divIntSelf X b = .ok R ∧ R.WF ∧ R.neg = false ∧ R.mag = X.mag / b ∧ R.p.length ≤ max X.p.length 1 := by
  have hB : (small (b : Int)).WF := small_WF (by simp; omega)
  have hb0 : (small (b : Int)).toInt = b := small_toInt _
  have e : divMpi true false (some X) none X (small b) = divMpi false false (some X) none X (small b) := by
    unfold divMpi
    split
    · rfl
    · split
      · cases hq : optLset0 (some X) <;> simp [copyUnless, optCopy]
      · simp only [hn, Bool.false_eq_true, if_false, if_true, putR]
  obtain ⟨Q', R', h1, h2, h3, -⟩ := divMpi_spec (Q := some X) (R := none) (ra := false) hX hB hX trivial (by simp)
    (by rw [hb0]; omega) hl
  cases R' with
  | some _ => exact h3.elim
  | none =>
    cases Q' with
    | none => exact h2.elim
    | some q =>
      obtain ⟨u1, u2⟩ := divMpi_qup h1
      have hq : q.neg = false := u2 hn (small_nat_neg b)
      have hmag : q.mag = X.mag / b := by
        have := h2.2
        rw [hb0, toInt_pos hn, toInt_pos hq] at this
        rw [Int.tdiv_eq_ediv_of_nonneg (by omega)] at this
        exact_mod_cast this
      refine ⟨q, ?_, h2.1, hq, hmag, ?_⟩
      · unfold divIntSelf divInt
        rw [e, h1]; rfl
      · have hs : sig q.p ≤ X.p.length := sig_le_of_lt (lt_of_le_of_lt (by
          show q.mag ≤ X.mag
          rw [hmag]; exact Nat.div_le_self _ _) (val_lt hX.ok))
        omega

theorem upperDigit_eq : ∀ d < 16, upperDigit d = if d < 10 then d + 0x30 else d + 0x37 := by decide

theorem natText_small {r m : Nat} (h : m < r) : natText r m = [upperDigit m] := by
  unfold natText
  by_cases h0 : m = 0
  · rw [if_pos h0, h0]
  · rw [if_neg h0, Nat.digits_of_lt r m h0 h]; rfl

theorem natText_step {r m : Nat} (hr : 2 ≤ r) (h : r ≤ m) : natText r m = natText r (m / r) ++ [upperDigit (m % r)] := by
  unfold natText
  have h1 : m / r ≠ 0 := (Nat.div_pos h (by omega)).ne'
  rw [if_neg (by omega), if_neg h1, Nat.digits_def' hr (by omega), List.reverse_cons, List.map_append]; rfl

theorem putChar_ok {buflen c : Nat} {out : List Nat} (h : out.length < buflen) : putChar buflen out c = .ok (out ++ [c]) := by
  unfold putChar; rw [if_pos h]

theorem writeHlp_eq (radix : Int) (buflen f : Nat) (X : Mpi) (out : List Nat) : writeHlp radix buflen (f + 1) X out =
    if radix < 2 ∨ radix > 16 then .err .badInput
    else (do
      let r ← modInt X radix
      let X ← divIntSelf X radix
      let out ← (if cmpInt X 0 ≠ 0 then writeHlp radix buflen f X out else pure out)
      putChar buflen out (if r < 10 then r + 0x30 else r + 0x37)) := by
  rw [writeHlp]
  split
  · rfl
  · cases modInt X radix with
    | ok r =>
      simp only [Out.bind_ok]
      cases divIntSelf X radix with
      | ok Y => simp only [Out.bind_ok]; split <;> rfl
      | err e => rfl
      | ub => rfl
    | err e => rfl
    | ub => rfl

theorem writeHlp_spec {r : Nat} (hr : 2 ≤ r) (hr2 : r ≤ 16) (buflen : Nat) : ∀ (f : Nat) {X : Mpi} {out : List Nat}, X.WF → X.neg = false →
    (r = 2 → X.p ≠ []) → X.p.length + 2 ≤ maxLimbs → X.mag < f → out.length + (natText r X.mag).length ≤ buflen →
    writeHlp r buflen f X out = .ok (out ++ natText r X.mag) := by
  intro f
  induction f with
  | zero => intro X out _ _ _ _ h; omega
  | succ f ih =>
    intro X out hX hn h2 hl hf hb
    rw [writeHlp_eq, if_neg (by omega), modInt_spec hX (b := (r : Int)) (by omega) (by omega) (fun h => h2 (by omega))]
    obtain ⟨R, r1, r2, r3, r4, r5⟩ := divIntSelf_spec hX hn (b := r) (by omega) hr2 hl
    have hmod : (X.toInt % (r : Int)).toNat = X.mag % r := by rw [toInt_pos hn]; norm_cast
    simp only [Out.bind_ok, r1, hmod]
    have hlt : X.mag % r < 16 := lt_of_lt_of_le (Nat.mod_lt _ (by omega)) hr2
    rw [← upperDigit_eq _ hlt]
    by_cases hm : X.mag < r
    · have h0 : R.mag = 0 := by rw [r4, Nat.div_eq_of_lt hm]
      rw [if_neg (by rw [ne_eq, not_not, cmpInt_zero_iff r2, h0]), natText_small hm, Nat.mod_eq_of_lt hm]
      rw [natText_small hm] at hb
      simp only [Out.pure_eq, Out.bind_ok, List.length_singleton] at hb ⊢
      exact putChar_ok (by omega)
    · have h0 : R.mag ≠ 0 := by rw [r4]; exact (Nat.div_pos (by omega) (by omega)).ne'
      have hm' : r ≤ X.mag := by omega
      have e := natText_step hr hm'
      rw [e, List.length_append, List.length_singleton] at hb
      have hRl : R.p.length + 2 ≤ maxLimbs := by
        have : maxLimbs = 10000 := rfl
        omega
      rw [if_pos (by rw [ne_eq, cmpInt_zero_iff r2]; exact h0), ih r2 r3 (fun _ => nonnil_of_mag h0) hRl (by
        rw [r4]
        exact lt_of_lt_of_le (Nat.div_lt_self (by omega) hr) (by omega)) (by rw [r4]; omega)]
      simp only [Out.bind_ok]
      rw [r4, putChar_ok (by rw [List.length_append]; omega), e, List.append_assoc]

theorem natText_length {r m k : Nat} (hr : 2 ≤ r) (hk : 0 < k) (h : m < r ^ k) : (natText r m).length ≤ k := by
  unfold natText
  split
  · simp only [List.length_singleton]; omega
  · rw [List.length_map, List.length_reverse]
    exact (Nat.digits_length_le_iff hr m).2 h

theorem upperDigit_Digit {d : Nat} (h : d < 16) : Digit (upperDigit d) d := by
  have : ∀ d < 16, Digit (upperDigit d) d := by decide
  exact this d h

theorem digits_map {r : Nat} (hr : r ≤ 16) {ds : List Nat} (h : ∀ d ∈ ds, d < r) : Digits r (ds.map upperDigit) ds := by
  induction ds with
  | nil => exact .nil
  | cons d ds ih =>
    have hd := h d (List.mem_cons_self ..)
    exact .cons ⟨upperDigit_Digit (by omega), hd⟩ (ih fun x hx => h x (List.mem_cons_of_mem _ hx))

theorem natText_digits {r : Nat} (hr : 2 ≤ r) (hr2 : r ≤ 16) (m : Nat) : ∃ ds, Digits r (natText r m) ds ∧ Nat.ofDigits r ds.reverse = m := by
  unfold natText
  split
  · rename_i h
    exact ⟨[0], digits_map hr2 (ds := [0]) (by simp; omega), by simp [h]⟩
  · refine ⟨(Nat.digits r m).reverse, digits_map hr2 (fun d hd => Nat.digits_lt_base hr (List.mem_reverse.1 hd)), ?_⟩
    rw [List.reverse_reverse, Nat.ofDigits_digits]

/-! ## Writing hexadecimal digits -/

/-- The two loops as one loop over bytes, most significant first; `rest` bytes follow. -/
def hexFlat (buflen : Nat) : List Nat → Nat → Bool → List Nat → Out (Bool × List Nat)
  | [], _, k, out => .ok (k, out)
  | c :: bs, rest, k, out =>
    if c = 0 ∧ k = false ∧ bs.length + rest ≠ 0 then hexFlat buflen bs rest k out
    else do
      let h ← limbAt hexTable (c / 16)
      let out ← putChar buflen out h
      let l ← limbAt hexTable (c % 16)
      let out ← putChar buflen out l
      hexFlat buflen bs rest true out

/-- The lower bytes of a limb, most significant first. -/
def limbBytes (x : Nat) : Nat → List Nat
  | 0 => []
  | j + 1 => ((x >>> (j <<< 3)) &&& 0xff) :: limbBytes x j

theorem limbBytes_length (x j : Nat) : (limbBytes x j).length = j := by
  induction j with
  | zero => rfl
  | succ j ih => rw [limbBytes, List.length_cons, ih]

theorem hexBytes_flat (buflen i x : Nat) : ∀ (j : Nat) (k : Bool) (out : List Nat),
    hexBytes buflen (i + 1) x j k out = hexFlat buflen (limbBytes x j) (8 * i) k out := by
  intro j
  induction j with
  | zero => intro k out; rfl
  | succ j ih =>
    intro k out
    rw [hexBytes, limbBytes, hexFlat]
    simp only [limbBytes_length, ih, show (i + 1 + (j + 1) ≠ 2) = (j + 8 * i ≠ 0) by apply propext; omega]

theorem hexFlat_append (buflen : Nat) (a b : List Nat) (rest : Nat) : ∀ (k : Bool) (out : List Nat),
    hexFlat buflen (a ++ b) rest k out = (do
      let s ← hexFlat buflen a (b.length + rest) k out
      hexFlat buflen b rest s.1 s.2) := by
  induction a with
  | nil => intro k out; rfl
  | cons c a ih =>
    intro k out
    rw [List.cons_append, hexFlat, hexFlat]
    simp only [List.length_append, Nat.add_assoc]
    split
    · exact ih k out
    · rcases limbAt hexTable (c / 16) with h | e | _ <;> simp only [Out.bind_ok, Out.bind_err, Out.bind_ub]
      rcases putChar buflen out h with o | e | _ <;> simp only [Out.bind_ok, Out.bind_err, Out.bind_ub]
      rcases limbAt hexTable (c % 16) with l | e | _ <;> simp only [Out.bind_ok, Out.bind_err, Out.bind_ub]
      rcases putChar buflen o l with o2 | e | _ <;> simp only [Out.bind_ok, Out.bind_err, Out.bind_ub]
      exact ih true o2

/-- The bytes of the first `i` limbs, most significant first. -/
def allBytes (p : List Nat) : Nat → List Nat
  | 0 => []
  | i + 1 => limbBytes (p.getD i 0) 8 ++ allBytes p i

theorem allBytes_length (p : List Nat) (i : Nat) : (allBytes p i).length = 8 * i := by
  induction i with
  | zero => rfl
  | succ i ih => rw [allBytes, List.length_append, limbBytes_length, ih]; omega

theorem hexLimbs_flat (buflen : Nat) (p : List Nat) : ∀ (i : Nat) (k : Bool) (out : List Nat), i ≤ p.length →
    hexLimbs buflen p i k out = (do let s ← hexFlat buflen (allBytes p i) 0 k out; pure s.2) := by
  intro i
  induction i with
  | zero => intro k out _; rfl
  | succ i ih =>
    intro k out hi
    have hg : p[i]? = some (p.getD i 0) := by rw [List.getD_eq_getElem?_getD, List.getElem?_eq_getElem (by omega)]; rfl
    rw [hexLimbs, limbAt, hg, allBytes, hexFlat_append, allBytes_length]
    simp only [orUb_some, Out.bind_ok, Nat.add_zero, hexBytes_flat]
    rcases hexFlat buflen (limbBytes (p.getD i 0) 8) (8 * i) k out with s | e | _
    · simp only [Out.bind_ok]; exact ih s.1 s.2 (by omega)
    · rfl
    · rfl

/-- Two digits. -/
def pairText (b : Nat) : List Nat := [upperDigit (b / 16), upperDigit (b % 16)]

theorem hexTable_eq {d : Nat} (h : d < 16) : limbAt hexTable d = .ok (upperDigit d) := by
  have : ∀ d < 16, limbAt hexTable d = .ok (upperDigit d) := by decide
  exact this d h

theorem hexFlat_true {buflen rest : Nat} : ∀ {bs out : List Nat}, (∀ b ∈ bs, b < 256) → out.length + 2 * bs.length ≤ buflen →
    hexFlat buflen bs rest true out = .ok (true, out ++ bs.flatMap pairText) := by
  intro bs
  induction bs with
  | nil => intro out _ _; simp [hexFlat]
  | cons c bs ih =>
    intro out hb hl
    rw [List.length_cons] at hl
    have hc := hb c (List.mem_cons_self ..)
    rw [hexFlat, if_neg (by simp), hexTable_eq (by omega), hexTable_eq (by omega)]
    simp only [Out.bind_ok]
    rw [putChar_ok (by omega)]
    simp only [Out.bind_ok]
    rw [putChar_ok (by simp; omega)]
    simp only [Out.bind_ok]
    rw [ih (fun b h => hb b (List.mem_cons_of_mem _ h)) (by simp; omega)]
    simp [pairText]

/-- Without leading zeros; one byte stays. -/
def strip : List Nat → List Nat
  | [] => []
  | c :: bs => if c = 0 ∧ bs ≠ [] then strip bs else c :: bs

theorem hexFlat_false {buflen : Nat} : ∀ {bs out : List Nat}, (∀ b ∈ bs, b < 256) → out.length + 2 * (strip bs).length ≤ buflen →
    ∃ k, hexFlat buflen bs 0 false out = .ok (k, out ++ (strip bs).flatMap pairText) := by
  intro bs
  induction bs with
  | nil => intro out _ _; exact ⟨false, by simp [hexFlat, strip]⟩
  | cons c bs ih =>
    intro out hb hl
    have hc := hb c (List.mem_cons_self ..)
    rw [strip] at hl ⊢
    by_cases h : c = 0 ∧ bs ≠ []
    · rw [if_pos h] at hl ⊢
      rw [hexFlat, if_pos ⟨h.1, rfl, by simpa using h.2⟩]
      exact ih (fun b h => hb b (List.mem_cons_of_mem _ h)) hl
    · rw [if_neg h, List.length_cons] at hl
      rw [if_neg h]
      rw [hexFlat, if_neg (fun hx => h ⟨hx.1, by simpa using hx.2.2⟩), hexTable_eq (by omega), hexTable_eq (by omega)]
      simp only [Out.bind_ok]
      rw [putChar_ok (by omega)]
      simp only [Out.bind_ok]
      rw [putChar_ok (by simp; omega)]
      simp only [Out.bind_ok]
      rw [hexFlat_true (fun b h => hb b (List.mem_cons_of_mem _ h)) (by simp; omega)]
      exact ⟨true, by simp [pairText]⟩

theorem byteOf (x j : Nat) : (x >>> (j <<< 3)) &&& 0xff = x / 256 ^ j % 256 := by
  rw [Nat.shiftRight_eq_div_pow, show (0xff : Nat) = 2 ^ 8 - 1 by norm_num, Nat.and_two_pow_sub_one_eq_mod, Nat.shiftLeft_eq,
    show j * 2 ^ 3 = 8 * j by omega, pow_mul, show (2 : Nat) ^ 8 = 256 by norm_num]

theorem limbBytes_val (x j : Nat) : Nat.ofDigits 256 (limbBytes x j).reverse = x % 256 ^ j := by
  induction j with
  | zero => simp [limbBytes, Nat.mod_one]
  | succ j ih =>
    rw [limbBytes, List.reverse_cons, Nat.ofDigits_append, ih, List.length_reverse, limbBytes_length, Nat.ofDigits_singleton, byteOf, pow_succ,
      Nat.mod_mul]

theorem limbBytes_lt (x j : Nat) : ∀ b ∈ limbBytes x j, b < 256 := by
  induction j with
  | zero => intro b h; simp [limbBytes] at h
  | succ j ih =>
    intro b h
    rw [limbBytes] at h
    rcases List.mem_cons.1 h with h | h
    · rw [h, byteOf]; exact Nat.mod_lt _ (by decide)
    · exact ih b h

theorem allBytes_lt (p : List Nat) (i : Nat) : ∀ b ∈ allBytes p i, b < 256 := by
  induction i with
  | zero => intro b h; simp [allBytes] at h
  | succ i ih =>
    intro b h
    rw [allBytes] at h
    rcases List.mem_append.1 h with h | h
    · exact limbBytes_lt _ _ b h
    · exact ih b h

theorem allBytes_val {p : List Nat} (hp : LOk p) : ∀ (i : Nat), i ≤ p.length → Nat.ofDigits 256 (allBytes p i).reverse = val (p.take i) := by
  intro i
  induction i with
  | zero => intro _; simp [allBytes, val]
  | succ i ih =>
    intro hi
    rw [allBytes, List.reverse_append, Nat.ofDigits_append, ih (by omega), limbBytes_val, List.length_reverse, allBytes_length,
      val_take_succ (by omega), Nat.mod_eq_of_lt (by have := hp.getD i; rwa [show (256 : Nat) ^ 8 = W64 by norm_num]), pow_mul,
      show (256 : Nat) ^ 8 = W64 by norm_num]

theorem strip_digits {bs : List Nat} (hb : ∀ b ∈ bs, b < 256) (hne : bs ≠ []) :
    strip bs = if Nat.ofDigits 256 bs.reverse = 0 then [0] else (Nat.digits 256 (Nat.ofDigits 256 bs.reverse)).reverse := by
  induction bs with
  | nil => exact absurd rfl hne
  | cons c bs ih =>
    have hb' : ∀ b ∈ bs, b < 256 := fun b h => hb b (List.mem_cons_of_mem _ h)
    rw [strip]
    by_cases h : c = 0 ∧ bs ≠ []
    · rw [if_pos h, ih hb' h.2, h.1, List.reverse_cons, Nat.ofDigits_append_zero]
    · rw [if_neg h]
      by_cases hc : c = 0
      · have : bs = [] := by by_contra h2; exact h ⟨hc, h2⟩
        subst this; subst hc
        simp
      · have hv : Nat.ofDigits 256 (c :: bs).reverse ≠ 0 := by
          rw [List.reverse_cons, Nat.ofDigits_append, Nat.ofDigits_singleton]
          have : 0 < 256 ^ bs.reverse.length * c := Nat.mul_pos (by positivity) (by omega)
          omega
        rw [if_neg hv, Nat.digits_ofDigits 256 (by decide) _ (fun l hl => hb l (List.mem_reverse.1 hl)) (by
          intro h1
          simp only [List.reverse_cons, List.getLast_append_singleton]
          exact hc), List.reverse_reverse]

theorem hexLimbs_spec {X : Mpi} (hX : X.WF) (hne : X.p ≠ []) {buflen : Nat} {out : List Nat} (hl : out.length + (hexText X.mag).length ≤ buflen) :
    hexLimbs buflen X.p X.p.length false out = .ok (out ++ hexText X.mag) := by
  have hv := allBytes_val hX.ok X.p.length le_rfl
  rw [List.take_length] at hv
  have hbne : allBytes X.p X.p.length ≠ [] := by
    intro h
    have h1 := allBytes_length X.p X.p.length
    rw [h] at h1
    have := List.length_pos_iff.2 hne
    rw [List.length_nil] at h1; omega
  have hs := strip_digits (allBytes_lt X.p X.p.length) hbne
  rw [hv] at hs
  have ht : (strip (allBytes X.p X.p.length)).flatMap pairText = hexText X.mag := by rw [hs]; rfl
  have hlen : ∀ l : List Nat, (l.flatMap pairText).length = 2 * l.length := by
    intro l
    induction l with
    | nil => rfl
    | cons x l ih => rw [List.flatMap_cons, List.length_append, ih, List.length_cons]; simp [pairText]; omega
  rw [← ht, hlen] at hl
  obtain ⟨k, hk⟩ := hexFlat_false (allBytes_lt X.p X.p.length) hl
  rw [hexLimbs_flat _ _ _ _ _ le_rfl, hk, ht]; rfl

theorem hexText_length {m k : Nat} (hk : 0 < k) (h : m < 256 ^ k) : (hexText m).length ≤ 2 * k := by
  have hlen : ∀ l : List Nat, (l.flatMap pairText).length = 2 * l.length := by
    intro l
    induction l with
    | nil => rfl
    | cons x l ih => rw [List.flatMap_cons, List.length_append, ih, List.length_cons]; simp [pairText]; omega
  show ((if m = 0 then [0] else (Nat.digits 256 m).reverse).flatMap pairText).length ≤ 2 * k
  rw [hlen]
  split
  · simp; omega
  · rw [List.length_reverse]
    have := (Nat.digits_length_le_iff (b := 256) (by decide) m).2 h
    omega

theorem pairs_digits : ∀ {bs : List Nat}, (∀ b ∈ bs, b < 256) →
    ∃ ds, Digits 16 (bs.flatMap pairText) ds ∧ Nat.ofDigits 16 ds.reverse = Nat.ofDigits 256 bs.reverse ∧ ds.length = 2 * bs.length := by
  intro bs
  induction bs with
  | nil => intro _; exact ⟨[], .nil, rfl, rfl⟩
  | cons b bs ih =>
    intro hb
    have hb0 := hb b (List.mem_cons_self ..)
    obtain ⟨ds, d1, d2, d3⟩ := ih fun x hx => hb x (List.mem_cons_of_mem _ hx)
    refine ⟨[b / 16, b % 16] ++ ds, ?_, ?_, ?_⟩
    · rw [List.flatMap_cons]
      refine Digits.append ?_ d1
      exact .cons ⟨upperDigit_Digit (by omega), by omega⟩ (.cons ⟨upperDigit_Digit (by omega), by omega⟩ .nil)
    · have e : Nat.ofDigits 16 [b / 16, b % 16].reverse = b := by
        show Nat.ofDigits 16 [b % 16, b / 16] = b
        rw [Nat.ofDigits_cons, Nat.ofDigits_singleton]; omega
      rw [List.reverse_append, Nat.ofDigits_append, d2, e, List.reverse_cons (as := bs), Nat.ofDigits_append, List.length_reverse,
        List.length_reverse, d3, pow_mul, show (16 : Nat) ^ 2 = 256 by norm_num, Nat.ofDigits_singleton]
    · rw [List.length_append, d3, List.length_cons]; simp; omega

theorem hexText_digits (m : Nat) : ∃ ds, Digits 16 (hexText m) ds ∧ Nat.ofDigits 16 ds.reverse = m := by
  have hb : ∀ b ∈ (if m = 0 then [0] else (Nat.digits 256 m).reverse), b < 256 := by
    intro b hb
    split at hb
    · simp at hb; omega
    · exact Nat.digits_lt_base (by decide) (List.mem_reverse.1 hb)
  obtain ⟨ds, d1, d2, -⟩ := pairs_digits hb
  refine ⟨ds, d1, ?_⟩
  rw [d2]
  split
  · rename_i h; simp [h]
  · rw [List.reverse_reverse, Nat.ofDigits_digits]

end Verif.Bignum
