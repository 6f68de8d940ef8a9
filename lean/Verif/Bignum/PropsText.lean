import Verif.Bignum.Text
import Verif.Bignum.Props

/-!
# Properties of texts of numbers and of the remaining functions of `bignum.c`: C73, C74
-/

namespace Verif.Bignum

open Verif

/-! ## C73: texts -/

theorem text_of {s t : List Nat} (h : 0 ∉ s) : (s ++ 0 :: t).takeWhile (· != 0) = s ∧ 0 ∈ s ++ 0 :: t := by
  constructor
  · induction s with
    | nil => rfl
    | cons c s ih =>
      have hc : c ≠ 0 := fun e => h (by rw [e]; exact List.mem_cons_self ..)
      rw [List.cons_append, List.takeWhile_cons_of_pos (by simpa using hc), ih (fun h' => h (List.mem_cons_of_mem _ h'))]
  · exact List.mem_append_right _ (List.mem_cons_self ..)

theorem pow_limbs {m : Nat} (h : m ≤ 2 ^ 639936) : m ≤ W64 ^ (maxLimbs - 1) := by
  rw [show maxLimbs - 1 = 9999 from rfl, W64_pow]
  exact h

theorem pow16_len {k : Nat} (h : 16 ^ k ≤ 2 ^ 639936) : k ≤ 159984 := by
  rw [show (16 : Nat) = 2 ^ 4 by norm_num, ← pow_mul] at h
  have := (Nat.pow_le_pow_iff_right (by decide)).1 h
  omega

/-- Getting the object ready for hexadecimal digits. -/
theorem hexReady {X : Mpi} (hX : X.WF) {n : Nat} (hl : n ≤ 160000) : ∃ Y Z, grow X (bitsToLimbs (n <<< 2)) = .ok Y ∧ lset Y 0 = .ok Z ∧ Z.WF ∧
    Z.mag = 0 ∧ Z.neg = false ∧ n ≤ 16 * Z.p.length := by
  have hb : bitsToLimbs (n <<< 2) ≤ maxLimbs ∧ n ≤ 16 * bitsToLimbs (n <<< 2) := by
    rw [Nat.shiftLeft_eq]
    unfold bitsToLimbs
    have : maxLimbs = 10000 := rfl
    split <;> omega
  obtain ⟨Y, y1, y2, -, -, y3, -⟩ := (grow_spec X hX _).1 hb.1
  obtain ⟨Z, z1, z2, -, z4, z5, z6⟩ := lset_spec y2 (z := 0) (by decide)
  refine ⟨Y, Z, y1, z1, z2, by simpa using z6, by simpa using z5, by omega⟩

/-- `mbedtls_mpi_read_string` returns the integer a text stands for, whatever the destination was and whatever follows the text; the sign of the
    object is the sign of the text.  Numbers with as many
    digits as the text have up to 9999 limbs. -/
theorem c73_read {X : Mpi} (hX : X.WF) {r : Nat} (hr : 2 ≤ r) (hr2 : r ≤ 16) {s t : List Nat} {z : Int} (hs : Denotes r s z) (hl : r ^ s.length ≤ 2 ^ 639936) :
    ∃ R, readString X r (s ++ 0 :: t) = .ok R ∧ R.WF ∧ R.toInt = z ∧ (R.neg = true ↔ s.head? = some 0x2d) := by
  obtain ⟨e1, e2⟩ := text_of (t := t) hs.no_zero
  unfold readString
  rw [if_neg (by omega), if_neg (by simpa using e2)]
  simp only [e1]
  obtain ⟨cs, ds, hd, hz⟩ := hs
  have fin : ∀ R : Mpi, R.mag = Nat.ofDigits r ds.reverse → (R.neg = true ↔ s = 0x2d :: cs) → R.toInt = z := by
    intro R hm hn
    rcases hz with ⟨h1, h2⟩ | ⟨h1, h2⟩
    · have : R.neg = false := by
        rw [← Bool.not_eq_true, hn, h1]
        intro h
        have := congrArg List.length h
        simp at this
      rw [toInt_pos this, hm, h2]
    · rw [toInt_neg (hn.2 h1), hm, h2]
  have hhead : s.head? = some 0x2d ↔ s = 0x2d :: cs := by
    rcases hz with ⟨h1, -⟩ | ⟨h1, -⟩
    · constructor
      · intro h
        rw [h1] at h
        exact absurd rfl ((digits_chars hd 0x2d (List.mem_of_mem_head? h)).2)
      · intro h; rw [h]; rfl
    · rw [h1]; simp
  rw [hhead]
  by_cases h16 : r = 16
  · subst h16
    rw [if_pos (by norm_num), if_neg (by
      have := pow16_len hl
      rw [Nat.shiftRight_eq_div_pow]
      omega)]
    obtain ⟨Y, Z, y1, z1, z2, z3, z4, z5⟩ := hexReady hX (n := s.length) (by have := pow16_len hl; omega)
    simp only [y1, z1, Out.bind_ok]
    have key : ∀ tl, (tl = [] ∨ tl = [0x2d]) → s = tl ++ cs → ∃ R, readHex s.reverse 0 Z = .ok R ∧ R.WF ∧ R.mag = Nat.ofDigits 16 ds.reverse ∧
        R.neg = !tl.isEmpty := by
      intro tl htl hs
      have hlen : cs.length ≤ s.length := by rw [hs, List.length_append]; omega
      obtain ⟨R, r1, r2, r3, r4⟩ := readHex_ok hd.reverse htl 0 z2 (by rw [z3]; norm_num) (by rw [List.length_reverse]; omega)
      refine ⟨R, ?_, r2, by rw [r3, z3]; simp, by rw [r4, z4]; simp⟩
      rw [hs, List.reverse_append]
      rcases htl with rfl | rfl
      · exact r1
      · exact r1
    rcases hz with ⟨h1, h2⟩ | ⟨h1, h2⟩
    · obtain ⟨R, r1, r2, r3, r4⟩ := key [] (.inl rfl) h1
      have hn : R.neg = true ↔ s = 0x2d :: cs := by
        rw [r4]
        simp only [List.isEmpty_nil, Bool.not_true, Bool.false_eq_true, false_iff]
        rw [h1]; intro h
        have := congrArg List.length h
        simp at this
      exact ⟨R, r1, r2, fin R r3 hn, hn⟩
    · obtain ⟨R, r1, r2, r3, r4⟩ := key [0x2d] (.inr rfl) h1
      have hn : R.neg = true ↔ s = 0x2d :: cs := by rw [r4]; simp [h1]
      exact ⟨R, r1, r2, fin R r3 hn, hn⟩
  · rw [if_neg (by omega)]
    obtain ⟨Z, z1, z2, -, -, z5, z6⟩ := lset_spec hX (z := 0) (by decide)
    simp only [z1, Out.bind_ok, Int.toNat_natCast]
    have zm : Z.mag = 0 := by simpa using z6
    have zn : Z.neg = false := by simpa using z5
    have hbound : cs.length ≤ s.length → ∀ Z' : Mpi, Z'.mag = 0 → (Z'.mag + 1) * r ^ cs.length ≤ W64 ^ (maxLimbs - 1) := by
      intro hc Z' h0
      rw [h0, Nat.zero_add, Nat.one_mul]
      exact pow_limbs (le_trans (Nat.pow_le_pow_right (by omega) hc) hl)
    rcases hz with ⟨h1, h2⟩ | ⟨h1, h2⟩
    · obtain ⟨R, r1, r2, r3, r4⟩ := readDigits_ok hr hr2 hd 0 z2 Mpi.null_WF (hbound (by rw [h1]) Z zm)
      have hn : R.neg = true ↔ s = 0x2d :: cs := by
        rw [r4, zn]
        simp only [Bool.false_eq_true, false_iff]
        rw [h1]; intro h
        have := congrArg List.length h
        simp at this
      exact ⟨R, by rw [h1]; exact r1, r2, fin R (by rw [r3, zm]; simp) hn, hn⟩
    · have hlc : cs.length ≤ s.length := by rw [h1, List.length_cons]; omega
      obtain ⟨R, r1, r2, r3, r4⟩ := readDigits_ok hr hr2 hd 1 (X := { Z with neg := true }) ⟨z2.ok, z2.len⟩ Mpi.null_WF
        (hbound hlc { Z with neg := true } zm)
      have hn : R.neg = true ↔ s = 0x2d :: cs := by rw [r4]; simp [h1]
      refine ⟨R, ?_, r2, fin R (by rw [r3, mag_neg, zm]; simp) hn, hn⟩
      rw [h1, readDigits, if_pos ⟨rfl, rfl⟩]
      exact r1

/-- A text that stands for no integer is refused. -/
theorem c73_read_invalid {X : Mpi} (hX : X.WF) {r : Nat} (hr : 2 ≤ r) (hr2 : r ≤ 16) {s t : List Nat} (h0 : 0 ∉ s) (hs : ∀ z, ¬Denotes r s z)
    (hl : r ^ s.length ≤ 2 ^ 639936) : readString X r (s ++ 0 :: t) = .err .invalidChar := by
  obtain ⟨e1, e2⟩ := text_of (t := t) h0
  unfold readString
  rw [if_neg (by omega), if_neg (by simpa using e2)]
  simp only [e1]
  by_cases h16 : r = 16
  · subst h16
    rw [if_pos (by norm_num), if_neg (by
      have := pow16_len hl
      rw [Nat.shiftRight_eq_div_pow]
      omega)]
    obtain ⟨Y, Z, y1, z1, z2, z3, z4, z5⟩ := hexReady hX (n := s.length) (by have := pow16_len hl; omega)
    simp only [y1, z1, Out.bind_ok]
    rcases readHex_or s.reverse with ⟨cs, ds, tl, h1, h2, h3⟩ | h
    · exfalso
      have h4 : s = tl.reverse ++ cs.reverse := by rw [← List.reverse_append, ← h1, List.reverse_reverse]
      rcases h3 with rfl | rfl
      · exact hs _ ⟨cs.reverse, ds.reverse, h2.reverse, .inl ⟨by simpa using h4, rfl⟩⟩
      · exact hs _ ⟨cs.reverse, ds.reverse, h2.reverse, .inr ⟨by simpa using h4, rfl⟩⟩
    · exact h 0 z2 (by rw [List.length_reverse]; omega)
  · rw [if_neg (by omega)]
    obtain ⟨Z, z1, z2, -, -, z5, z6⟩ := lset_spec hX (z := 0) (by decide)
    simp only [z1, Out.bind_ok, Int.toNat_natCast]
    have zm : Z.mag = 0 := by simpa using z6
    have hbound : ∀ {cs : List Nat} {Z' : Mpi}, cs.length ≤ s.length → Z'.mag = 0 → (Z'.mag + 1) * r ^ cs.length ≤ W64 ^ (maxLimbs - 1) := by
      intro cs Z' hc h0
      rw [h0, Nat.zero_add, Nat.one_mul]
      exact pow_limbs (le_trans (Nat.pow_le_pow_right (by omega) hc) hl)
    cases s with
    | nil => exact absurd ⟨[], [], .nil, .inl ⟨rfl, rfl⟩⟩ (hs _)
    | cons c s =>
      rw [List.length_cons] at hbound
      by_cases hm : c = 0x2d
      · subst hm
        rw [readDigits, if_pos ⟨rfl, rfl⟩]
        rcases readDigits_or hr hr2 s with ⟨ds, h⟩ | h
        · exact absurd ⟨s, ds, h, .inr ⟨rfl, rfl⟩⟩ (hs _)
        · exact h 1 (X := { Z with neg := true }) ⟨z2.ok, z2.len⟩ Mpi.null_WF (by decide) (hbound (Z' := { Z with neg := true }) (by omega) zm)
      · rw [readDigits_cons (fun h => hm h.2)]
        by_cases hd : ∃ d, Digit c d ∧ d < r
        · obtain ⟨d, hd⟩ := hd
          have hb : (Z.mag + 1) * r ^ (s.length + 1) ≤ W64 ^ (maxLimbs - 1) := hbound (cs := c :: s) (by simp) zm
          obtain ⟨b1, b2, b3⟩ := digits_step_bound hd.2 hb (by omega)
          obtain ⟨T', X', t1, t2, x1, x2, x3, x4⟩ := digitStep z2 Mpi.null_WF hr2 (digit_lt hd.1) b1 b2
          rw [getDigit_ok hr2 hd.1 hd.2]
          simp only [Out.bind_ok, t1, x1]
          rcases readDigits_or hr hr2 s with ⟨ds, h⟩ | h
          · exact absurd ⟨c :: s, d :: ds, .cons hd h, .inl ⟨rfl, rfl⟩⟩ (hs _)
          · exact h 1 x2 t2 (by decide) (by rw [x3]; exact b3)
        · rw [getDigit_bad hr2 (fun d h => hd ⟨d, h⟩)]
          rfl

/-- Whatever the radix and the text, nothing outside an array is read or written. -/
theorem c73_read_safe {X : Mpi} (hX : X.WF) (radix : Int) {mem : List Nat} (h0 : 0 ∈ mem) : readString X radix mem ≠ .ub := by
  unfold readString
  by_cases hr : radix < 2 ∨ radix > 16
  · rw [if_pos hr]; simp
  · rw [if_neg hr, if_neg (not_not.2 h0)]
    simp only
    generalize mem.takeWhile (· != 0) = s
    split
    · split
      · simp
      · by_cases hl : s.length ≤ 160000
        · obtain ⟨Y, Z, y1, z1, z2, z3, z4, z5⟩ := hexReady hX hl
          simp only [y1, z1, Out.bind_ok]
          rcases readHex_or s.reverse with ⟨cs, ds, tl, h1, h2, h3⟩ | h
          · have hlen : cs.length ≤ s.length := by
              have := congrArg List.length h1
              rw [List.length_reverse, List.length_append] at this
              omega
            obtain ⟨R, r1, -⟩ := readHex_ok h2 h3 0 z2 (by rw [z3]; norm_num) (by omega)
            rw [h1, r1]; simp
          · rw [h 0 z2 (by rw [List.length_reverse]; omega)]; simp
        · have : grow X (bitsToLimbs (s.length <<< 2)) = .err .alloc := (grow_spec X hX _).2 (by
            rw [Nat.shiftLeft_eq]
            unfold bitsToLimbs
            have : maxLimbs = 10000 := rfl
            split <;> omega)
          rw [this]; simp
    · obtain ⟨Z, z1, z2, -, -, z5, z6⟩ := lset_spec hX (z := 0) (by decide)
      simp only [z1, Out.bind_ok]
      rcases readDigits_safe (r := radix.toNat) (by omega) s 0 z2 Mpi.null_WF with ⟨R, h, -⟩ | h | h <;> rw [h] <;> simp

/-- Radices outside 2..16 are refused by both functions. -/
theorem c73_radix (X : Mpi) {radix : Int} (h : radix < 2 ∨ 16 < radix) (mem : List Nat) (n : Nat) :
    readString X radix mem = .err .badInput ∧ writeString X radix n = .err .badInput := by
  unfold readString writeString
  rw [if_pos h, if_pos h]
  exact ⟨rfl, rfl⟩

/-- The digits of the text written. -/
def bodyText (r m : Nat) : List Nat := if r = 16 then hexText m else natText r m

theorem announced_spec {X : Mpi} (hX : X.WF) {r : Nat} (hr : 2 ≤ r) (hr2 : r ≤ 16) :
    (signText X).length + (bodyText r X.mag).length + 1 ≤ announced X r := by
  have hs : (signText X).length ≤ 1 := by unfold signText; split <;> simp
  have hb : X.mag < 2 ^ bitlenL X := by rw [bitlenL_spec hX]; exact (bitlen_le_iff _ _).1 le_rfl
  unfold announced bodyText
  simp only [Nat.and_one_is_mod, Nat.shiftRight_eq_div_pow, Nat.pow_one]
  generalize bitlenL X = b at hb
  by_cases h16 : r = 16
  · rw [if_pos h16, if_pos (show (r : Int) ≥ 4 by omega), if_pos (show (r : Int) ≥ 16 by omega)]
    have := hexText_length (m := X.mag) (k := max 1 ((b + 7) / 8)) (by omega) (lt_of_lt_of_le hb (by
      rw [show (256 : Nat) = 2 ^ 8 by norm_num, ← pow_mul]
      exact Nat.pow_le_pow_right (by decide) (by omega)))
    omega
  · rw [if_neg h16]
    by_cases h4 : 4 ≤ r
    · rw [if_pos (show (r : Int) ≥ 4 by omega), if_neg (show ¬(r : Int) ≥ 16 by omega)]
      have := natText_length (r := r) (m := X.mag) (k := b / 2 + 1) hr (by omega) (lt_of_lt_of_le hb (by
        refine le_trans ?_ (Nat.pow_le_pow_left h4 _)
        rw [show (4 : Nat) = 2 ^ 2 by norm_num, ← pow_mul]
        exact Nat.pow_le_pow_right (by decide) (by omega)))
      omega
    · rw [if_neg (show ¬(r : Int) ≥ 4 by omega), if_neg (show ¬(r : Int) ≥ 16 by omega)]
      have := natText_length (r := r) (m := X.mag) (k := max 1 b) hr (by omega) (lt_of_lt_of_le hb (by
        refine le_trans ?_ (Nat.pow_le_pow_left hr _)
        exact Nat.pow_le_pow_right (by decide) (by omega)))
      omega

theorem writeBody_spec {X : Mpi} (hX : X.WF) {r : Nat} (hr : 2 ≤ r) (hr2 : r ≤ 16) (hne : r = 2 ∨ r = 16 → X.p ≠ [])
    (hl : r ≠ 16 → limbs X.mag + 2 ≤ maxLimbs) {buflen : Nat} {out : List Nat} (hb : out.length + (bodyText r X.mag).length ≤ buflen) :
    writeBody X r buflen out = .ok (out ++ bodyText r X.mag) := by
  unfold writeBody
  unfold bodyText at hb ⊢
  by_cases h16 : r = 16
  · rw [if_pos h16] at hb ⊢
    rw [if_pos (by omega)]
    exact hexLimbs_spec hX (hne (.inr h16)) hb
  · rw [if_neg h16] at hb ⊢
    rw [if_neg (by omega)]
    obtain ⟨T, t1, t2, t3, t4, -⟩ := copy_spec Mpi.null_WF hX
    simp only [t1, Out.bind_ok]
    have hup := copy_up t1
    have hlen : T.p.length + 2 ≤ maxLimbs := by
      have := hl h16
      rw [hup.2] at hup
      have h1 := hup.1
      rw [sig_eq_limbs hX.ok] at h1
      have h2 : limbs (val X.p) = limbs X.mag := rfl
      have : maxLimbs = 10000 := rfl
      have h3 : Mpi.null.p.length = 0 := rfl
      omega
    have e : (if T.neg = true then { T with neg := false } else T) = { T with neg := false } := by
      split
      · rfl
      · rename_i h
        rw [Bool.not_eq_true] at h
        rw [← h]
    rw [e]
    have hm : Mpi.mag { T with neg := false } = X.mag := t3
    have := writeHlp_spec hr hr2 buflen (fuel { T with neg := false }) (X := { T with neg := false }) (out := out) ⟨t2.ok, t2.len⟩ rfl
      (fun h2 => by
        have := (copy_len (hne (.inl h2)) t1).2
        intro h
        have h' : T.p = [] := h
        rw [h', List.length_nil] at this
        omega) hlen (by
          show val T.p < W64 ^ T.p.length + 1
          exact Nat.lt_succ_of_lt (val_lt t2.ok)) (by rw [hm]; exact hb)
    rw [this, hm]

/-- `mbedtls_mpi_write_string`.  There is a length, the same for all buffers, such that
    * with a shorter buffer nothing is written and this length is returned,
    * with a buffer of at least this length, the text is written: the sign, the shortest digits in the radix (hexadecimal: in whole bytes) and the
      final zero, and they are not longer than this length (in particular nothing is written behind the buffer). -/
theorem c73_write {X : Mpi} (hX : X.WF) {r : Nat} (hr : 2 ≤ r) (hr2 : r ≤ 16) (hne : r = 2 ∨ r = 16 → X.p ≠ [])
    (hl : r ≠ 16 → limbs X.toInt.natAbs + 2 ≤ maxLimbs) :
    ∃ N, (∀ n < N, writeString X r n = .ok (.small N)) ∧
      (signText X ++ (if r = 16 then hexText X.toInt.natAbs else natText r X.toInt.natAbs) ++ [0]).length ≤ N ∧
      ∀ n ≥ N, writeString X r n = .ok (.text (signText X ++ (if r = 16 then hexText X.toInt.natAbs else natText r X.toInt.natAbs) ++ [0])) := by
  rw [natAbs_toInt] at *
  have hsp := announced_spec hX hr hr2
  refine ⟨announced X r, fun n hn => ?_, ?_, fun n hn => ?_⟩
  · unfold writeString
    rw [if_neg (by omega)]
    simp only
    rw [if_pos hn]
  · rw [List.length_append, List.length_append]
    exact hsp
  · unfold writeString
    rw [if_neg (by omega)]
    simp only
    rw [if_neg (by omega)]
    have h1 : (if X.neg = true then putChar n [] 0x2d else pure []) = (.ok (signText X) : Out (List Nat)) := by
      unfold signText
      split
      · exact putChar_ok (by simp; omega)
      · rfl
    have h2 := writeBody_spec hX hr hr2 hne hl (buflen := n) (out := signText X) (by omega)
    have h3 : putChar n (signText X ++ bodyText r X.mag) 0 = .ok (signText X ++ bodyText r X.mag ++ [0]) :=
      putChar_ok (by rw [List.length_append]; omega)
    have : (do
      let out ← (if X.neg = true then putChar n [] 0x2d else pure [])
      let out ← writeBody X r n out
      let out ← putChar n out 0
      pure (Written.text out) : Out Written) = .ok (.text (signText X ++ bodyText r X.mag ++ [0])) := by
      rw [h1]
      simp only [Out.bind_ok, h2, h3, Out.pure_eq]
    refine Eq.trans ?_ this
    split <;> rfl

theorem bodyText_digits {m r : Nat} (hr : 2 ≤ r) (hr2 : r ≤ 16) : ∃ ds, Digits r (bodyText r m) ds ∧ Nat.ofDigits r ds.reverse = m := by
  unfold bodyText
  split
  · rename_i h; rw [h]; exact hexText_digits m
  · exact natText_digits hr hr2 m

theorem bodyText_denotes {X : Mpi} {r : Nat} (hr : 2 ≤ r) (hr2 : r ≤ 16) : Denotes r (signText X ++ bodyText r X.mag) X.toInt := by
  obtain ⟨ds, d1, d2⟩ := bodyText_digits (m := X.mag) hr hr2
  refine ⟨bodyText r X.mag, ds, d1, ?_⟩
  rw [d2]
  unfold signText
  by_cases h : X.neg = true
  · rw [if_pos h]
    exact .inr ⟨rfl, toInt_neg h⟩
  · rw [if_neg h]
    rw [Bool.not_eq_true] at h
    exact .inl ⟨rfl, toInt_pos h⟩

theorem bodyText_short {m r : Nat} (hr : 2 ≤ r) (hr2 : r ≤ 16) : r ^ (bodyText r m).length ≤ 256 * max 1 m := by
  unfold bodyText
  split
  · rename_i h
    rw [h]
    have e : (hexText m).length = 2 * (if m = 0 then [0] else (Nat.digits 256 m).reverse).length := by
      show ((if m = 0 then [0] else (Nat.digits 256 m).reverse).flatMap pairText).length = _
      rw [List.length_flatMap]
      simp [pairText, Nat.mul_comm]
    rw [e, pow_mul, show (16 : Nat) ^ 2 = 256 by norm_num]
    split
    · simp
    · rename_i h0
      rw [List.length_reverse]
      have := Nat.base_pow_length_digits_le 256 m (by decide) h0
      omega
  · unfold natText
    split
    · simp only [List.length_singleton, pow_one]; omega
    · rename_i h0
      rw [List.length_map, List.length_reverse]
      refine le_trans (Nat.base_pow_length_digits_le r m (by omega) h0) ?_
      exact Nat.mul_le_mul (by omega) (by omega)

theorem text_short {X : Mpi} {r : Nat} (hr : 2 ≤ r) (hr2 : r ≤ 16) (hl : limbs X.mag + 2 ≤ maxLimbs) :
    r ^ (signText X ++ bodyText r X.mag).length ≤ 2 ^ 639936 := by
  have hs : (signText X).length ≤ 1 := by unfold signText; split <;> simp
  have h1 := bodyText_short (m := X.mag) hr hr2
  have h2 : r ^ (signText X).length ≤ 16 := le_trans (Nat.pow_le_pow_right (by omega) hs) (by rw [pow_one]; exact hr2)
  have h3 : X.mag < 2 ^ (64 * 9998) := by
    rw [← W64_pow]
    exact (limbs_le_iff _ _).1 (by have : maxLimbs = 10000 := rfl; omega)
  rw [List.length_append, pow_add]
  refine le_trans (Nat.mul_le_mul h2 h1) ?_
  rw [show 639936 = 12 + (64 * 9998 + 52) from rfl, pow_add, ← Nat.mul_assoc]
  refine Nat.mul_le_mul (by norm_num) ?_
  rw [pow_add]
  have h4 : 0 < 2 ^ (64 * 9998) := Nat.pow_pos (by decide)
  refine le_trans ?_ (Nat.le_mul_of_pos_right _ (Nat.pow_pos (by decide)))
  generalize 2 ^ (64 * 9998) = w at *
  omega

/-- What is written stands for the integer, and reading it returns the same integer with the same sign field, into any object; the caller may take
    the length from a first call with an empty buffer. -/
theorem c73_roundtrip {X Y : Mpi} (hX : X.WF) (hY : Y.WF) {r : Nat} (hr : 2 ≤ r) (hr2 : r ≤ 16) (hne : r = 2 ∨ r = 16 → X.p ≠ [])
    (hl : limbs X.toInt.natAbs + 2 ≤ maxLimbs) :
    ∃ N t R, writeString X r 0 = .ok (.small N) ∧ writeString X r N = .ok (.text t) ∧ readString Y r t = .ok R ∧ R.WF ∧ R.toInt = X.toInt ∧
      R.neg = X.neg := by
  obtain ⟨N, n1, n2, n3⟩ := c73_write hX hr hr2 hne (fun _ => hl)
  have hd := bodyText_denotes (X := X) hr hr2
  have e : (if r = 16 then hexText X.toInt.natAbs else natText r X.toInt.natAbs) = bodyText r X.mag := by rw [natAbs_toInt]; rfl
  rw [e] at n2 n3
  rw [natAbs_toInt] at hl
  obtain ⟨R, r1, r2, r3, r4⟩ := c73_read hY hr hr2 (t := []) hd (text_short hr hr2 hl)
  refine ⟨N, _, R, n1 0 ?_, n3 N le_rfl, r1, r2, r3, ?_⟩
  · rw [List.length_append, List.length_singleton] at n2; omega
  · have hh : (signText X ++ bodyText r X.mag).head? = some 0x2d ↔ X.neg = true := by
      unfold signText
      by_cases h : X.neg = true
      · rw [if_pos h]; simp [h]
      · rw [if_neg h]
        refine ⟨fun h2 => ?_, fun h2 => absurd h2 h⟩
        rw [List.nil_append] at h2
        obtain ⟨ds, d1, -⟩ := bodyText_digits (m := X.mag) hr hr2
        exact absurd rfl ((digits_chars d1 0x2d (List.mem_of_mem_head? h2)).2)
    rw [hh] at r4
    exact Bool.eq_iff_iff.2 r4

/-- Numbers of more than `MBEDTLS_MPI_MAX_LIMBS - 2` limbs are written in radix 16 only; in the other radices there is an allocation error. -/
theorem c73_write_long {X : Mpi} (hX : X.WF) {r : Nat} (hr : 2 ≤ r) (hr2 : r < 16) (hl : maxLimbs < limbs X.toInt.natAbs + 2) :
    ∃ N, ∀ n ≥ N, writeString X r n = .err .alloc := by
  rw [natAbs_toInt] at hl
  have hmax : maxLimbs = 10000 := rfl
  have h0 : X.mag ≠ 0 := by
    intro h
    rw [h] at hl
    simp only [limbs, if_true] at hl
    omega
  have hne := nonnil_of_mag h0
  have hsp := announced_spec hX hr (by omega)
  refine ⟨announced X r, fun n hn => ?_⟩
  have hbody : ∀ out, writeBody X r n out = .err .alloc := by
    intro out
    unfold writeBody
    rw [if_neg (by omega)]
    obtain ⟨T, t1, t2, t3, t4, -⟩ := copy_spec Mpi.null_WF hX
    simp only [t1, Out.bind_ok]
    have hlen := (copy_len hne t1).2
    rw [sig_eq_limbs hX.ok] at hlen
    have hlim : limbs (val X.p) = limbs X.mag := rfl
    have e : (if T.neg = true then { T with neg := false } else T) = { T with neg := false } := by
      split
      · rfl
      · rename_i h
        rw [Bool.not_eq_true] at h
        rw [← h]
    rw [e]
    have hW : Mpi.WF { T with neg := false } := ⟨t2.ok, t2.len⟩
    have hT0 : T.p ≠ [] := by
      intro h
      rw [h, List.length_nil] at hlen
      omega
    rw [fuel, writeHlp_eq, if_neg (by omega), modInt_spec hW (b := (r : Int)) (by omega) (by omega) (fun _ => hT0)]
    simp only [Out.bind_ok]
    have hB : (small (r : Int)).WF := small_WF (by simp; omega)
    have hbig : 16 ≤ X.mag := by
      by_contra hc
      have : limbs X.mag ≤ 1 := (limbs_le_iff _ _).2 (by rw [pow_one]; omega)
      omega
    have : divInt true false (some { T with neg := false }) none { T with neg := false } r = .err .alloc :=
      c63_div_long hW hB (by rw [small_toInt]; omega) (by
        have h2 : Mpi.mag { T with neg := false } = X.mag := t3
        rw [small_toInt, natAbs_toInt, h2, Int.natAbs_natCast]; omega) (by simp only; omega)
    unfold divIntSelf
    rw [this]; rfl
  unfold writeString
  rw [if_neg (by omega)]
  simp only
  rw [if_neg (by omega)]
  split
  · rw [putChar_ok (by simp; omega)]
    simp only [Out.bind_ok, hbody, Out.bind_err]
  · simp only [Out.pure_eq, Out.bind_ok, hbody, Out.bind_err]

/-- In radix 2, an integer without limbs is read through a null pointer. -/
theorem c73_write_null_false : Mpi.WF Mpi.null ∧ writeString Mpi.null 2 100 = .ub := ⟨Mpi.null_WF, by decide +kernel⟩

/-- In radix 16, it is written without digits. -/
theorem c73_write_null_hex : writeString Mpi.null 16 4 = .ok (.text [0]) := by decide +kernel

/-- The codes of the characters of a text. -/
def codes (s : String) : List Nat := s.toList.map Char.toNat

example : ∃ R, readString exB 10 (codes "-1234567890123456789012" ++ [0, 0x39]) = .ok R ∧ R.toInt = -1234567890123456789012 := by
  obtain ⟨R, r1, -, r2, -⟩ := c73_read exB_WF (r := 10) (by decide) (by decide) (s := codes "-1234567890123456789012") (t := [0x39])
    (z := -1234567890123456789012)
    ⟨codes "1234567890123456789012", [1, 2, 3, 4, 5, 6, 7, 8, 9, 0, 1, 2, 3, 4, 5, 6, 7, 8, 9, 0, 1, 2], by
      unfold Digits; decide, .inr ⟨rfl, by decide⟩⟩ (le_trans (show 10 ^ 23 ≤ 2 ^ 80 by norm_num) (Nat.pow_le_pow_right (by decide) (by decide)))
  exact ⟨R, r1, r2⟩

example : ∃ R, readString exB 16 (codes "dEaDbEeF00000000000000000001" ++ [0]) = .ok R ∧ R.toInt = 0xdeadbeef00000000000000000001 := by
  obtain ⟨R, r1, -, r2, -⟩ := c73_read exB_WF (r := 16) (by decide) (by decide) (s := codes "dEaDbEeF00000000000000000001") (t := [])
    (z := 0xdeadbeef00000000000000000001)
    ⟨codes "dEaDbEeF00000000000000000001", [13, 14, 10, 13, 11, 14, 14, 15, 0, 0, 0, 0, 0, 0, 0, 0, 0, 0, 0, 0, 0, 0, 0, 0, 0, 0, 0, 1], by
      unfold Digits; decide, .inl ⟨rfl, by decide⟩⟩ (le_trans (show 16 ^ 28 ≤ 2 ^ 112 by norm_num) (Nat.pow_le_pow_right (by decide) (by decide)))
  exact ⟨R, r1, r2⟩

/-- Nothing but a sign stands for zero, with a negative sign field. -/
example : ∃ R, readString exB 10 [0x2d, 0] = .ok R ∧ R.toInt = 0 ∧ R.neg = true := by
  obtain ⟨R, r1, -, r2, r3⟩ := c73_read exB_WF (r := 10) (by decide) (by decide) (s := [0x2d]) (t := []) (z := 0)
    ⟨[], [], .nil, .inr ⟨rfl, rfl⟩⟩ (le_trans (show 10 ^ 1 ≤ 2 ^ 4 by norm_num) (Nat.pow_le_pow_right (by decide) (by decide)))
  exact ⟨R, r1, r2, r3.2 rfl⟩

theorem not_denotes {r : Nat} {s : List Nat} {c : Nat} (hc : c ∈ s.tail) (h : ∀ d < r, ¬Digit c d) : ∀ z, ¬Denotes r s z := by
  rintro z ⟨cs, ds, h1, h2⟩
  have hm : c ∈ cs := by
    rcases h2 with ⟨rfl, -⟩ | ⟨rfl, -⟩
    · exact List.mem_of_mem_tail hc
    · exact hc
  obtain ⟨d, -, hd⟩ : ∃ d ∈ ds, Digit c d ∧ d < r := by
    clear h2
    induction h1 with
    | nil => simp at hm
    | cons h0 _ ih =>
      rcases List.mem_cons.1 hm with h | h
      · rw [h]; exact ⟨_, List.mem_cons_self .., h0⟩
      · obtain ⟨d, d1, d2⟩ := ih h
        exact ⟨d, List.mem_cons_of_mem _ d1, d2⟩
  exact h d hd.2 hd.1

example : readString exB 10 (codes "12A4" ++ [0]) = .err .invalidChar :=
  c73_read_invalid exB_WF (r := 10) (by decide) (by decide) (s := codes "12A4") (t := []) (by decide)
    (not_denotes (c := 0x41) (by decide) (by decide)) (le_trans (show 10 ^ 4 ≤ 2 ^ 16 by norm_num) (Nat.pow_le_pow_right (by decide) (by decide)))

example : readString exB 16 (codes "1-" ++ [0]) = .err .invalidChar :=
  c73_read_invalid exB_WF (r := 16) (by decide) (by decide) (s := codes "1-") (t := []) (by decide)
    (not_denotes (c := 0x2d) (by decide) (by decide)) (le_trans (show 16 ^ 2 ≤ 2 ^ 8 by norm_num) (Nat.pow_le_pow_right (by decide) (by decide)))

example : readString exA 7 [0x37, 0x38, 0, 0] ≠ .ub := c73_read_safe exA_WF 7 (by decide)

example : readString exA 1 [0] = .err .badInput ∧ writeString exA 17 1000 = .err .badInput :=
  ⟨(c73_radix exA (by decide) [0] 0).1, (c73_radix exA (by decide) [0] 1000).2⟩

theorem exA_limbs : limbs exA.toInt.natAbs + 2 ≤ maxLimbs := by
  have := (c55_limbs exA.toInt.natAbs 2).2 (by decide)
  have : maxLimbs = 10000 := rfl
  omega

example : ∃ N, (∀ n < N, writeString exA 10 n = .ok (.small N)) ∧ writeString exA 10 N = .ok (.text (codes "-18446744073709551621" ++ [0])) := by
  obtain ⟨N, n1, -, n2⟩ := c73_write exA_WF (r := 10) (by decide) (by decide) (by decide) (fun _ => exA_limbs)
  refine ⟨N, n1, ?_⟩
  have := n2 N le_rfl
  rw [show (((10 : Nat) : Int)) = 10 from rfl] at this
  rw [this]
  decide +kernel

example : ∃ N t R, writeString exA 13 0 = .ok (.small N) ∧ writeString exA 13 N = .ok (.text t) ∧ readString exB 13 t = .ok R ∧
    R.toInt = -(2 ^ 64 + 5) := by
  obtain ⟨N, t, R, h1, h2, h3, -, h4, -⟩ := c73_roundtrip exA_WF exB_WF (r := 13) (by decide) (by decide) (by decide) exA_limbs
  exact ⟨N, t, R, h1, h2, h3, by rw [h4]; exact exA_val⟩

/-- A number of 9999 limbs. -/
def exLong : Mpi := ⟨false, List.replicate 9998 0 ++ [1]⟩

theorem exLong_WF : exLong.WF := ⟨(LOk.zeros _).append (LOk.cons (by norm_num) LOk.nil), by
  show (List.replicate 9998 0 ++ [1]).length ≤ maxLimbs
  rw [List.length_append, List.length_replicate]; decide⟩

example : ∃ N, ∀ n ≥ N, writeString exLong 10 n = .err .alloc := by
  refine c73_write_long exLong_WF (r := 10) (by decide) (by decide) ?_
  have e : exLong.mag = W64 ^ 9998 := by
    show val (List.replicate 9998 0 ++ [1]) = _
    rw [val_append, val_zeros, List.length_replicate]; simp [val]
  have : ¬limbs exLong.toInt.natAbs ≤ 9998 := by
    rw [limbs_le_iff, natAbs_toInt, e]; exact lt_irrefl _
  have : maxLimbs = 10000 := rfl
  omega

/-! ## C74: sizes and conditions -/

theorem flag_eq {a : Nat} (h : a < 256) : flag a = if a = 0 then 0 else 1 := by
  have : ∀ a < 256, flag a = if a = 0 then 0 else 1 := by decide +kernel
  exact this a h

theorem pick_zero {x y : Nat} (hx : x < W64) : pick 0 x y = x := by
  unfold pick
  rw [show (1 + (W64 - 0)) % W64 = 1 by norm_num, Nat.mul_one, Nat.mul_zero, Nat.add_zero, Nat.mod_eq_of_lt hx]

theorem pick_one {x y : Nat} (hy : y < W64) : pick 1 x y = y := by
  unfold pick
  rw [show (1 + (W64 - 1)) % W64 = 0 by norm_num, Nat.mul_zero, Nat.mul_one, Nat.zero_add, Nat.mod_eq_of_lt hy]

theorem pickLimbs_zero : ∀ {p q : List Nat}, LOk p → pickLimbs 0 p q = p := by
  intro p
  induction p with
  | nil => intro q _; rfl
  | cons x p ih =>
    intro q hp
    cases q with
    | nil => rw [pickLimbs, ih hp.tail, show (1 + (W64 - 0)) % W64 = 1 by norm_num, Nat.mul_one, Nat.mod_eq_of_lt hp.head]
    | cons y q => rw [pickLimbs, ih hp.tail, pick_zero hp.head]

theorem pickLimbs_one : ∀ {p q : List Nat}, LOk q → q.length ≤ p.length → pickLimbs 1 p q = q ++ List.replicate (p.length - q.length) 0 := by
  intro p
  induction p with
  | nil => intro q _ h; rw [List.length_eq_zero_iff.1 (Nat.le_zero.1 h)]; rfl
  | cons x p ih =>
    intro q hq hl
    cases q with
    | nil =>
      rw [pickLimbs, ih LOk.nil (by simp), show (1 + (W64 - 1)) % W64 = 0 by norm_num, Nat.mul_zero, Nat.zero_mod]
      simp [List.replicate_succ]
    | cons y q =>
      rw [pickLimbs, ih hq.tail (by simpa using hl), pick_one hq.head]
      simp

theorem zip_zero : ∀ {p q : List Nat}, LOk p → p.length = q.length → List.zipWith (pick 0) p q = p := by
  intro p
  induction p with
  | nil => intro q _ _; rfl
  | cons x p ih =>
    intro q hp hl
    cases q with
    | nil => simp at hl
    | cons y q => rw [List.zipWith_cons_cons, ih hp.tail (by simpa using hl), pick_zero hp.head]

theorem zip_one : ∀ {p q : List Nat}, LOk q → p.length = q.length → List.zipWith (pick 1) p q = q := by
  intro p
  induction p with
  | nil => intro q _ h; rw [List.length_eq_zero_iff.1 h.symm]; rfl
  | cons x p ih =>
    intro q hq hl
    cases q with
    | nil => simp at hl
    | cons y q => rw [List.zipWith_cons_cons, ih hq.tail (by simpa using hl), pick_one hq.head]

theorem ofSign_s (X : Mpi) : ofSign X.s = .ok X.neg := by unfold ofSign Mpi.s; cases X.neg <;> rfl

theorem pickSign_zero (s t : Int) : pickSign 0 s t = s := by simp [pickSign]
theorem pickSign_one (s t : Int) : pickSign 1 s t = t := by simp [pickSign]

/-- `mbedtls_mpi_safe_cond_assign`: the destination keeps its value and sign if the condition is zero and gets those of the source for every other
    value of the condition; its size is the larger size of the two in both cases. -/
theorem c74_assign {X Y : Mpi} (hX : X.WF) (hY : Y.WF) {a : Nat} (ha : a < 256) :
    ∃ R, condAssign X Y a = .ok R ∧ R.WF ∧ R.toInt = (if a = 0 then X else Y).toInt ∧ R.neg = (if a = 0 then X else Y).neg ∧
      R.p.length = max X.p.length Y.p.length := by
  unfold condAssign
  obtain ⟨G, g1, g2, g3, g4, g5, -⟩ := (grow_spec X hX Y.p.length).1 hY.len
  simp only [g1, Out.bind_ok]
  rw [flag_eq ha]
  by_cases h : a = 0
  · simp only [if_pos h, pickSign_zero, ofSign_s, Out.bind_ok, Out.pure_eq, pickLimbs_zero g2.ok]
    refine ⟨_, rfl, ⟨g2.ok, g2.len⟩, ?_, g4, by simp only [g5]; omega⟩
    unfold Mpi.toInt
    rw [g4]
    exact congrArg (fun m : Nat => if X.neg = true then -(m : Int) else (m : Int)) g3
  · simp only [if_neg h, pickSign_one, ofSign_s, Out.bind_ok, Out.pure_eq, pickLimbs_one hY.ok (show Y.p.length ≤ G.p.length by omega)]
    refine ⟨_, rfl, ⟨hY.ok.append (LOk.zeros _), ?_⟩, ?_, rfl, ?_⟩
    · have := g2.len
      simp only [List.length_append, List.length_replicate]; omega
    · simp only [Mpi.toInt, Mpi.mag, val_append, val_zeros, Nat.mul_zero, Nat.add_zero]
    · simp only [List.length_append, List.length_replicate]; omega

/-- `mbedtls_mpi_safe_cond_swap` of two objects: they are exchanged unless the condition is zero; both have the larger size in both cases. -/
theorem c74_swap {X Y : Mpi} (hX : X.WF) (hY : Y.WF) {a : Nat} (ha : a < 256) :
    ∃ R S, condSwap X Y a = .ok (R, S) ∧ R.WF ∧ S.WF ∧ R.toInt = (if a = 0 then X else Y).toInt ∧ S.toInt = (if a = 0 then Y else X).toInt ∧
      R.neg = (if a = 0 then X else Y).neg ∧ S.neg = (if a = 0 then Y else X).neg ∧
      R.p.length = max X.p.length Y.p.length ∧ S.p.length = max X.p.length Y.p.length := by
  unfold condSwap
  obtain ⟨G, g1, g2, g3, g4, g5, -⟩ := (grow_spec X hX Y.p.length).1 hY.len
  obtain ⟨H, h1, h2, h3, h4, h5, -⟩ := (grow_spec Y hY G.p.length).1 g2.len
  simp only [g1, h1, Out.bind_ok]
  have hlen : G.p.length = H.p.length := by omega
  have tG : G.toInt = X.toInt := by unfold Mpi.toInt; rw [g4, g3]
  have tH : H.toInt = Y.toInt := by unfold Mpi.toInt; rw [h4, h3]
  rw [flag_eq ha]
  by_cases h : a = 0
  · simp only [if_pos h, pickSign_zero, ofSign_s, Out.bind_ok, Out.pure_eq, zip_zero g2.ok hlen, zip_zero h2.ok hlen.symm]
    exact ⟨G, H, rfl, g2, h2, tG, tH, g4, h4, by omega, by omega⟩
  · simp only [if_neg h, pickSign_one, ofSign_s, Out.bind_ok, Out.pure_eq, zip_one h2.ok hlen, zip_one g2.ok hlen.symm]
    exact ⟨H, G, rfl, h2, g2, tH, tG, h4, g4, by omega, by omega⟩

/-- `mbedtls_mpi_swap` exchanges the objects. -/
theorem c74_swap_always (X Y : Mpi) : swapMpi X Y = (Y, X) := rfl

/-- `mbedtls_mpi_shrink` keeps the integer and leaves the least size that is not below the number asked for and holds the integer (one limb for
    zero); an object that is not larger than the number asked for grows to it, or is refused. -/
theorem c74_shrink {X : Mpi} (hX : X.WF) (nb : Nat) :
    (nb < X.p.length → ∃ R, shrink X nb = .ok R ∧ R.WF ∧ R.toInt = X.toInt ∧ R.neg = X.neg ∧
      R.p.length = max nb (max 1 (limbs X.toInt.natAbs))) ∧
    (X.p.length ≤ nb → nb ≤ maxLimbs → ∃ R, shrink X nb = .ok R ∧ R.WF ∧ R.toInt = X.toInt ∧ R.neg = X.neg ∧ R.p.length = nb) ∧
    (X.p.length ≤ nb → maxLimbs < nb → shrink X nb = .err .alloc) := by
  unfold shrink
  refine ⟨fun h => ?_, fun h h2 => ?_, fun h h2 => ?_⟩
  · rw [if_neg (by omega)]
    have hs := sig_eq_limbs hX.ok
    have hle := sig_le X.p
    rw [natAbs_toInt, show X.mag = val X.p from rfl, ← hs]
    refine ⟨_, rfl, ⟨hX.ok.take _, ?_⟩, ?_, rfl, ?_⟩
    · have := hX.len
      simp only [List.length_take]; omega
    · simp only [Mpi.toInt, Mpi.mag]
      rw [val_take_ge_sig X.p (by omega)]
    · simp only [List.length_take]; omega
  · rw [if_pos h]
    obtain ⟨R, r1, r2, r3, r4, r5, -⟩ := (grow_spec X hX nb).1 h2
    exact ⟨R, r1, r2, by unfold Mpi.toInt; rw [r4, r3], r4, by omega⟩
  · rw [if_pos h]
    exact (grow_spec X hX nb).2 h2

/-- `mbedtls_mpi_div_int`: quotient rounded towards zero and remainder with the sign of the dividend; division by zero is refused.
    (The least 64-bit integer excepted, where `-b` overflows; the quotient in place as in C63.) -/
theorem c74_div_int {A : Mpi} {Q R : Option Mpi} {ra : Bool} (hA : A.WF) (hQ : OptWF Q) (hR : OptWF R) (hra : ra = true → R = some A)
    {b : Int} (hb : b.natAbs < 2 ^ 63) (hl : A.p.length + 2 ≤ maxLimbs) :
    (b ≠ 0 → ∃ Q' R', divInt false ra Q R A b = .ok (Q', R') ∧ Got Q Q' (A.toInt.tdiv b) ∧ Got R R' (A.toInt.tmod b)) ∧
    (b = 0 → divInt false ra Q R A b = .err .divZero) := by
  have hB : (small b).WF := small_WF (by omega)
  refine ⟨fun h => ?_, fun h => ?_⟩
  · have := c63_div hA hB hQ hR hra (by rw [small_toInt]; exact h) hl
    rw [small_toInt] at this
    exact this
  · exact c63_div_zero hB (by rw [small_toInt]; exact h) _ _ _ _

example : ∃ R, condAssign exA exB 64 = .ok R ∧ R.toInt = 2 ^ 128 - 1 ∧ R.p.length = 4 := by
  obtain ⟨R, r1, -, r2, -, r3⟩ := c74_assign exA_WF exB_WF (a := 64) (by decide)
  exact ⟨R, r1, r2.trans exB_val, r3⟩

example : ∃ R S, condSwap exA exB 1 = .ok (R, S) ∧ R.toInt = 2 ^ 128 - 1 ∧ S.toInt = -(2 ^ 64 + 5) := by
  obtain ⟨R, S, r1, -, -, r2, r3, -⟩ := c74_swap exA_WF exB_WF (a := 1) (by decide)
  exact ⟨R, S, r1, r2.trans exB_val, r3.trans exA_val⟩

example : ∃ R, shrink exA 1 = .ok R ∧ R.toInt = -(2 ^ 64 + 5) ∧ R.p.length ≤ 2 := by
  obtain ⟨R, r1, -, r2, -, r3⟩ := (c74_shrink exA_WF 1).1 (by decide)
  refine ⟨R, r1, r2.trans exA_val, ?_⟩
  have := (c55_limbs exA.toInt.natAbs 2).2 (by decide)
  omega

example : ∃ Q R, divInt false false (some Mpi.null) (some Mpi.null) exA (-10) = .ok (some Q, some R) ∧ Q.toInt = 1844674407370955162 ∧ R.toInt = -1 := by
  obtain ⟨Q', R', h1, h2, h3⟩ := (c74_div_int (Q := some Mpi.null) (R := some Mpi.null) (ra := false) exA_WF Mpi.null_WF Mpi.null_WF (by decide)
    (b := -10) (by decide) (by decide)).1 (by decide)
  cases Q' with
  | none => exact h2.elim
  | some Q =>
    cases R' with
    | none => exact h3.elim
    | some R => exact ⟨Q, R, h1, by rw [h2.2]; decide, by rw [h3.2]; decide⟩

end Verif.Bignum
