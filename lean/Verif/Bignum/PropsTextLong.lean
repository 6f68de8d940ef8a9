import Verif.Bignum.PropsText

/-!
# C73: texts of any length
-/

namespace Verif.Bignum

open Verif

theorem step_fits {m r d M : Nat} (hr : 2 ≤ r) (hr2 : r ≤ 16) (hd : d < r) (hM : m < M) : m * r + d < r * M ∧ m * r + d < M * W64 := by
  have h1 : m * r + r ≤ M * r := by
    have := Nat.mul_le_mul_right r (show m + 1 ≤ M by omega)
    rw [Nat.add_mul, Nat.one_mul] at this
    exact this
  have h2 : M * r ≤ M * W64 := Nat.mul_le_mul_left _ (by omega)
  rw [Nat.mul_comm r M]
  omega

theorem limbs_fits {m : Nat} : limbs m + 1 ≤ maxLimbs ↔ m < W64 ^ (maxLimbs - 1) := by
  rw [← limbs_le_iff]
  have : maxLimbs = 10000 := rfl
  omega

/-- Reading digits: exactly when it fails. -/
theorem readDigits_exact {r : Nat} (hr : 2 ≤ r) (hr2 : r ≤ 16) {cs ds : List Nat} (h : Digits r cs ds) : ∀ (i : Nat) {X T : Mpi}, X.WF → T.WF →
    (X.mag * r ^ ds.length + Nat.ofDigits r ds.reverse < r * W64 ^ (maxLimbs - 1) →
      ∃ R, readDigits r cs i X T = .ok R ∧ R.WF ∧ R.mag = X.mag * r ^ ds.length + Nat.ofDigits r ds.reverse ∧ R.neg = X.neg) ∧
    (ds ≠ [] → r * W64 ^ (maxLimbs - 1) ≤ X.mag * r ^ ds.length + Nat.ofDigits r ds.reverse → readDigits r cs i X T = .err .alloc) := by
  induction h with
  | nil => intro i X T hX _; exact ⟨fun _ => ⟨X, rfl, hX, by simp, rfl⟩, fun h => absurd rfl h⟩
  | @cons c d rs ds h0 _ ih =>
    intro i X T hX hT
    have hv : X.mag * r ^ (d :: ds).length + Nat.ofDigits r (d :: ds).reverse = (X.mag * r + d) * r ^ ds.length + Nat.ofDigits r ds.reverse := by
      rw [List.reverse_cons, Nat.ofDigits_append, List.length_reverse, List.length_cons, Nat.ofDigits_singleton, pow_succ]
      ring
    rw [hv, readDigits_cons (fun hc => (digit_char h0.1).2.2 hc.2), getDigit_ok hr2 h0.1 h0.2]
    simp only [Out.bind_ok]
    by_cases hm : X.mag < W64 ^ (maxLimbs - 1)
    · obtain ⟨f1, f2⟩ := step_fits hr hr2 h0.2 hm
      obtain ⟨T', X', t1, t2, x1, x2, x3, x4⟩ := digitStep hX hT hr2 (digit_lt h0.1) (limbs_fits.2 hm)
        (by rw [← pow_succ] at f2; exact f2)
      simp only [t1, x1, Out.bind_ok]
      obtain ⟨a, b⟩ := ih (i + 1) x2 t2
      rw [x3, x4] at a
      rw [x3] at b
      refine ⟨a, fun _ hle => b (fun e => ?_) hle⟩
      rw [e] at hle
      simp only [List.length_nil, pow_zero, Nat.mul_one, List.reverse_nil, Nat.ofDigits_nil, Nat.add_zero] at hle
      exact absurd f1 (Nat.not_lt.2 hle)
    · have hbW : (Arg.ext ⟨false, [r]⟩).WF := ⟨LOk.cons (by omega) LOk.nil, by simp [maxLimbs]⟩
      have hl1 : ¬limbs (Mpi.mag ⟨false, [r]⟩) ≤ 0 := by
        rw [limbs_le_iff, pow_zero]
        simp only [Mpi.mag, val]
        omega
      have hl2 : ¬limbs X.mag + 1 ≤ maxLimbs := fun h => hm (limbs_fits.1 h)
      have : mulInt T (.ext X) r = .err .alloc := (mulMpi_spec hT (A := .ext X) hX hbW).2 (by
        show maxLimbs < limbs X.mag + limbs (Mpi.mag ⟨false, [r]⟩)
        omega)
      rw [this]
      refine ⟨fun hlt => absurd hlt (Nat.not_lt.2 ?_), fun _ _ => rfl⟩
      calc r * W64 ^ (maxLimbs - 1) ≤ r * X.mag := Nat.mul_le_mul_left _ (Nat.not_lt.1 hm)
        _ = X.mag * r := Nat.mul_comm _ _
        _ ≤ X.mag * r + d := Nat.le_add_right _ _
        _ ≤ (X.mag * r + d) * r ^ ds.length := Nat.le_mul_of_pos_right _ (Nat.pow_pos (by omega))
        _ ≤ _ := Nat.le_add_right _ _

/-- Only digits are accepted. -/
theorem readDigits_digits {r : Nat} (hr2 : r ≤ 16) (cs : List Nat) : ∀ {i : Nat} {X T R : Mpi}, 0 < i → readDigits r cs i X T = .ok R → ∃ ds, Digits r cs ds := by
  induction cs with
  | nil => intro i X T R _ _; exact ⟨[], .nil⟩
  | cons c cs ih =>
    intro i X T R hi h
    rw [readDigits_cons (by omega)] at h
    by_cases hd : ∃ d, Digit c d ∧ d < r
    · obtain ⟨d, hd⟩ := hd
      rw [getDigit_ok hr2 hd.1 hd.2] at h
      simp only [Out.bind_ok] at h
      obtain ⟨T', -, h⟩ := Out.bind_eq_ok.1 h
      obtain ⟨X', -, h⟩ := Out.bind_eq_ok.1 h
      obtain ⟨ds, h'⟩ := ih (by omega) h
      exact ⟨d :: ds, .cons hd h'⟩
    · rw [getDigit_bad hr2 (fun d h => hd ⟨d, h⟩)] at h
      cases h

theorem pow_eq : W64 ^ (maxLimbs - 1) = 2 ^ 639936 := by rw [show maxLimbs - 1 = 9999 from rfl, W64_pow]

/-- Radices below 16, texts of any length: the integer is returned exactly if it is less than the radix times `2 ^ 639936`; otherwise there is not enough room,
    and an error is returned. -/
theorem c73_read_all {X : Mpi} (hX : X.WF) {r : Nat} (hr : 2 ≤ r) (hr2 : r < 16) {s t : List Nat} {z : Int} (hs : Denotes r s z) :
    (z.natAbs < r * 2 ^ 639936 → ∃ R, readString X r (s ++ 0 :: t) = .ok R ∧ R.WF ∧ R.toInt = z ∧ (R.neg = true ↔ s.head? = some 0x2d)) ∧
    (r * 2 ^ 639936 ≤ z.natAbs → readString X r (s ++ 0 :: t) = .err .alloc) := by
  rw [← pow_eq]
  obtain ⟨e1, e2⟩ := text_of (t := t) hs.no_zero
  unfold readString
  rw [if_neg (by omega), if_neg (by simpa using e2)]
  simp only [e1]
  rw [if_neg (by omega)]
  obtain ⟨Z, z1, z2, -, -, z5, z6⟩ := lset_spec hX (z := 0) (by decide)
  simp only [z1, Out.bind_ok, Int.toNat_natCast]
  have zm : Z.mag = 0 := by simpa using z6
  have zn : Z.neg = false := by simpa using z5
  obtain ⟨cs, ds, hd, hz⟩ := hs
  have hpos : 0 < r * W64 ^ (maxLimbs - 1) := Nat.mul_pos (by omega) (Nat.pow_pos (by norm_num))
  have hne : ∀ v, v = Nat.ofDigits r ds.reverse → r * W64 ^ (maxLimbs - 1) ≤ v → ds ≠ [] := by
    intro v e hle h
    rw [h, List.reverse_nil, Nat.ofDigits_nil] at e
    rw [e] at hle
    exact absurd hpos (Nat.not_lt.2 hle)
  rcases hz with ⟨h1, h2⟩ | ⟨h1, h2⟩
  · have ha : z.natAbs = Nat.ofDigits r ds.reverse := by rw [h2, Int.natAbs_natCast]
    obtain ⟨a, b⟩ := readDigits_exact hr (by omega) hd 0 z2 Mpi.null_WF
    rw [zm, Nat.zero_mul, Nat.zero_add, ← ha] at a b
    refine ⟨fun hlt => ?_, fun hle => ?_⟩
    · obtain ⟨R, r1, r2, r3, r4⟩ := a hlt
      refine ⟨R, by rw [h1]; exact r1, r2, ?_, ?_⟩
      · rw [toInt_pos (by rw [r4, zn]), r3, ha, h2]
      · rw [r4, zn, h1]
        refine ⟨fun h => absurd h (by decide), fun h => ?_⟩
        exact absurd rfl ((digits_chars hd 0x2d (List.mem_of_mem_head? h)).2)
    · rw [h1]
      exact b (hne _ ha hle) hle
  · have ha : z.natAbs = Nat.ofDigits r ds.reverse := by rw [h2, Int.natAbs_neg, Int.natAbs_natCast]
    obtain ⟨a, b⟩ := readDigits_exact hr (by omega) hd 1 (X := { Z with neg := true }) ⟨z2.ok, z2.len⟩ Mpi.null_WF
    rw [mag_neg, zm, Nat.zero_mul, Nat.zero_add, ← ha] at a b
    refine ⟨fun hlt => ?_, fun hle => ?_⟩
    · obtain ⟨R, r1, r2, r3, r4⟩ := a hlt
      refine ⟨R, ?_, r2, ?_, ?_⟩
      · rw [h1, readDigits, if_pos ⟨rfl, rfl⟩]
        exact r1
      · rw [toInt_neg r4, r3, ha, h2]
      · rw [r4, h1]
        simp
    · rw [h1, readDigits, if_pos ⟨rfl, rfl⟩]
      exact b (hne _ ha hle) hle

/-- Hexadecimal texts: the integer is returned exactly if the text, with sign, has at most 160000 characters. -/
theorem c73_read_hex {X : Mpi} (hX : X.WF) {s t : List Nat} {z : Int} (hs : Denotes 16 s z) :
    (s.length ≤ 160000 → ∃ R, readString X 16 (s ++ 0 :: t) = .ok R ∧ R.WF ∧ R.toInt = z ∧ (R.neg = true ↔ s.head? = some 0x2d)) ∧
    (160000 < s.length → readString X 16 (s ++ 0 :: t) = .err .alloc ∨ readString X 16 (s ++ 0 :: t) = .err .badInput) := by
  obtain ⟨e1, e2⟩ := text_of (t := t) hs.no_zero
  unfold readString
  rw [if_neg (by omega), if_neg (by simpa using e2)]
  simp only [e1, if_true]
  refine ⟨fun hl => ?_, fun hl => ?_⟩
  · rw [if_neg (by rw [Nat.shiftRight_eq_div_pow]; omega)]
    obtain ⟨Y, Z, y1, z1, z2, z3, z4, z5⟩ := hexReady hX (n := s.length) hl
    simp only [y1, z1, Out.bind_ok]
    obtain ⟨cs, ds, hd, hz⟩ := hs
    have key : ∀ tl, (tl = [] ∨ tl = [0x2d]) → s = tl ++ cs → ∃ R, readHex s.reverse 0 Z = .ok R ∧ R.WF ∧ R.mag = Nat.ofDigits 16 ds.reverse ∧
        R.neg = !tl.isEmpty := by
      intro tl htl hs
      have hlen : cs.length ≤ s.length := by rw [hs, List.length_append]; omega
      obtain ⟨R, r1, r2, r3, r4⟩ := readHex_ok hd.reverse htl 0 z2 (by rw [z3]; norm_num) (by rw [List.length_reverse]; omega)
      refine ⟨R, ?_, r2, by rw [r3, z3]; simp, by rw [r4, z4]; simp⟩
      rw [hs, List.reverse_append]
      rcases htl with rfl | rfl
      · exact r1
      · exact r1
    rcases hz with ⟨h1, h2⟩ | ⟨h1, h2⟩
    · obtain ⟨R, r1, r2, r3, r4⟩ := key [] (.inl rfl) h1
      have hn : R.neg = false := by rw [r4]; rfl
      refine ⟨R, r1, r2, by rw [toInt_pos hn, r3, h2], ?_⟩
      rw [hn, h1]
      refine ⟨fun h => absurd h (by decide), fun h => ?_⟩
      exact absurd rfl ((digits_chars hd 0x2d (List.mem_of_mem_head? h)).2)
    · obtain ⟨R, r1, r2, r3, r4⟩ := key [0x2d] (.inr rfl) h1
      have hn : R.neg = true := by rw [r4]; rfl
      refine ⟨R, r1, r2, by rw [toInt_neg hn, r3, h2], ?_⟩
      rw [hn, h1]
      simp
  · by_cases hb : s.length > (W64 - 1) >>> 2
    · rw [if_pos hb]; exact .inr rfl
    · rw [if_neg hb]
      have : grow X (bitsToLimbs (s.length <<< 2)) = .err .alloc := (grow_spec X hX _).2 (by
        rw [Nat.shiftLeft_eq]
        unfold bitsToLimbs
        have : maxLimbs = 10000 := rfl
        split <;> omega)
      rw [this]; exact .inl rfl

/-- Whatever is read is what the text stands for: no text that stands for no integer is accepted, however long it is. -/
theorem c73_read_sound {X R : Mpi} (hX : X.WF) {r : Nat} (hr : 2 ≤ r) (hr2 : r ≤ 16) {s t : List Nat} (h0 : 0 ∉ s)
    (h : readString X r (s ++ 0 :: t) = .ok R) : Denotes r s R.toInt := by
  have hden : ∃ z, Denotes r s z := by
    obtain ⟨e1, e2⟩ := text_of (t := t) h0
    unfold readString at h
    rw [if_neg (by omega), if_neg (by simpa using e2)] at h
    simp only [e1] at h
    by_cases h16 : r = 16
    · subst h16
      rw [if_pos (by norm_num)] at h
      by_cases hb : s.length > (W64 - 1) >>> 2
      · rw [if_pos hb] at h; cases h
      · rw [if_neg hb] at h
        by_cases hl : s.length ≤ 160000
        · obtain ⟨Y, Z, y1, z1, z2, z3, z4, z5⟩ := hexReady hX hl
          simp only [y1, z1, Out.bind_ok] at h
          rcases readHex_or s.reverse with ⟨cs, ds, tl, h1, h2, h3⟩ | h'
          · have h4 : s = tl.reverse ++ cs.reverse := by rw [← List.reverse_append, ← h1, List.reverse_reverse]
            rcases h3 with rfl | rfl
            · exact ⟨_, cs.reverse, ds.reverse, h2.reverse, .inl ⟨by simpa using h4, rfl⟩⟩
            · exact ⟨_, cs.reverse, ds.reverse, h2.reverse, .inr ⟨by simpa using h4, rfl⟩⟩
          · rw [h' 0 z2 (by rw [List.length_reverse]; omega)] at h
            cases h
        · have : grow X (bitsToLimbs (s.length <<< 2)) = .err .alloc := (grow_spec X hX _).2 (by
            rw [Nat.shiftLeft_eq]
            unfold bitsToLimbs
            have : maxLimbs = 10000 := rfl
            split <;> omega)
          rw [this] at h; cases h
    · rw [if_neg (by omega)] at h
      obtain ⟨Z, z1, z2, -, -, z5, z6⟩ := lset_spec hX (z := 0) (by decide)
      simp only [z1, Out.bind_ok, Int.toNat_natCast] at h
      cases s with
      | nil => exact ⟨_, [], [], .nil, .inl ⟨rfl, rfl⟩⟩
      | cons c s =>
        by_cases hm : c = 0x2d
        · subst hm
          rw [readDigits, if_pos ⟨rfl, rfl⟩] at h
          obtain ⟨ds, hd⟩ := readDigits_digits hr2 s (by decide) h
          exact ⟨_, s, ds, hd, .inr ⟨rfl, rfl⟩⟩
        · rw [readDigits_cons (fun h => hm h.2)] at h
          by_cases hd : ∃ d, Digit c d ∧ d < r
          · obtain ⟨d, hd⟩ := hd
            rw [getDigit_ok hr2 hd.1 hd.2] at h
            simp only [Out.bind_ok] at h
            obtain ⟨T', -, h⟩ := Out.bind_eq_ok.1 h
            obtain ⟨X', -, h⟩ := Out.bind_eq_ok.1 h
            obtain ⟨ds, h'⟩ := readDigits_digits hr2 s (by decide) h
            exact ⟨_, c :: s, d :: ds, .cons hd h', .inl ⟨rfl, rfl⟩⟩
          · rw [getDigit_bad hr2 (fun d h => hd ⟨d, h⟩)] at h
            cases h
  obtain ⟨z, hz⟩ := hden
  suffices hR : R.toInt = z by rw [hR]; exact hz
  by_cases h16 : r = 16
  · subst h16
    obtain ⟨a, b⟩ := c73_read_hex hX (t := t) hz
    by_cases hl : s.length ≤ 160000
    · obtain ⟨R', r1, -, r3, -⟩ := a hl
      have h' : readString X 16 (s ++ 0 :: t) = .ok R := h
      rw [r1] at h'
      cases h'
      exact r3
    · have h' : readString X 16 (s ++ 0 :: t) = .ok R := h
      rcases b (by omega) with e | e <;> rw [e] at h' <;> cases h'
  · obtain ⟨a, b⟩ := c73_read_all hX hr (by omega) (t := t) hz
    rcases Nat.lt_or_ge z.natAbs (r * 2 ^ 639936) with hl | hl
    · obtain ⟨R', r1, -, r3, -⟩ := a hl
      rw [r1] at h
      cases h
      exact r3
    · rw [b hl] at h
      cases h

/-! ## Examples -/

/-- A decimal text of 300001 characters that stands for 7: far longer than the numbers with 9999 limbs, but read without an error. -/
example {X : Mpi} (hX : X.WF) : ∃ R, readString X (10 : Nat) ((List.replicate 300000 0x30 ++ [0x37]) ++ 0 :: []) = .ok R ∧ R.toInt = 7 := by
  have hz : Digits 10 (List.replicate 300000 0x30) (List.replicate 300000 0) := by
    generalize 300000 = n
    induction n with
    | zero => exact .nil
    | succ n ih => exact .cons ⟨by decide, by decide⟩ ih
  have hd : Digits 10 (List.replicate 300000 0x30 ++ [0x37]) (List.replicate 300000 0 ++ [7]) := List.rel_append hz (.cons ⟨by decide, by decide⟩ .nil)
  have hv : Nat.ofDigits 10 (List.replicate 300000 0 ++ [7]).reverse = 7 := by
    rw [List.reverse_append, List.reverse_replicate, List.reverse_singleton, Nat.ofDigits_append, Nat.ofDigits_singleton, Nat.ofDigits_replicate_zero, Nat.mul_zero]
  obtain ⟨R, r1, -, r3, -⟩ := (c73_read_all hX (t := []) (by decide) (by decide) (⟨_, _, hd, .inl ⟨rfl, by rw [hv]; rfl⟩⟩ : Denotes 10 _ 7)).1 (by
    have : 0 < 2 ^ 639936 := Nat.two_pow_pos _
    show 7 < _
    generalize 2 ^ 639936 = w at *
    omega)
  exact ⟨R, r1, r3⟩

/-- 160001 hexadecimal digits are refused even if all are zero. -/
example {X : Mpi} (hX : X.WF) {R : Mpi} : readString X 16 (List.replicate 160001 0x30 ++ 0 :: []) ≠ .ok R := by
  have hz : ∀ n, Digits 16 (List.replicate n 0x30) (List.replicate n 0) := by
    intro n
    induction n with
    | zero => exact .nil
    | succ n ih => exact .cons ⟨by decide, by decide⟩ ih
  intro h
  rcases (c73_read_hex hX (t := []) (⟨_, _, hz 160001, .inl ⟨rfl, rfl⟩⟩ : Denotes 16 _ _)).2 (by rw [List.length_replicate]; decide) with e | e <;>
    rw [e] at h <;> cases h

end Verif.Bignum
