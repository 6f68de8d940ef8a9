import Verif.Relic.Lemmas

/-! # C97: printing and hashing with the wrapper of RELIC -/

namespace Verif.Relic

open Verif

/-! ## Scalars -/

theorem dec_digits (n : Nat) : ∀ c ∈ dec n, 48 ≤ c.toNat ∧ c.toNat ≤ 57 := by
  intro c hc
  unfold dec at hc
  split at hc
  · simp at hc; subst hc; decide
  · simp only [List.mem_reverse, List.mem_map] at hc
    obtain ⟨d, hd, rfl⟩ := hc
    have := Nat.digits_lt_base (by norm_num) hd
    have h2 : (UInt8.ofNat (48 + d)).toNat = 48 + d := by rw [UInt8.toNat_ofNat']; omega
    omega

theorem fold_digits (L : List Nat) (h : ∀ d ∈ L, d < 10) :
    ((L.map fun d => UInt8.ofNat (48 + d)).reverse).foldl (fun a c => a * 10 + (c.toNat - 48)) 0 = Nat.ofDigits 10 L := by
  induction L with
  | nil => rfl
  | cons d L ih =>
    rw [List.map_cons, List.reverse_cons, List.foldl_append, ih (fun x hx => h x (List.mem_cons_of_mem _ hx))]
    have hd := h d List.mem_cons_self
    have h2 : (UInt8.ofNat (48 + d)).toNat = 48 + d := by rw [UInt8.toNat_ofNat']; omega
    rw [Nat.ofDigits_cons]
    simp only [List.foldl_cons, List.foldl_nil, h2]
    omega

theorem fold_dec (n : Nat) : (dec n).foldl (fun a c => a * 10 + (c.toNat - 48)) 0 = n := by
  unfold dec
  split
  · next h => subst h; rfl
  · rw [fold_digits _ fun d hd => Nat.digits_lt_base (by norm_num) hd, Nat.ofDigits_digits]

theorem takeWhile_dec (n : Nat) (t : Bytes) :
    (dec n ++ 0 :: t).takeWhile (fun c => decide (48 ≤ c.toNat ∧ c.toNat ≤ 57)) = dec n := by
  rw [List.takeWhile_append_of_pos (by intro c hc; simpa using dec_digits n c hc)]
  simp

/-- C97: a scalar is printed as its sign and its digits, followed by a zero byte. -/
theorem c97_print_scalar_partial (x : Bn) : printZR x = text x ++ [0] := by
  unfold printZR sizeStr
  simp only
  rw [show (text x).length + 1 + 1 - (text x).length = 2 by omega, List.take_append]
  simp [List.take_of_length_le]

/-- The zero byte should not be there. -/
theorem c97_print_scalar_false : text (nrm 7) = [55] ∧ printZR (nrm 7) = [55, 0] := by
  constructor <;> decide +kernel

/-- C97: the constructor from text reads what was printed, for every number. -/
theorem c97_read_scalar (n : Int) : zrText (printZR (nrm n)) = nrm n ∧ zrText (text (nrm n)) = nrm n := by
  have hpr := c97_print_scalar_partial (nrm n)
  have h45 : ∀ (k : Nat) (t : Bytes), (dec k ++ t).head? ≠ some 45 := by
    intro k t hc
    have hne : dec k ≠ [] := by
      unfold dec
      split
      · simp
      · next h => simpa using Nat.digits_ne_nil_iff_ne_zero.2 h
    obtain ⟨c, s, hs⟩ := List.exists_cons_of_ne_nil hne
    have := dec_digits k c (by rw [hs]; simp)
    rw [hs] at hc
    simp at hc
    subst hc
    revert this
    decide
  have hread : ∀ t : Bytes, (∀ k, (dec k ++ t).takeWhile (fun c => decide (48 ≤ c.toNat ∧ c.toNat ≤ 57)) = dec k) →
      zrText (text (nrm n) ++ t) = nrm n := by
    intro t ht
    rw [zrText_eq]
    congr 1
    unfold textVal text nrm
    simp only [mag_digs]
    by_cases hn : n < 0
    · simp only [hn, decide_true, if_true, List.cons_append, List.nil_append, List.head?_cons, List.tail_cons, ht, fold_dec]
      omega
    · simp only [hn, decide_false, Bool.false_eq_true, if_false, List.nil_append, h45, ht, fold_dec]
      omega
  constructor
  · rw [hpr]; exact hread [0] fun k => takeWhile_dec k []
  · have := hread [] fun k => by
      rw [List.takeWhile_append_of_pos (by intro c hc; simpa using dec_digits k c hc)]
      simp
    rwa [List.append_nil] at this

/-! ## Group elements -/

theorem printLoop_ub (data s : Bytes) : printLoop data s = .ub ↔ ∃ b ∈ s, data.length ≤ b.toNat := by
  induction s with
  | nil => simp [printLoop]
  | cons i s ih =>
    unfold printLoop
    by_cases h : i.toNat < data.length
    · rw [List.getElem?_eq_getElem h]
      simp only [List.mem_cons, exists_eq_or_imp, Nat.not_le.2 h, false_or]
      rw [← ih]
      cases hp : printLoop data s with
      | ok t => simp
      | exc e => simp
      | ub => simp
    · rw [List.getElem?_eq_none (by omega)]
      simp; left; omega

theorem printLoop_ok (data s : Bytes) (h : ∀ b ∈ s, b.toNat < data.length) :
    printLoop data s = .ok (s.flatMap fun b => hexNat (data.getD b.toNat 0).toNat) := by
  induction s with
  | nil => rfl
  | cons i s ih =>
    unfold printLoop
    have hi := h i List.mem_cons_self
    rw [List.getElem?_eq_getElem hi, ih fun b hb => h b (List.mem_cons_of_mem _ hb)]
    simp [List.getD_eq_getElem?_getD, List.getElem?_eq_getElem hi]

/-- C97: printing an element of a group reads outside its encoding exactly when a byte of the encoding is not below its length. -/
theorem c97_print_point (data : Bytes) : printPoint data = .ub ↔ ∃ b ∈ data, data.length ≤ b.toNat := by
  rw [← printLoop_ub]
  unfold printPoint
  cases hp : printLoop data data with
  | ok t => simp
  | exc e => simp
  | ub => simp

/-- Printing a point of `G1` (65 bytes) or `G2` (129 bytes) should print its encoding; it is undefined for every encoding with a byte 0xff. -/
theorem c97_print_point_false (data : Bytes) (h : data.length = 65 ∨ data.length = 129) (hb : 0xff ∈ data) : printPoint data = .ub :=
  (c97_print_point data).2 ⟨0xff, hb, by rcases h with h | h <;> rw [h] <;> decide⟩

/-- C97: printing an element of `GT` (384 bytes) is always defined. -/
theorem c97_print_target_partial (data : Bytes) (h : 256 ≤ data.length) : ∃ t, printPoint data = .ok t := by
  unfold printPoint
  rw [printLoop_ok data data fun b _ => lt_of_lt_of_le b.toNat_lt h]
  exact ⟨_, rfl⟩

/-- But elements with different encodings are printed alike. -/
theorem c97_print_target_false : ∃ a b : Bytes, a.length = 384 ∧ b.length = 384 ∧ a ≠ b ∧ printPoint a = printPoint b := by
  refine ⟨List.replicate 384 1, List.replicate 383 1 ++ [2], List.length_replicate, by rw [List.length_append, List.length_replicate]; rfl, by decide +kernel, by decide +kernel⟩

/-- The point at infinity, whose encoding is one zero byte, is printed. -/
theorem c97_print_infinity : printPoint [0] = .ok [48, 120, 48, 10] := by decide +kernel

/-! ## Hash functions -/

/-- C97: what is hashed to a scalar is never what is hashed to a group element, and different messages are hashed as different strings. -/
theorem c97_hash_inputs (a b : Bytes) :
    inputZR a ≠ inputG1 b ∧ inputZR a ≠ inputG2 b ∧ (inputZR a = inputZR b → a = b) ∧ (inputG1 a = inputG1 b → a = b)
      ∧ (inputG2 a = inputG2 b → a = b) := by
  refine ⟨?_, ?_, ?_, ?_, ?_⟩ <;> intro h <;> simpa [inputZR, inputG1, inputG2] using h

/-- What is hashed to `G2` should never be what is hashed to `G1`; it always is. -/
theorem c97_hash_inputs_false (b : Bytes) : inputG1 b = inputG2 b := rfl

example : printPoint (4 :: List.replicate 64 0xff) = .ub :=
  c97_print_point_false _ (Or.inl (by decide)) (by simp)

example : zrText (printZR (nrm (-120))) = nrm (-120) := (c97_read_scalar _).1

example : ∃ t, printPoint (List.replicate 384 7) = .ok t := c97_print_target_partial _ (by rw [List.length_replicate]; omega)

end Verif.Relic
