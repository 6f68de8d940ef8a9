import Verif.Io.Asn1
import Verif.Tdp.Lemmas

/-!
# ASN.1: theorems (C46, C47)

The specification is X.690: a definite length is one byte below 128, otherwise `0x80 + k` followed by the `k` bytes of the minimal big-endian
encoding; an element is tag, length, content; a positive INTEGER is the minimal two's complement big-endian encoding.
-/

namespace Verif.Io

open Verif Verif.Tdp

namespace Spec

/-- The number of base-256 digits of a number. -/
def digits (n : Nat) : Nat := if n = 0 then 0 else digits (n / 256) + 1

/-- DER definite length. -/
def derLen (n : Nat) : Bytes := if n < 128 then [UInt8.ofNat n] else UInt8.ofNat (0x80 + digits n) :: beBytes (digits n) n

/-- An element. -/
def tlv (tag : UInt8) (content : Bytes) : Bytes := tag :: (derLen content.length ++ content)

/-- The content of an INTEGER for a positive number: the shortest byte string whose top bit is 0. -/
def derInt (x : Nat) : Bytes := if x < 128 * 256 ^ (digits x - 1) then beBytes (digits x) x else beBytes (digits x + 1) x

end Spec

open Spec

theorem digits_le (n l : Nat) : digits n ≤ l ↔ n < 256 ^ l := by
  induction l generalizing n with
  | zero =>
    rw [digits]; split
    · simp [*]
    · simp; omega
  | succ l ih =>
    rw [digits]; split
    · subst n; simp
    · rw [Nat.add_le_add_iff_right, ih, Nat.pow_succ, Nat.div_lt_iff_lt_mul (by omega)]

theorem digits_eq (n : Nat) : digits n = mpiSize n :=
  Nat.le_antisymm ((digits_le _ _).2 ((mpiSize_le_iff _ _).1 (Nat.le_refl _))) ((mpiSize_le_iff _ _).2 ((digits_le _ _).1 (Nat.le_refl _)))

theorem digits_small {n k : Nat} (h1 : 256 ^ k ≤ n) (h2 : n < 256 ^ (k + 1)) : digits n = k + 1 := by
  have a := (digits_le n (k + 1)).2 h2
  have b : ¬ digits n ≤ k := fun h => by have := (digits_le n k).1 h; omega
  omega

theorem beBytes_succ (k n : Nat) : beBytes (k + 1) n = beBytes k (n / 256) ++ [UInt8.ofNat (n % 256)] := by
  simp [beBytes, leBytes]

theorem and_ff (n : Nat) : n &&& 0xFF = n % 256 := Nat.and_two_pow_sub_one_eq_mod n 8

theorem shr (n k : Nat) : n >>> k = n / 2 ^ k := Nat.shiftRight_eq_div_pow n k

theorem beBytes1 (n : Nat) : beBytes 1 n = [UInt8.ofNat (n % 256)] := by rw [beBytes_succ]; rfl
theorem beBytes2 (n : Nat) : beBytes 2 n = [UInt8.ofNat (n / 256 % 256), UInt8.ofNat (n % 256)] := by rw [beBytes_succ, beBytes1]; rfl
theorem beBytes3 (n : Nat) : beBytes 3 n = [UInt8.ofNat (n / 65536 % 256), UInt8.ofNat (n / 256 % 256), UInt8.ofNat (n % 256)] := by
  rw [beBytes_succ, beBytes2, Nat.div_div_eq_div_mul]; rfl
theorem beBytes4 (n : Nat) : beBytes 4 n = [UInt8.ofNat (n / 16777216 % 256), UInt8.ofNat (n / 65536 % 256), UInt8.ofNat (n / 256 % 256), UInt8.ofNat (n % 256)] := by
  rw [beBytes_succ, beBytes3, Nat.div_div_eq_div_mul, Nat.div_div_eq_div_mul]; rfl

/-- A writer appends `enc` or fails for lack of space. -/
def Writes (f : Wr → Res (Wr × Nat)) (enc : Bytes) : Prop :=
  ∀ w, f w = if enc.length ≤ w.avail then .ok (⟨w.avail - enc.length, enc ++ w.out⟩, enc.length) else err

theorem pushAll_ok (w : Wr) (b : Bytes) (h : b.length ≤ w.avail) : pushAll w b = .ok ⟨w.avail - b.length, b.reverse ++ w.out⟩ := by
  induction b generalizing w with
  | nil => simp [pushAll]
  | cons c r ih =>
    simp only [List.length_cons] at h
    rw [pushAll, push, if_neg (by omega), Res.bind_ok, ih _ (by simp only; omega)]
    simp; omega

/-- DER lengths are written as specified; above `2^32 - 1` the writer fails. -/
theorem writeLen_spec {n : Nat} (h : n < 2 ^ 32) : Writes (fun w => writeLen w n) (derLen n) := by
  intro w
  simp only [writeLen]
  by_cases h1 : n < 0x80
  · rw [if_pos h1]
    have : derLen n = [UInt8.ofNat n] := by rw [derLen, if_pos h1]
    rw [this]
    by_cases ha : w.avail < 1
    · rw [if_pos ha, if_neg (by simp; omega)]
    · rw [if_neg ha, if_pos (by simp; omega), pushAll_ok _ _ (by simp; omega)]; rfl
  rw [if_neg h1]
  have e : ∀ k, digits n = k → derLen n = UInt8.ofNat (0x80 + k) :: beBytes k n := by
    intro k hk; rw [derLen, if_neg h1, hk]
  by_cases h2 : n ≤ 0xFF
  · have d : digits n = 1 := digits_small (k := 0) (by omega) (by omega)
    rw [if_pos h2, e 1 d, beBytes1]
    by_cases ha : w.avail < 2
    · rw [if_pos ha, if_neg (by simp; omega)]
    · rw [if_neg ha, if_pos (by simp; omega), pushAll_ok _ _ (by simp; omega), Nat.mod_eq_of_lt (by omega : n < 256)]; rfl
  rw [if_neg h2]
  simp only [and_ff, shr]
  by_cases h3 : n ≤ 0xFFFF
  · have d : digits n = 2 := digits_small (k := 1) (by omega) (by omega)
    rw [if_pos h3, e 2 d, beBytes2]
    by_cases ha : w.avail < 3
    · rw [if_pos ha, if_neg (by simp; omega)]
    · rw [if_neg ha, if_pos (by simp; omega), pushAll_ok _ _ (by simp; omega)]; rfl
  rw [if_neg h3]
  by_cases h4 : n ≤ 0xFFFFFF
  · have d : digits n = 3 := digits_small (k := 2) (by omega) (by omega)
    rw [if_pos h4, e 3 d, beBytes3]
    by_cases ha : w.avail < 4
    · rw [if_pos ha, if_neg (by simp; omega)]
    · rw [if_neg ha, if_pos (by simp; omega), pushAll_ok _ _ (by simp; omega)]; rfl
  rw [if_neg h4, if_pos (by omega)]
  have d : digits n = 4 := digits_small (k := 3) (by omega) (by omega)
  rw [e 4 d, beBytes4]
  by_cases ha : w.avail < 5
  · rw [if_pos ha, if_neg (by simp; omega)]
  · rw [if_neg ha, if_pos (by simp; omega), pushAll_ok _ _ (by simp; omega)]; rfl

theorem writeTag_spec (t : UInt8) : Writes (fun w => writeTag w t) [t] := by
  intro w
  simp only [writeTag]
  by_cases ha : w.avail < 1
  · rw [if_pos ha, if_neg (by simp; omega)]
  · rw [if_neg ha, if_pos (by simp; omega), push, if_neg (by omega)]; rfl

theorem writeRaw_spec (b : Bytes) : Writes (fun w => writeRaw w b) b := by
  intro w
  simp only [writeRaw]
  by_cases ha : w.avail < b.length
  · rw [if_pos ha, if_neg (by omega)]
  · rw [if_neg ha, if_pos (by omega), pushBlock, if_neg (by omega)]; rfl

/-- Continuing after the content `a` (of which the last `n` bytes are counted). -/
def Cont (F : Wr × Nat → Res (Wr × Nat)) (pre content : Bytes) : Prop :=
  ∀ w : Wr, F (w, content.length) = if pre.length ≤ w.avail then .ok (⟨w.avail - pre.length, pre ++ w.out⟩, (pre ++ content).length) else err

theorem chkAdd_cont {f : Wr → Res (Wr × Nat)} {enc : Bytes} (h : Writes f enc) (content : Bytes) : Cont (fun a => chkAdd a f) enc content := by
  intro w
  simp only [chkAdd, h w]
  by_cases ha : enc.length ≤ w.avail
  · rw [if_pos ha, if_pos ha]; simp; omega
  · rw [if_neg ha, if_neg ha]; rfl

theorem Cont.bind {F G : Wr × Nat → Res (Wr × Nat)} {a b c : Bytes} (hF : Cont F a c) (hG : Cont G b (a ++ c)) :
    Cont (fun x => F x >>= G) (b ++ a) c := by
  intro w
  simp only [hF w]
  by_cases ha : a.length ≤ w.avail
  · rw [if_pos ha, Res.bind_ok, hG]
    by_cases hb : b.length ≤ w.avail - a.length
    · rw [if_pos hb, if_pos (by simp; omega)]
      simp; omega
    · rw [if_neg hb, if_neg (by simp; omega)]
  · rw [if_neg ha, if_neg (by simp; omega)]; rfl

theorem Cont.writes {F : Wr × Nat → Res (Wr × Nat)} {enc : Bytes} (h : Cont F enc []) : Writes (fun w => F (w, 0)) enc := by
  intro w
  have := h w
  simpa using this

theorem writeHeader_cont (tag : UInt8) (content : Bytes) (h : content.length < 2 ^ 32) :
    Cont (fun a => writeHeader a tag) (tag :: derLen content.length) content := by
  have h1 : Cont (fun a => chkAdd a fun w => writeLen w a.2) (derLen content.length) content := by
    intro w
    exact chkAdd_cont (writeLen_spec h) content w
  exact h1.bind (chkAdd_cont (writeTag_spec tag) _)

theorem header_after (tag : UInt8) (c : Bytes) (h : c.length < 2 ^ 32) (w : Wr) (hb : c.length ≤ w.avail) :
    writeHeader (⟨w.avail - c.length, c ++ w.out⟩, c.length) tag =
      if (tlv tag c).length ≤ w.avail then .ok (⟨w.avail - (tlv tag c).length, tlv tag c ++ w.out⟩, (tlv tag c).length) else err := by
  have e := writeHeader_cont tag c h ⟨w.avail - c.length, c ++ w.out⟩
  simp only at e
  rw [e]
  by_cases hc : (tag :: derLen c.length).length ≤ w.avail - c.length
  · rw [if_pos hc, if_pos (by simp [tlv] at hc ⊢; omega)]
    simp [tlv]; omega
  · rw [if_neg hc, if_neg (by simp [tlv] at hc ⊢; omega)]

/-! ## Integers -/

theorem leBytes_snoc (m x : Nat) : leBytes (m + 1) x = leBytes m x ++ [UInt8.ofNat (x / 256 ^ m % 256)] := by
  induction m generalizing x with
  | zero => simp [leBytes]
  | succ m ih =>
    rw [leBytes, ih, leBytes, Nat.div_div_eq_div_mul, Nat.pow_succ, Nat.mul_comm 256]; rfl

theorem beBytes_cons (m x : Nat) : beBytes (m + 1) x = UInt8.ofNat (x / 256 ^ m % 256) :: beBytes m x := by
  rw [beBytes, leBytes_snoc, List.reverse_append]; rfl

theorem top_bit : ∀ n < 256, (n &&& 0x80 ≠ 0 ↔ 128 ≤ n) := by decide +kernel

theorem digits_pos {x : Nat} (h : 0 < x) : 0 < digits x := by
  rw [digits, if_neg (by omega)]; omega

/-- The first byte of the minimal encoding has its top bit set exactly when a sign byte is needed. -/
theorem first_byte {x : Nat} (h : 0 < x) : ∃ b r, beBytes (digits x) x = b :: r ∧ (b.toNat &&& 0x80 ≠ 0 ↔ ¬ x < 128 * 256 ^ (digits x - 1)) := by
  obtain ⟨m, hm⟩ : ∃ m, digits x = m + 1 := ⟨digits x - 1, by have := digits_pos h; omega⟩
  have hx : x < 256 ^ (m + 1) := (digits_le x _).1 (by omega)
  refine ⟨_, _, by rw [hm, beBytes_cons], ?_⟩
  have hq : x / 256 ^ m < 256 := by
    rw [Nat.div_lt_iff_lt_mul (Nat.pow_pos (by omega))]
    rw [Nat.pow_succ] at hx; omega
  have e : (UInt8.ofNat (x / 256 ^ m % 256)).toNat = x / 256 ^ m := by
    rw [Nat.mod_eq_of_lt hq]; simp only [UInt8.toNat_ofNat']; exact Nat.mod_eq_of_lt hq
  rw [e, top_bit _ hq, hm, Nat.add_sub_cancel, Nat.le_div_iff_mul_le (Nat.pow_pos (by omega))]
  omega

theorem derInt_length {x : Nat} : (derInt x).length ≤ digits x + 1 := by
  rw [derInt]; split <;> simp

/-- Storing a positive number and its sign byte. -/
theorem writeSign_cont {x : Nat} (h : 0 < x) (w : Wr) (hw : digits x ≤ w.avail) :
    writeSign true (⟨w.avail - digits x, beBytes (digits x) x ++ w.out⟩, digits x) =
      if (derInt x).length ≤ w.avail then .ok (⟨w.avail - (derInt x).length, derInt x ++ w.out⟩, (derInt x).length) else err := by
  obtain ⟨b, r, hb, ht⟩ := first_byte h
  have hrd : rd (beBytes (digits x) x ++ w.out) 0 = .ok b := by rw [hb]; rfl
  rw [writeSign, if_pos rfl, hrd, Res.bind_ok]
  by_cases hs : x < 128 * 256 ^ (digits x - 1)
  · rw [if_neg (by rw [ht]; simpa using hs), derInt, if_pos hs, beBytes_length, if_pos hw]
  · rw [if_pos (ht.2 hs), derInt, if_neg hs, beBytes_length]
    have hx : x < 256 ^ digits x := (digits_le x _).1 (Nat.le_refl _)
    have e : beBytes (digits x + 1) x = 0 :: beBytes (digits x) x := by
      rw [beBytes_cons, Nat.div_eq_of_lt hx]; rfl
    by_cases ha : w.avail - digits x < 1
    · rw [if_pos ha, if_neg (by omega)]
    · rw [if_neg ha, if_pos (by omega), push, if_neg (by simp only; omega), e]; simp; omega

/-- A positive number is written as a DER INTEGER, or the writer fails for lack of space. -/
theorem writeMpi_spec {x : Nat} (h : 0 < x) (hs : digits x < 2 ^ 31) : Writes (fun w => writeMpi w x) (tlv 0x02 (derInt x)) := by
  intro w
  simp only [writeMpi, ← digits_eq]
  have hx : x < 256 ^ digits x := (digits_le x _).1 (Nat.le_refl _)
  have hge : digits x ≤ (derInt x).length := by rw [derInt]; split <;> simp
  have hle := @derInt_length x
  by_cases ha : w.avail < digits x
  · rw [if_pos ha, if_neg (by simp [tlv]; omega)]
  · rw [if_neg ha, mpiWrite_some hx, orThrow, Res.bind_ok, pushBlock, beBytes_length, if_neg ha, Res.bind_ok, writeSign_cont h w (by omega)]
    by_cases hb : (derInt x).length ≤ w.avail
    · rw [if_pos hb, Res.bind_ok, header_after 0x02 _ (by omega) w hb]
    · rw [if_neg hb, if_neg (by simp [tlv]; omega)]; rfl

/-- A small integer is written as a DER INTEGER. -/
theorem writeInt_spec {v : Nat} (h : v < 256) : Writes (fun w => writeInt w v) (tlv 0x02 (if v = 0 then [0] else derInt v)) := by
  intro w
  simp only [writeInt]
  have hl : (if v = 0 then [0] else derInt v).length < 2 ^ 32 ∧ 1 ≤ (if v = 0 then [0] else derInt v).length := by
    split
    · simp
    · have hp := digits_pos (x := v) (by omega)
      have : digits v ≤ 1 := (digits_le v 1).2 (by omega)
      have hge : digits v ≤ (derInt v).length := by rw [derInt]; split <;> simp
      have := @derInt_length v; omega
  by_cases ha : w.avail < 1
  · rw [if_pos ha, if_neg (by simp [tlv]; omega)]
  · rw [if_neg ha, push, if_neg (by omega), Res.bind_ok]
    have key : writeSign (v > 0) (⟨w.avail - 1, UInt8.ofNat v :: w.out⟩, 1) =
        if (if v = 0 then [0] else derInt v).length ≤ w.avail then
          .ok (⟨w.avail - (if v = 0 then [0] else derInt v).length, (if v = 0 then [0] else derInt v) ++ w.out⟩, (if v = 0 then [0] else derInt v).length)
        else err := by
      by_cases h0 : v = 0
      · subst v
        simp only [if_true]
        rw [if_pos (by simp; omega)]
        rfl
      · have hd : digits v = 1 := digits_small (k := 0) (by omega) (by omega)
        have hp : decide (v > 0) = true := by simp; omega
        have := writeSign_cont (x := v) (by omega) w (by omega)
        rw [hd, beBytes1, Nat.mod_eq_of_lt h] at this
        simp only [if_neg h0, hp]
        exact this
    rw [key]
    generalize (if v = 0 then [0] else derInt v) = c at hl ⊢
    by_cases hb : c.length ≤ w.avail
    · rw [if_pos hb, Res.bind_ok, header_after 0x02 _ hl.1 w hb]
    · rw [if_neg hb, if_neg (by simp [tlv]; omega)]; rfl

theorem writeNull_spec : Writes writeNull (tlv 0x05 []) := by
  have h1 : Cont (fun a => chkAdd a fun w => writeLen w 0) (derLen 0) [] := chkAdd_cont (writeLen_spec (by omega)) []
  exact (h1.bind (chkAdd_cont (writeTag_spec 0x05) _)).writes

theorem tlv_cons (t : UInt8) (c : Bytes) : tlv t c = (t :: derLen c.length) ++ c := rfl

theorem writeOid_spec (oid : Bytes) (h : oid.length < 2 ^ 32) : Writes (fun w => writeOid w oid) (tlv 0x06 oid) := by
  have h1 := chkAdd_cont (writeRaw_spec oid) []
  have h2 := h1.bind (writeHeader_cont 0x06 (oid ++ []) (by simpa using h))
  have h3 := h2.writes
  rw [List.append_nil, ← tlv_cons] at h3
  exact h3

theorem derLen_length (n : Nat) (h : n < 2 ^ 32) : (derLen n).length ≤ 5 := by
  rw [derLen]; split
  · simp
  · have : digits n ≤ 4 := (digits_le n 4).2 (by omega)
    simp; omega

theorem writeAlg_spec (oid : Bytes) (h : oid.length < 2 ^ 31) : Writes (fun w => writeAlg w oid) (tlv 0x30 (tlv 0x06 oid ++ tlv 0x05 [])) := by
  have h1 := chkAdd_cont writeNull_spec []
  have h2 := h1.bind (chkAdd_cont (writeOid_spec oid (by omega)) _)
  have hd := derLen_length oid.length (by omega)
  have hd0 := derLen_length 0 (by omega)
  have h3 := h2.bind (writeHeader_cont 0x30 (tlv 0x06 oid ++ tlv 0x05 [] ++ []) (by simp [tlv]; omega))
  have h4 := h3.writes
  rw [List.append_nil] at h4
  rw [tlv_cons 0x30]
  intro w
  rw [← h4 w]
  simp only [writeAlg]
  cases chkAdd (w, 0) writeNull <;> rfl

/-! ## Reading back -/

theorem shl8_or (a b : Nat) (hb : b < 256) : (a <<< 8) ||| b = a * 256 + b := by
  rw [← Nat.shiftLeft_add_eq_or_of_lt (by omega), Nat.shiftLeft_eq]

theorem fold_beNat (b : Bytes) : b.foldl (fun acc c => (acc <<< 8) ||| c.toNat) 0 = beNat b := by
  rw [beNat]
  congr 1
  funext a c
  exact shl8_or a c.toNat c.toNat_lt

theorem takeN_ok {r : Bytes} {n : Nat} (h : n ≤ r.length) : takeN r n = .ok (r.take n) := by
  rw [takeN, if_neg (by omega)]

theorem longLen_ok (c : UInt8) (b rest : Bytes) : longLen (c :: (b ++ rest)) b.length = .ok (beNat b, rest) := by
  rw [longLen, if_neg (by simp)]
  simp only [List.drop_succ_cons, List.drop_zero]
  rw [takeN_ok (by simp), Res.bind_ok, fold_beNat, List.take_left' rfl, List.drop_left' rfl]; rfl

theorem lenField_ok {n : Nat} (h : n < 2 ^ 32) (rest : Bytes) : lenField (derLen n ++ rest) = .ok (n, rest) := by
  rw [derLen]
  by_cases h1 : n < 128
  · rw [if_pos h1, lenField, if_neg (by simp)]
    have e : (UInt8.ofNat n).toNat = n := by simp only [UInt8.toNat_ofNat']; omega
    have hr : rd ([UInt8.ofNat n] ++ rest) 0 = .ok (UInt8.ofNat n) := rfl
    rw [hr, Res.bind_ok, e, if_pos (by by_contra hc; have := (top_bit n (by omega)).1 hc; omega)]; rfl
  · rw [if_neg h1, lenField, if_neg (by simp)]
    have hd : digits n ≤ 4 := (digits_le n 4).2 (by omega)
    have hp := digits_pos (x := n) (by omega)
    have hn : n < 256 ^ digits n := (digits_le n _).1 (Nat.le_refl _)
    have e : (UInt8.ofNat (0x80 + digits n)).toNat = 0x80 + digits n := by simp only [UInt8.toNat_ofNat']; omega
    have hr : rd (UInt8.ofNat (0x80 + digits n) :: beBytes (digits n) n ++ rest) 0 = .ok (UInt8.ofNat (0x80 + digits n)) := rfl
    have hl := longLen_ok (UInt8.ofNat (0x80 + digits n)) (beBytes (digits n) n) rest
    rw [beBytes_length, beNat_beBytes_of_lt hn] at hl
    rw [hr, Res.bind_ok, e, if_neg ((top_bit _ (by omega)).2 (by omega)), List.cons_append]
    have hk : (0x80 + digits n) &&& 0x7F = digits n := by
      have : ∀ k ≤ 4, (0x80 + k) &&& 0x7F = k := by decide
      exact this _ hd
    rw [hk]
    revert hl
    generalize longLen (UInt8.ofNat (0x80 + digits n) :: (beBytes (digits n) n ++ rest)) = L
    intro hl
    interval_cases digits n <;> exact hl

theorem getLen_ok {n : Nat} (h : n < 2 ^ 32) {rest : Bytes} (hr : n ≤ rest.length) : getLen (derLen n ++ rest) = .ok (n, rest) := by
  rw [getLen, lenField_ok h, Res.bind_ok, checkLen, if_neg (by simp only; omega)]

theorem getTag_ok (t : UInt8) {c : Bytes} (h : c.length < 2 ^ 32) (rest : Bytes) : getTag (tlv t c ++ rest) t = .ok (c.length, c ++ rest) := by
  rw [getTag, tlv, List.cons_append, if_neg (by simp)]
  have hr : rd (t :: (derLen c.length ++ c ++ rest)) 0 = .ok t := rfl
  rw [hr, Res.bind_ok, if_neg (by simp), List.drop_one, List.tail_cons, List.append_assoc, getLen_ok h (by simp)]

/-- Leading zeros do not count: the number of remaining bytes is the number of digits of the value. -/
theorem dropZeros_length (b : Bytes) : (b.dropWhile (· = 0)).length = digits (beNat b) := by
  induction b with
  | nil => simp [beNat, digits]
  | cons c r ih =>
    rw [beNat_cons]
    by_cases hc : c = 0
    · subst c
      rw [List.dropWhile_cons_of_pos (by simp), ih]; simp
    · rw [List.dropWhile_cons_of_neg (by simpa using hc)]
      have h1 : 0 < c.toNat := by
        rcases Nat.eq_zero_or_pos c.toNat with h | h
        · exact absurd (UInt8.toNat_inj.1 (by simpa using h)) hc
        · exact h
      have h2 := c.toNat_lt
      have h3 := beNat_lt r
      have h4 : 256 ^ r.length ≤ c.toNat * 256 ^ r.length := Nat.le_mul_of_pos_left _ h1
      have h5 : c.toNat * 256 ^ r.length ≤ 255 * 256 ^ r.length := Nat.mul_le_mul_right _ (by omega)
      rw [digits_small (k := r.length) (by omega) (by rw [Nat.pow_succ]; omega)]; rfl

/-- `mbedtls_mpi_read_binary` returns the number; it fails exactly if it has more than 10000 limbs. -/
theorem mpiRead_eq (b : Bytes) : mpiRead b = if beNat b < 256 ^ 80000 then some (beNat b) else none := by
  simp only [mpiRead, dropZeros_length]
  by_cases h : digits (beNat b) ≤ 80000
  · rw [if_pos ((digits_le _ _).1 h), if_neg]; split <;> omega
  · rw [if_neg (fun hc => h ((digits_le _ _).2 hc)), if_pos]; split <;> omega

theorem beNat_derInt (x : Nat) : beNat (derInt x) = x := by
  have hx : x < 256 ^ digits x := (digits_le x _).1 (Nat.le_refl _)
  rw [derInt]; split
  · exact beNat_beBytes_of_lt hx
  · exact beNat_beBytes_of_lt (Nat.lt_trans hx (Nat.pow_lt_pow_right (by omega) (by omega)))

theorem getMpi_tlv {c : Bytes} (h : c.length < 2 ^ 32) (rest : Bytes) :
    getMpi (tlv 0x02 c ++ rest) = if beNat c < 256 ^ 80000 then .ok (beNat c, rest) else err := by
  rw [getMpi, getTag_ok _ h, Res.bind_ok, takeN_ok (by simp), Res.bind_ok, List.take_left' rfl, List.drop_left' rfl, mpiRead_eq]
  split <;> rfl

theorem getMpi_ok {x : Nat} (hx : x < 256 ^ 80000) (rest : Bytes) : getMpi (tlv 0x02 (derInt x) ++ rest) = .ok (x, rest) := by
  have := @derInt_length x
  have := (digits_le x 80000).2 hx
  rw [getMpi_tlv (by omega), beNat_derInt, if_pos hx]

/-- C46 for lengths: what `mbedtls_asn1_write_len` puts in front of the buffer is read back by `mbedtls_asn1_get_len`, which ends
right behind it, if that many bytes follow; the writer accepts exactly the lengths below 2^32 for which there is space. -/
theorem c46_len (w : Wr) (n : Nat) :
    (n < 2 ^ 32 ∧ (derLen n).length ≤ w.avail ∧ writeLen w n = .ok (⟨w.avail - (derLen n).length, derLen n ++ w.out⟩, (derLen n).length) ∧
      ∀ rest, n ≤ rest.length → getLen (derLen n ++ rest) = .ok (n, rest)) ∨
    (¬ (n < 2 ^ 32 ∧ (derLen n).length ≤ w.avail) ∧ writeLen w n = err) := by
  by_cases h : n < 2 ^ 32
  · have hw := writeLen_spec h w
    simp only at hw
    by_cases ha : (derLen n).length ≤ w.avail
    · rw [if_pos ha] at hw
      exact Or.inl ⟨h, ha, hw, fun rest hr => getLen_ok h hr⟩
    · rw [if_neg ha] at hw
      exact Or.inr ⟨fun hc => ha hc.2, hw⟩
  · refine Or.inr ⟨fun hc => h hc.1, ?_⟩
    rw [writeLen, if_neg (by omega), if_neg (by omega), if_neg (by omega), if_neg (by omega), if_neg (by omega)]

example : writeLen ⟨10, [7]⟩ 300 = .ok (⟨7, [0x82, 1, 44, 7]⟩, 3) := rfl

/-- C46 for elements: the content of an element written with tag `t` is announced with its length behind the header, and a different tag is refused. -/
theorem c46_tag (w : Wr) (t : UInt8) (c : Bytes) (hc : c.length < 2 ^ 32) (hw : c.length ≤ w.avail) (w' : Wr) (k : Nat)
    (h : writeHeader (⟨w.avail - c.length, c ++ w.out⟩, c.length) t = .ok (w', k)) :
    ∃ e, w'.out = e ++ w.out ∧ w'.avail + e.length = w.avail ∧ k = e.length ∧
      ∀ rest, getTag (e ++ rest) t = .ok (c.length, c ++ rest) ∧ ∀ t', t' ≠ t → getTag (e ++ rest) t' = err := by
  rw [header_after t c hc w hw] at h
  by_cases ha : (tlv t c).length ≤ w.avail
  · rw [if_pos ha] at h
    injection h with h
    have h1 := congrArg Prod.fst h
    have h2 := congrArg Prod.snd h
    simp only at h1 h2
    subst h1
    refine ⟨tlv t c, rfl, by simp only; omega, h2.symm, fun rest => ⟨getTag_ok t hc rest, fun t' ht => ?_⟩⟩
    rw [getTag, tlv, List.cons_append, if_neg (by simp)]
    have hr : rd (t :: (derLen c.length ++ c ++ rest)) 0 = .ok t := rfl
    rw [hr, Res.bind_ok, if_pos (fun e => ht e.symm)]
  · rw [if_neg ha] at h; cases h

example : writeHeader (⟨2, [5, 6] ++ [9]⟩, 2) 0x30 = .ok (⟨0, [0x30, 2, 5, 6, 9]⟩, 4) := rfl

/-- C46 for big integers: every positive number that an `mbedtls_mpi` can hold and for which there is space is written, and read back as itself with the
cursor right behind the element. -/
theorem c46_mpi_partial (w : Wr) (x : Nat) (h0 : 0 < x) (hx : x < 256 ^ 80000) :
    (∃ e, writeMpi w x = .ok (⟨w.avail - e.length, e ++ w.out⟩, e.length) ∧ e.length ≤ w.avail ∧ ∀ rest, getMpi (e ++ rest) = .ok (x, rest)) ∨
    (writeMpi w x = err ∧ w.avail < mpiSize x + 7) := by
  have hd := (digits_le x 80000).2 hx
  have hw := writeMpi_spec h0 (by omega) w
  simp only at hw
  by_cases ha : (tlv 0x02 (derInt x)).length ≤ w.avail
  · rw [if_pos ha] at hw
    exact Or.inl ⟨_, hw, ha, fun rest => getMpi_ok hx rest⟩
  · rw [if_neg ha] at hw
    refine Or.inr ⟨hw, ?_⟩
    have h1 := @derInt_length x
    have h2 := derLen_length (derInt x).length (by omega)
    simp only [tlv, List.length_cons, List.length_append] at ha
    rw [← digits_eq]; omega

example : writeMpi ⟨10, [7]⟩ 0x80 = .ok (⟨6, [2, 2, 0, 0x80, 7]⟩, 4) := rfl

/-- C46 for zero: the encoding is empty or one zero byte depending on the next byte of the buffer; it is read back as zero. -/
theorem c46_mpi_zero (w : Wr) (hw : w.out ≠ []) (ha : 7 ≤ w.avail) :
    ∃ e, writeMpi w 0 = .ok (⟨w.avail - e.length, e ++ w.out⟩, e.length) ∧ ∀ rest, getMpi (e ++ rest) = .ok (0, rest) := by
  obtain ⟨b, r, hbr⟩ : ∃ b r, w.out = b :: r := by
    cases h : w.out with
    | nil => exact absurd h hw
    | cons b r => exact ⟨b, r, rfl⟩
  have hz : mpiSize 0 = 0 := by decide
  have hrd : rd w.out 0 = .ok b := by rw [hbr]; rfl
  have hw0 : orThrow .runtimeError (mpiWrite 0 0) = .ok [] := by decide
  have e0 : writeMpi w 0 = writeSign true (w, 0) >>= fun a => writeHeader a 0x02 := by
    simp only [writeMpi, hz, hw0, Res.bind_ok, pushBlock, List.length_nil]
    rw [if_neg (by omega), if_neg (by omega), Res.bind_ok]; rfl
  rw [e0, writeSign, if_pos rfl, hrd, Res.bind_ok]
  by_cases hb : b.toNat &&& 0x80 ≠ 0
  · refine ⟨tlv 0x02 [0], ?_, fun rest => by rw [getMpi_tlv (by simp)]; exact if_pos (Nat.pow_pos (by omega))⟩
    rw [if_pos hb, if_neg (by simp only; omega), push, if_neg (by simp only; omega), Res.map_ok, Res.bind_ok]
    have := header_after 0x02 [0] (by simp) w (by simp; omega)
    rw [if_pos (by simp [tlv, derLen]; omega)] at this
    exact this
  · refine ⟨tlv 0x02 [], ?_, fun rest => by rw [getMpi_tlv (by simp)]; exact if_pos (Nat.pow_pos (by omega))⟩
    rw [if_neg hb, Res.bind_ok]
    have := header_after 0x02 [] (by simp) w (by simp)
    rw [if_pos (by simp [tlv, derLen]; omega)] at this
    exact this

/-- Finding: writing zero as the first element reads one byte behind the buffer (asn1write.c 150 looks at `**p` although nothing was written). -/
theorem c46_first_zero_false (n : Nat) : writeMpi ⟨n, []⟩ 0 = .ub := by
  have hz : mpiSize 0 = 0 := by decide
  have hw0 : orThrow .runtimeError (mpiWrite 0 0) = .ok [] := by decide
  simp only [writeMpi, hz, hw0, Res.bind_ok, pushBlock, List.length_nil]
  rw [if_neg (by omega), if_neg (by omega), Res.bind_ok]; rfl

/-- C46 for small integers. -/
theorem c46_int_partial (w : Wr) (v : Nat) (hv : v < 256) :
    (∃ e, writeInt w v = .ok (⟨w.avail - e.length, e ++ w.out⟩, e.length) ∧ e.length ≤ w.avail ∧ ∀ rest, getInt (e ++ rest) = .ok (v, rest)) ∨
    (writeInt w v = err ∧ w.avail < 4) := by
  have hw := writeInt_spec hv w
  simp only at hw
  have hl : ∃ b r, (if v = 0 then [0] else derInt v) = b :: r ∧ r.length ≤ 1 ∧ b.toNat < 128 ∧ beNat (b :: r) = v := by
    revert v
    have key : ∀ v < 256, (match (if v = 0 then [0] else derInt v) with
      | [] => false
      | b :: r => decide (r.length ≤ 1 ∧ b.toNat < 128 ∧ beNat (b :: r) = v)) = true := by decide +kernel
    intro v hv _
    have := key v hv
    split at this
    · cases this
    · next b r he => exact ⟨b, r, he, by simpa using this⟩
  obtain ⟨b, r, he, hr, hb, hval⟩ := hl
  rw [he] at hw
  by_cases ha : (tlv 0x02 (b :: r)).length ≤ w.avail
  · rw [if_pos ha] at hw
    refine Or.inl ⟨_, hw, ha, fun rest => ?_⟩
    have hrd : rd (b :: r ++ rest) 0 = .ok b := rfl
    rw [getInt, getTag_ok _ (by simp; omega), Res.bind_ok]
    simp only
    rw [if_neg (by simp; omega), hrd, Res.bind_ok,
      if_neg (by intro hc; have := (top_bit b.toNat b.toNat_lt).1 hc; omega), takeN_ok (by simp), Res.bind_ok, List.take_left' rfl, List.drop_left' rfl, fold_beNat, hval]
    rfl
  · rw [if_neg ha] at hw
    refine Or.inr ⟨hw, ?_⟩
    have : (derLen (b :: r).length).length = 1 := by rw [derLen, if_pos (by simp; omega)]; rfl
    simp only [tlv, List.length_cons, List.length_append] at ha this
    omega

example : writeInt ⟨5, []⟩ 200 = .ok (⟨1, [2, 2, 0, 200]⟩, 4) := rfl

/-- Finding: `mbedtls_asn1_write_int` writes one byte only, larger values are truncated (the library only writes 0). -/
theorem c46_int_false : writeInt ⟨5, []⟩ 300 = .ok (⟨2, [2, 1, 44]⟩, 3) ∧ getInt [2, 1, 44] = .ok (44, []) := ⟨rfl, rfl⟩

/-! ## C47: the parser stays in its buffer -/

/-- Failure, or a result whose remaining bytes are a proper suffix of the input and hold the announced length. -/
def Within (r : Bytes) (x : Res (Nat × Bytes)) : Prop :=
  x = err ∨ ∃ n rest, x = .ok (n, rest) ∧ n ≤ rest.length ∧ rest <:+ r ∧ rest.length < r.length

/-- Failure, or a result whose remaining bytes are a proper suffix of the input. -/
def Suffix {α : Type} (r : Bytes) (x : Res (α × Bytes)) : Prop :=
  x = err ∨ ∃ v rest, x = .ok (v, rest) ∧ rest <:+ r ∧ rest.length < r.length

theorem Within.suffix {r : Bytes} {x : Res (Nat × Bytes)} (h : Within r x) : Suffix r x := by
  rcases h with h | ⟨n, rest, h1, _, h3, h4⟩
  · exact Or.inl h
  · exact Or.inr ⟨n, rest, h1, h3, h4⟩

theorem Suffix.ne_ub {α : Type} {r : Bytes} {x : Res (α × Bytes)} (h : Suffix r x) : x ≠ .ub := by
  rcases h with h | ⟨_, _, h, _⟩ <;> rw [h] <;> intro hc <;> cases hc

theorem longLen_within (r : Bytes) (k : Nat) : Suffix r (longLen r k) := by
  rw [longLen]
  by_cases h : r.length < k + 1
  · rw [if_pos h]; exact Or.inl rfl
  · rw [if_neg h, takeN_ok (by simp; omega)]
    exact Or.inr ⟨_, _, rfl, List.drop_suffix _ _, by simp; omega⟩

theorem c47_len (r : Bytes) : Within r (getLen r) := by
  have key : Suffix r (lenField r) := by
    rw [lenField]
    by_cases h : r.length < 1
    · rw [if_pos h]; exact Or.inl rfl
    · rw [if_neg h]
      cases r with
      | nil => simp at h
      | cons c t =>
        have hr : rd (c :: t) 0 = .ok c := rfl
        rw [hr, Res.bind_ok]
        split
        · exact Or.inr ⟨_, _, rfl, List.drop_suffix _ _, by simp⟩
        · split
          · exact longLen_within _ _
          · exact longLen_within _ _
          · exact longLen_within _ _
          · exact longLen_within _ _
          · exact Or.inl rfl
  rw [getLen]
  rcases key with h | ⟨n, rest, h, hs, hl⟩
  · rw [h]; exact Or.inl rfl
  · rw [h, Res.bind_ok, checkLen]
    by_cases hn : n > rest.length
    · rw [if_pos hn]; exact Or.inl rfl
    · rw [if_neg hn]; exact Or.inr ⟨n, rest, rfl, by omega, hs, hl⟩

theorem c47_tag (r : Bytes) (t : UInt8) : Within r (getTag r t) := by
  rw [getTag]
  by_cases h : r.length < 1
  · rw [if_pos h]; exact Or.inl rfl
  · rw [if_neg h]
    cases r with
    | nil => simp at h
    | cons c s =>
      have hr : rd (c :: s) 0 = .ok c := rfl
      rw [hr, Res.bind_ok]
      by_cases hc : c ≠ t
      · rw [if_pos hc]; exact Or.inl rfl
      · rw [if_neg hc]
        rcases c47_len ((c :: s).drop 1) with h' | ⟨n, rest, h', hn, hs, hl⟩
        · exact Or.inl h'
        · refine Or.inr ⟨n, rest, h', hn, hs.trans (List.drop_suffix _ _), ?_⟩
          simp at hl ⊢; omega

theorem rd_zero {r : Bytes} (h : 0 < r.length) : ∃ c, rd r 0 = .ok c := by
  cases r with
  | nil => simp at h
  | cons c s => exact ⟨c, rfl⟩

theorem c47_int (r : Bytes) : Suffix r (getInt r) := by
  rw [getInt]
  rcases c47_tag r 0x02 with h | ⟨n, rest, h, hn, hs, hl⟩
  · rw [h]; exact Or.inl rfl
  · rw [h, Res.bind_ok]
    simp only
    by_cases h0 : n = 0 ∨ n > 4
    · rw [if_pos h0]; exact Or.inl rfl
    · rw [if_neg h0]
      obtain ⟨c, hc⟩ := rd_zero (r := rest) (by omega)
      rw [hc, Res.bind_ok]
      split
      · exact Or.inl rfl
      · rw [takeN_ok hn]
        exact Or.inr ⟨_, _, rfl, (List.drop_suffix _ _).trans hs, by simp; omega⟩

/-- The value of an accepted small integer fits an `int`: the shifts do not overflow. -/
theorem c47_int_range (r : Bytes) (v : Nat) (rest : Bytes) (h : getInt r = .ok (v, rest)) : v < 2 ^ 31 := by
  rw [getInt] at h
  rcases c47_tag r 0x02 with h' | ⟨n, s, h', hn, hs, hl⟩
  · rw [h'] at h; cases h
  · rw [h', Res.bind_ok] at h
    simp only at h
    by_cases h0 : n = 0 ∨ n > 4
    · rw [if_pos h0] at h; cases h
    · rw [if_neg h0] at h
      cases s with
      | nil => simp at hn; omega
      | cons c t =>
        have hc : rd (c :: t) 0 = .ok c := rfl
        rw [hc, Res.bind_ok] at h
        by_cases hb : c.toNat &&& 0x80 ≠ 0
        · rw [if_pos hb] at h; cases h
        · rw [if_neg hb, takeN_ok hn, Res.bind_ok, fold_beNat] at h
          injection h with h
          have h1 := congrArg Prod.fst h
          simp only at h1
          obtain ⟨m, rfl⟩ : ∃ m, n = m + 1 := ⟨n - 1, by omega⟩
          rw [List.take_succ_cons, beNat_cons] at h1
          have h2 := beNat_lt (t.take m)
          have h3 : (t.take m).length ≤ 3 := by simp; omega
          have h4 : c.toNat < 128 := by
            by_contra hc; exact hb ((top_bit _ c.toNat_lt).2 (by omega))
          have h5 : 256 ^ (t.take m).length ≤ 256 ^ 3 := Nat.pow_le_pow_right (by omega) h3
          have h6 : c.toNat * 256 ^ (t.take m).length ≤ 127 * 256 ^ 3 := Nat.mul_le_mul (by omega) h5
          rw [← h1]; omega

theorem c47_mpi (r : Bytes) : Suffix r (getMpi r) := by
  rw [getMpi]
  rcases c47_tag r 0x02 with h | ⟨n, rest, h, hn, hs, hl⟩
  · rw [h]; exact Or.inl rfl
  · rw [h, Res.bind_ok, takeN_ok hn, Res.bind_ok]
    cases mpiRead (rest.take n) with
    | none => exact Or.inl rfl
    | some x => exact Or.inr ⟨_, _, rfl, (List.drop_suffix _ _).trans hs, by simp; omega⟩

theorem c47_bits (r : Bytes) : Within r (getBits r) := by
  rw [getBits]
  rcases c47_tag r 0x03 with h | ⟨n, rest, h, hn, hs, hl⟩
  · rw [h]; exact Or.inl rfl
  · rw [h, Res.bind_ok]
    simp only
    by_cases h0 : n < 2
    · rw [if_pos h0]; exact Or.inl rfl
    · rw [if_neg h0]
      obtain ⟨c, hc⟩ := rd_zero (r := rest) (by omega)
      rw [hc, Res.bind_ok]
      split
      · exact Or.inl rfl
      · exact Or.inr ⟨_, _, rfl, by simp; omega, (List.drop_suffix _ _).trans hs, by simp; omega⟩

theorem c47_alg (r : Bytes) : Suffix r (getAlg r) := by
  rw [getAlg]
  rcases c47_tag r 0x30 with h | ⟨n, rest, h, hn, hs, hl⟩
  · rw [h]; exact Or.inl rfl
  · rw [h, Res.bind_ok]
    simp only
    by_cases h0 : rest.length < 1
    · rw [if_pos h0]; exact Or.inl rfl
    · rw [if_neg h0]
      obtain ⟨c, hc⟩ := rd_zero (r := rest) (by omega)
      rw [hc, Res.bind_ok]
      rcases c47_tag (rest.take n) 0x06 with h' | ⟨m, o, h', hm, hs', hl'⟩
      · rw [h']; exact Or.inl rfl
      · rw [h', Res.bind_ok, takeN_ok hm, Res.bind_ok, getParams]
        have hfin : (rest.drop n) <:+ r ∧ (rest.drop n).length < r.length := ⟨(List.drop_suffix _ _).trans hs, by simp; omega⟩
        by_cases he : o.drop m = []
        · simp only [he, if_true]
          exact Or.inr ⟨_, _, rfl, hfin⟩
        · simp only [if_neg he]
          have hpos : 0 < (o.drop m).length := List.length_pos_iff.2 he
          obtain ⟨t, ht⟩ := rd_zero hpos
          rw [ht, Res.bind_ok]
          rcases c47_len ((o.drop m).drop 1) with h2 | ⟨q, u, h2, _⟩
          · rw [h2]; exact Or.inl rfl
          · rw [h2, Res.bind_ok]
            simp only
            split
            · exact Or.inl rfl
            · exact Or.inr ⟨_, _, rfl, hfin⟩

example : getLen [0x84, 0xff, 0xff, 0xff, 0xff, 1] = err := rfl
example : getMpi [2, 2, 0, 0x80, 9] = .ok (128, [9]) := by decide +kernel

end Verif.Io
