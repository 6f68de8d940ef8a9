import Verif.Io.Asn1More
import Verif.Io.Asn1Props

/-! # C99, C100: further functions of the ASN.1 writer and parser -/

namespace Verif.Io

open Verif Verif.Tdp Spec

/-! ## C99: what is written is read back -/

/-- C99 for booleans. -/
theorem c99_bool (w : Wr) (b : Bool) :
    (∃ e, writeBool w b = .ok (⟨w.avail - 3, e ++ w.out⟩, 3) ∧ e.length = 3 ∧ 3 ≤ w.avail ∧ ∀ rest, getBool (e ++ rest) = .ok (b, rest)) ∨
    (writeBool w b = err ∧ w.avail < 3) := by
  have hh := header_after 0x01 [if b then 255 else 0] (by simp) w
  have hl : (tlv 0x01 [if b then 255 else 0]).length = 3 := rfl
  rw [hl] at hh
  rw [writeBool]
  by_cases h1 : w.avail < 1
  · rw [if_pos h1]; exact Or.inr ⟨rfl, by omega⟩
  · have h := hh (by simp; omega)
    rw [if_neg h1, push, if_neg (by omega), Res.bind_ok]
    have h' : writeHeader (⟨w.avail - 1, (if b then 255 else 0) :: w.out⟩, 1) 0x01 = _ := h
    rw [h']
    by_cases h3 : 3 ≤ w.avail
    · rw [if_pos h3]
      refine Or.inl ⟨_, rfl, rfl, h3, fun rest => ?_⟩
      rw [getBool, getTag_ok _ (by simp), Res.bind_ok, if_neg (by simp)]
      cases b <;> rfl
    · rw [if_neg h3]; exact Or.inr ⟨rfl, by omega⟩

example : writeBool ⟨5, [7]⟩ true = .ok (⟨2, [1, 1, 255, 7]⟩, 3) := rfl

/-- The parser also takes other bytes for true (in DER only 255 is allowed). -/
theorem c99_bool_false : getBool [1, 1, 2] = .ok (true, []) ∧ getBool [1, 0x81, 1, 255] = .ok (true, []) := ⟨by decide, by decide⟩

theorem writeText_spec (tag : UInt8) (text : Bytes) (h : text.length < 2 ^ 32) : Writes (fun w => writeText tag w text) (tlv tag text) := by
  have := (chkAdd_cont (writeRaw_spec text) []).bind (G := fun a => writeHeader a tag)
    (by rw [List.append_nil]; exact writeHeader_cont tag text h)
  exact this.writes

/-- C99 for strings (printable strings, IA5 strings and octet strings): the content comes back with the cursor right behind it, exactly if there is space. -/
theorem c99_text (tag : UInt8) (w : Wr) (text : Bytes) (h : text.length < 2 ^ 32) :
    (∃ e, writeText tag w text = .ok (⟨w.avail - e.length, e ++ w.out⟩, e.length) ∧ e.length ≤ w.avail ∧
      ∀ rest, ∃ n r, getTag (e ++ rest) tag = .ok (n, r) ∧ r.take n = text ∧ r.drop n = rest) ∨
    (writeText tag w text = err ∧ w.avail < text.length + 6) := by
  have hw := writeText_spec tag text h w
  simp only at hw
  by_cases ha : (tlv tag text).length ≤ w.avail
  · rw [if_pos ha] at hw
    exact Or.inl ⟨_, hw, ha, fun rest => ⟨_, _, getTag_ok tag h rest, List.take_left' rfl, List.drop_left' rfl⟩⟩
  · rw [if_neg ha] at hw
    refine Or.inr ⟨hw, ?_⟩
    have := derLen_length text.length h
    simp only [tlv, List.length_cons, List.length_append] at ha
    omega

theorem c99_strings (w : Wr) (t : Bytes) : writePrintable w t = writeText 0x13 w t ∧ writeIa5 w t = writeText 0x16 w t ∧ writeOctets w t = writeText 0x04 w t :=
  ⟨rfl, rfl, rfl⟩

example : writeOctets ⟨9, []⟩ [1, 2, 3] = .ok (⟨4, [4, 3, 1, 2, 3]⟩, 5) := rfl

/-- Number of bytes of a bit string. -/
def bitBytes (bits : Nat) : Nat := (bits + 7) / 8

theorem size_eq (bits : Nat) : bits / 8 + (if bits % 8 ≠ 0 then 1 else 0) = bitBytes bits := by
  unfold bitBytes
  split <;> omega

/-- C99 for bit strings: the bytes and the number of unused bits come back (the parser wants the bit string to end the buffer). The unused bits themselves are
not set to zero. -/
theorem c99_bits (w : Wr) (buf : Bytes) (bits : Nat) (hb : bitBytes bits ≤ buf.length) (hs : bitBytes bits + 1 < 2 ^ 32) :
    (∃ e, writeBitString w buf bits = .ok (⟨w.avail - e.length, e ++ w.out⟩, e.length) ∧ e.length ≤ w.avail ∧
      getBitString e = .ok (buf.take (bitBytes bits), 8 * bitBytes bits - bits) ∧ ∀ x rest, getBitString (e ++ x :: rest) = err) ∨
    (writeBitString w buf bits = err ∧ w.avail < bitBytes bits + 7) := by
  rw [writeBitString, size_eq]
  generalize hk : bitBytes bits = k at *
  have hu : 8 * k - bits < 8 := by unfold bitBytes at hk; omega
  have hcomm : k * 8 - bits = 8 * k - bits := by omega
  set c : Bytes := UInt8.ofNat (8 * k - bits) :: buf.take k with hc
  have hcl : c.length = k + 1 := by rw [hc, List.length_cons, List.length_take]; omega
  have hlen := derLen_length c.length (by omega)
  by_cases h1 : w.avail < k + 1
  · rw [if_pos h1]; exact Or.inr ⟨rfl, by omega⟩
  · have hh := header_after 0x03 c (by omega) w (by omega)
    rw [if_neg h1, takeN_ok hb, Res.bind_ok, pushBlock, if_neg (by rw [List.length_take]; omega), Res.bind_ok, push,
      if_neg (by simp only [List.length_take]; omega), Res.bind_ok, hcomm]
    have e1 : (⟨w.avail - (buf.take k).length - 1, UInt8.ofNat (8 * k - bits) :: (buf.take k ++ w.out)⟩ : Wr) = ⟨w.avail - c.length, c ++ w.out⟩ := by
      rw [hcl, List.length_take, hc, List.cons_append]
      congr 1
      omega
    simp only
    rw [e1, show k + 1 = c.length from hcl.symm, hh]
    by_cases h3 : (tlv 0x03 c).length ≤ w.avail
    · rw [if_pos h3]
      refine Or.inl ⟨_, rfl, h3, ?_, fun x rest => ?_⟩
      · have ht := getTag_ok 0x03 (c := c) (by omega) []
        rw [List.append_nil, List.append_nil] at ht
        rw [getBitString, ht, Res.bind_ok]
        have hr : rd c 0 = .ok (UInt8.ofNat (8 * k - bits)) := by rw [hc]; rfl
        have hn : (UInt8.ofNat (8 * k - bits)).toNat = 8 * k - bits := by
          rw [UInt8.toNat_ofNat']; omega
        have hd : c.drop 1 = buf.take k := by rw [hc]; rfl
        have hkl : (buf.take k).length = k := by rw [List.length_take]; omega
        simp only
        rw [if_neg (by omega), hr, Res.bind_ok, hn, if_neg (by omega), hd, hcl, Nat.add_sub_cancel,
          if_neg (by rw [List.drop_eq_nil_of_le (by omega)]; simp), takeN_ok (by omega), Res.bind_ok, List.take_of_length_le (by omega)]
        rfl
      · rw [getBitString, getTag_ok 0x03 (c := c) (by omega), Res.bind_ok]
        simp only
        have hr : rd (c ++ x :: rest) 0 = .ok (UInt8.ofNat (8 * k - bits)) := by rw [hc]; rfl
        rw [if_neg (by omega), hr, Res.bind_ok]
        split
        · rfl
        · rw [if_pos]
          rw [List.drop_drop, show 1 + (c.length - 1) = c.length by omega, List.drop_left' rfl]
          simp
    · rw [if_neg h3]
      refine Or.inr ⟨rfl, ?_⟩
      simp only [tlv, List.length_cons, List.length_append] at h3
      omega

example : writeBitString ⟨9, []⟩ [0xab, 0xff] 12 = .ok (⟨4, [3, 3, 4, 0xab, 0xff]⟩, 5) ∧ getBitString [3, 3, 4, 0xab, 0xff] = .ok ([0xab, 0xff], 4) :=
  ⟨rfl, by decide⟩

/-- A bit string without bytes may have unused bits. -/
theorem c99_bits_false : getBitString [3, 1, 5] = .ok ([], 5) := by decide

/-- Too short a buffer is read beyond its end. -/
theorem c99_bits_short (w : Wr) (buf : Bytes) (bits : Nat) (hb : buf.length < bitBytes bits) (ha : bitBytes bits < w.avail) : writeBitString w buf bits = .ub := by
  rw [writeBitString, size_eq]
  rw [if_neg (by omega), takeN, if_pos hb]; rfl

/-- C99 for algorithm identifiers without parameters. -/
theorem c99_alg_null (w : Wr) (oid : Bytes) (h : oid.length < 2 ^ 31) :
    (∃ e, writeAlg w oid = .ok (⟨w.avail - e.length, e ++ w.out⟩, e.length) ∧ e.length ≤ w.avail ∧ ∀ rest, getAlgNull (e ++ rest) = .ok (oid, rest)) ∨
    (writeAlg w oid = err ∧ w.avail < oid.length + 14) := by
  have hw := writeAlg_spec oid h w
  simp only at hw
  have hl1 := derLen_length oid.length (by omega)
  have h5 : (tlv 0x05 []).length = 2 := rfl
  have hin : (tlv 0x06 oid ++ tlv 0x05 []).length ≤ oid.length + 8 := by
    rw [List.length_append, h5]; simp only [tlv, List.length_cons, List.length_append]; omega
  by_cases ha : (tlv 0x30 (tlv 0x06 oid ++ tlv 0x05 [])).length ≤ w.avail
  · rw [if_pos ha] at hw
    refine Or.inl ⟨_, hw, ha, fun rest => ?_⟩
    rw [getAlgNull, getAlg, getTag_ok _ (by omega), Res.bind_ok]
    simp only
    have hpos : ¬ (tlv 0x06 oid ++ tlv 0x05 [] ++ rest).length < 1 := by simp [tlv]
    have hrd : rd (tlv 0x06 oid ++ tlv 0x05 [] ++ rest) 0 = .ok 0x06 := rfl
    rw [if_neg hpos, hrd, Res.bind_ok, List.take_left' rfl, getTag_ok _ (by omega), Res.bind_ok, takeN_ok (by simp), Res.bind_ok]
    simp only
    rw [List.take_left' rfl, List.drop_left' rfl, List.drop_left' rfl]
    rfl
  · rw [if_neg ha] at hw
    refine Or.inr ⟨hw, ?_⟩
    have hl2 := derLen_length (tlv 0x06 oid ++ tlv 0x05 []).length (by omega)
    rw [tlv, List.length_cons, List.length_append] at ha
    omega

example : getAlgNull [0x30, 5, 6, 1, 42, 5, 0, 9] = .ok ([42], [9]) := by decide

/-- The parser of algorithm identifiers without parameters accepts empty parameters with tag 0. -/
theorem c99_alg_null_false : getAlgNull [0x30, 5, 6, 1, 42, 0, 0, 9] = .ok ([42], [9]) := by decide

/-- C99 for algorithm identifiers with parameters: if the parameters were written before, they become part of the element, and their tag and length are read back. -/
theorem c99_alg_par (avail : Nat) (oid par out : Bytes) (ptag : UInt8) (ho : oid.length < 2 ^ 30) (hp : par.length < 2 ^ 30) :
    (∃ e, writeAlgPar ⟨avail, tlv ptag par ++ out⟩ oid (tlv ptag par).length = .ok (⟨avail - e.length, e ++ (tlv ptag par ++ out)⟩, (e ++ tlv ptag par).length) ∧ e.length ≤ avail ∧
      e ++ tlv ptag par = tlv 0x30 (tlv 0x06 oid ++ tlv ptag par) ∧ getAlg (e ++ (tlv ptag par ++ out)) = .ok (⟨oid, ptag, par.length⟩, out)) ∨
    (writeAlgPar ⟨avail, tlv ptag par ++ out⟩ oid (tlv ptag par).length = err ∧ avail < oid.length + 12) := by
  have hl1 := derLen_length oid.length (by omega)
  have hl2 := derLen_length par.length (by omega)
  have ht1 : (tlv 0x06 oid).length ≤ oid.length + 6 := by simp only [tlv, List.length_cons, List.length_append]; omega
  have ht2 : (tlv ptag par).length ≤ par.length + 6 := by simp only [tlv, List.length_cons, List.length_append]; omega
  have hin : (tlv 0x06 oid ++ tlv ptag par).length < 2 ^ 32 := by rw [List.length_append]; omega
  have hl3 := derLen_length (tlv 0x06 oid ++ tlv ptag par).length hin
  have h1 := chkAdd_cont (writeOid_spec oid (by omega)) (tlv ptag par)
  have h2 := h1.bind (writeHeader_cont 0x30 (tlv 0x06 oid ++ tlv ptag par) hin) ⟨avail, tlv ptag par ++ out⟩
  set e := (0x30 :: derLen (tlv 0x06 oid ++ tlv ptag par).length) ++ tlv 0x06 oid with he
  have hw : writeAlgPar ⟨avail, tlv ptag par ++ out⟩ oid (tlv ptag par).length = _ := h2
  have hel : e.length ≤ oid.length + 12 := by rw [he, List.length_append, List.length_cons]; omega
  have hee : e ++ tlv ptag par = tlv 0x30 (tlv 0x06 oid ++ tlv ptag par) := by
    rw [he, List.append_assoc, List.cons_append]; rfl
  by_cases ha : e.length ≤ avail
  · rw [if_pos ha] at hw
    refine Or.inl ⟨e, hw, ha, hee, ?_⟩
    rw [← List.append_assoc, hee, getAlg, getTag_ok _ hin, Res.bind_ok]
    simp only
    have hpos : ¬ (tlv 0x06 oid ++ tlv ptag par ++ out).length < 1 := by simp [tlv]
    have hrd : rd (tlv 0x06 oid ++ tlv ptag par ++ out) 0 = .ok 0x06 := rfl
    rw [if_neg hpos, hrd, Res.bind_ok, List.take_left' rfl, getTag_ok _ (by omega), Res.bind_ok, takeN_ok (by simp), Res.bind_ok]
    simp only
    rw [List.take_left' rfl, List.drop_left' rfl, List.drop_left' rfl, getParams, if_neg (by simp [tlv])]
    have hrp : rd (tlv ptag par) 0 = .ok ptag := rfl
    rw [hrp, Res.bind_ok, tlv, List.drop_one, List.tail_cons, getLen_ok (by omega) (Nat.le_refl _), Res.bind_ok, if_neg (by simp)]
  · rw [if_neg ha] at hw
    exact Or.inr ⟨hw, by omega⟩

/-- C99: the parsers read nothing outside of their bytes. -/
theorem c99_within (r : Bytes) : Suffix r (getBool r) ∧ getBitString r ≠ .ub ∧ Suffix r (getAlgNull r) := by
  refine ⟨?_, ?_, ?_⟩
  · rw [getBool]
    rcases c47_tag r 0x01 with h | ⟨n, rest, h, hn, hs, hl⟩
    · rw [h]; exact Or.inl rfl
    · rw [h, Res.bind_ok]
      simp only
      by_cases h1 : n ≠ 1
      · rw [if_pos h1]; exact Or.inl rfl
      · rw [if_neg h1]
        obtain ⟨c, hc⟩ := rd_zero (r := rest) (by omega)
        rw [hc, Res.bind_ok]
        exact Or.inr ⟨_, _, rfl, (List.drop_suffix _ _).trans hs, by simp; omega⟩
  · rw [getBitString]
    rcases c47_tag r 0x03 with h | ⟨n, rest, h, hn, hs, hl⟩
    · rw [h]; intro hc; cases hc
    · rw [h, Res.bind_ok]
      simp only
      by_cases h1 : n < 1
      · rw [if_pos h1]; intro hc; cases hc
      · rw [if_neg h1]
        obtain ⟨c, hc⟩ := rd_zero (r := rest) (by omega)
        rw [hc, Res.bind_ok]
        split
        · intro hc; cases hc
        · split
          · intro hc; cases hc
          · rw [takeN_ok (by simp; omega)]; intro hc; cases hc
  · rw [getAlgNull]
    rcases c47_alg r with h | ⟨a, rest, h, hs, hl⟩
    · rw [h]; exact Or.inl rfl
    · rw [h, Res.bind_ok]
      split
      · exact Or.inl rfl
      · exact Or.inr ⟨_, _, rfl, hs, hl⟩

/-! ## Sequences -/

/-- The length fields of BER with at most four bytes after the first. -/
def BerLen (f : Bytes) (n : Nat) : Prop :=
  (∃ c : UInt8, f = [c] ∧ c.toNat = n ∧ n < 128) ∨ ∃ (c : UInt8) (b : Bytes), f = c :: b ∧ c.toNat = 128 + b.length ∧ 1 ≤ b.length ∧ b.length ≤ 4 ∧ beNat b = n

/-- One or more elements with a tag, one after the other, with these contents. -/
inductive Splits (tag : UInt8) : Bytes → List Bytes → Prop
  | one {f c : Bytes} : BerLen f c.length → Splits tag (tag :: (f ++ c)) [c]
  | more {f c r : Bytes} {cs : List Bytes} : BerLen f c.length → Splits tag r cs → Splits tag (tag :: (f ++ c ++ r)) (c :: cs)

theorem low_bits (k : Nat) (h : k < 128) : (128 + k) &&& 0x80 ≠ 0 ∧ (128 + k) &&& 0x7F = k := by
  have : ∀ k < 128, (128 + k) &&& 0x80 ≠ 0 ∧ (128 + k) &&& 0x7F = k := by decide +kernel
  exact this k h

theorem longLen_inv {c : UInt8} {t : Bytes} {k n : Nat} {rest : Bytes} (h : longLen (c :: t) k = .ok (n, rest)) :
    ∃ b, t = b ++ rest ∧ b.length = k ∧ beNat b = n := by
  rw [longLen] at h
  by_cases hk : (c :: t).length < k + 1
  · rw [if_pos hk] at h; cases h
  · rw [if_neg hk] at h
    simp only [List.drop_succ_cons, List.drop_zero, List.length_cons] at h hk
    rw [takeN_ok (by omega), Res.bind_ok, fold_beNat] at h
    injection h with h
    injection h with h1 h2
    exact ⟨t.take k, by rw [← h2, List.take_append_drop], by rw [List.length_take]; omega, h1⟩

theorem lenField_iff (r rest : Bytes) (n : Nat) : lenField r = .ok (n, rest) ↔ ∃ f, r = f ++ rest ∧ BerLen f n := by
  constructor
  · intro h
    cases r with
    | nil => cases h
    | cons c t =>
      have hr : rd (c :: t) 0 = .ok c := rfl
      rw [lenField, if_neg (by simp), hr, Res.bind_ok] at h
      by_cases hc : c.toNat < 128
      · rw [if_pos (by by_contra hx; have := (top_bit _ c.toNat_lt).1 hx; omega)] at h
        injection h with h
        injection h with h1 h2
        exact ⟨[c], by rw [← h2]; rfl, Or.inl ⟨c, rfl, h1, by omega⟩⟩
      · obtain ⟨k, hk⟩ : ∃ k, c.toNat = 128 + k := ⟨c.toNat - 128, by omega⟩
        have hlt := c.toNat_lt
        obtain ⟨e1, e2⟩ := low_bits k (by omega)
        rw [hk, if_neg e1, e2] at h
        have key : ∀ j, 1 ≤ j → j ≤ 4 → k = j → longLen (c :: t) j = .ok (n, rest) → ∃ f, c :: t = f ++ rest ∧ BerLen f n := by
          intro j h1 h4 hj h
          obtain ⟨b, hb, hbl, hbn⟩ := longLen_inv h
          exact ⟨c :: b, by rw [hb]; rfl, Or.inr ⟨c, b, rfl, by omega, by omega, by omega, hbn⟩⟩
        split at h
        · exact key 1 (by omega) (by omega) rfl h
        · exact key 2 (by omega) (by omega) rfl h
        · exact key 3 (by omega) (by omega) rfl h
        · exact key 4 (by omega) (by omega) rfl h
        · cases h
  · rintro ⟨f, rfl, ⟨c, rfl, hc, hn⟩ | ⟨c, b, rfl, hc, h1, h4, hb⟩⟩
    · have hr : rd ([c] ++ rest) 0 = .ok c := rfl
      rw [lenField, if_neg (by simp), hr, Res.bind_ok, if_pos (by by_contra hx; have := (top_bit _ c.toNat_lt).1 hx; omega), hc]; rfl
    · have hr : rd (c :: b ++ rest) 0 = .ok c := rfl
      obtain ⟨e1, e2⟩ := low_bits b.length (by omega)
      have hl := longLen_ok c b rest
      rw [hb] at hl
      rw [lenField, if_neg (by simp), hr, Res.bind_ok, hc, if_neg e1, e2, List.cons_append]
      revert hl
      generalize longLen (c :: (b ++ rest)) = L
      intro hl
      interval_cases b.length <;> exact hl

/-- C99: the headers that the parser accepts are exactly the tag and a length field (at most four bytes after the first) for a length that fits the buffer. -/
theorem c99_header (tag : UInt8) (r rest : Bytes) (n : Nat) :
    getTag r tag = .ok (n, rest) ↔ ∃ f, r = tag :: (f ++ rest) ∧ BerLen f n ∧ n ≤ rest.length := by
  have hgl : ∀ t, getLen t = .ok (n, rest) ↔ ∃ f, t = f ++ rest ∧ BerLen f n ∧ n ≤ rest.length := by
    intro t
    rw [getLen]
    constructor
    · intro h
      cases hl : lenField t with
      | ok a =>
        rw [hl, Res.bind_ok, checkLen] at h
        by_cases hn : a.1 > a.2.length
        · rw [if_pos hn] at h; cases h
        · rw [if_neg hn] at h
          injection h with h
          subst h
          obtain ⟨f, h1, h2⟩ := (lenField_iff t rest n).1 hl
          exact ⟨f, h1, h2, by simp only at hn; omega⟩
      | exc e => rw [hl] at h; cases h
      | ub => rw [hl] at h; cases h
    · rintro ⟨f, h1, h2, h3⟩
      rw [(lenField_iff t rest n).2 ⟨f, h1, h2⟩, Res.bind_ok, checkLen, if_neg (by simp only; omega)]
  rw [getTag]
  cases r with
  | nil =>
    rw [if_pos (by simp)]
    exact ⟨fun h => (by cases h), fun ⟨f, h, _⟩ => by cases h⟩
  | cons c t =>
    have hr : rd (c :: t) 0 = .ok c := rfl
    rw [if_neg (by simp), hr, Res.bind_ok]
    by_cases hc : c ≠ tag
    · rw [if_pos hc]
      exact ⟨fun h => (by cases h), fun ⟨f, h, _⟩ => (by injection h with h1 h2; exact absurd h1 hc)⟩
    · rw [if_neg hc, List.drop_one, List.tail_cons, hgl t]
      have hc : c = tag := by simpa using hc
      subst hc
      exact ⟨fun ⟨f, h, h'⟩ => ⟨f, by rw [h], h'⟩, fun ⟨f, h, h'⟩ => ⟨f, by injection h, h'⟩⟩

example : BerLen [0x82, 1, 0] 256 ∧ BerLen [0x81, 5] 5 ∧ ¬ BerLen [0x80] 0 := by
  refine ⟨Or.inr ⟨0x82, [1, 0], rfl, rfl, by decide, by decide, by decide⟩, Or.inr ⟨0x81, [5], rfl, rfl, by decide, by decide, by decide⟩, ?_⟩
  rintro (⟨c, h, hc, _⟩ | ⟨c, b, h, hc, h1, _⟩)
  · injection h with h; subst h; simp at hc
  · injection h with _ h; subst h; simp at h1

theorem seqLoop_safe (tag : UInt8) (al : Nat → Bool) : ∀ (fuel k : Nat) (r : Bytes), r.length ≤ fuel → 0 < r.length →
    ∃ o, seqLoop tag al fuel k r = .ok o ∧ o.allocs ≤ o.nodes.length ∧ (o.ok = true → o.nodes.length = o.allocs + 1 ∧ ∀ j, k ≤ j → j < k + o.allocs → al j = true) := by
  intro fuel
  induction fuel with
  | zero => intro k r h h0; omega
  | succ fuel ih =>
    intro k r h h0
    rw [seqLoop]
    rcases c47_tag r tag with h' | ⟨n, rest, h', hn, hs, hl⟩
    · rw [h']; exact ⟨_, rfl, Nat.le_refl _, fun hc => by cases hc⟩
    · rw [h']
      simp only
      rw [takeN_ok hn, Res.bind_ok]
      by_cases he : rest.drop n = []
      · rw [if_pos he]; exact ⟨_, rfl, by simp, fun _ => ⟨rfl, fun j h1 h2 => by simp only at h2; omega⟩⟩
      · rw [if_neg he]
        by_cases ha : al k = true
        · rw [if_pos ha]
          obtain ⟨o, ho, h1, h2⟩ := ih (k + 1) (rest.drop n) (by rw [List.length_drop]; omega) (List.length_pos_iff.2 he)
          rw [ho, Res.bind_ok]
          refine ⟨_, rfl, by simp only [List.length_cons]; omega, fun hc => ?_⟩
          obtain ⟨h3, h4⟩ := h2 hc
          refine ⟨by simp only [List.length_cons]; omega, fun j hj hj2 => ?_⟩
          simp only at hj2
          by_cases hjk : j = k
          · rw [hjk]; exact ha
          · exact h4 j (by omega) (by omega)
        · rw [if_neg ha]; exact ⟨_, rfl, by simp, fun hc => by cases hc⟩

/-- C99 for sequences, safety: nothing outside of the bytes is read; all allocated nodes are in the list of the caller, also after an error; on success the list has one node
more than was allocated. -/
theorem c99_sequence_safe (tag : UInt8) (al : Nat → Bool) (old r : Bytes) :
    ∃ o, getSequenceOf tag al old r = .ok o ∧ o.allocs ≤ o.nodes.length ∧ (o.ok = true → o.nodes.length = o.allocs + 1) := by
  rw [getSequenceOf]
  rcases c47_tag r 0x30 with h | ⟨n, rest, h, hn, hs, hl⟩
  · rw [h]; exact ⟨_, rfl, Nat.le_refl _, fun hc => by cases hc⟩
  · rw [h]
    simp only
    by_cases h1 : n ≠ rest.length
    · rw [if_pos h1]; exact ⟨_, rfl, Nat.le_refl _, fun hc => by cases hc⟩
    · rw [if_neg h1]
      by_cases h2 : rest = []
      · rw [if_pos h2]; exact ⟨_, rfl, by simp, fun _ => rfl⟩
      · rw [if_neg h2]
        obtain ⟨o, ho, h3, h4⟩ := seqLoop_safe tag al rest.length 0 rest (Nat.le_refl _) (List.length_pos_iff.2 h2)
        exact ⟨o, ho, h3, fun hc => (h4 hc).1⟩

/-- The encodings of elements, one after the other. -/
def concat (tag : UInt8) (cs : List Bytes) : Bytes := cs.flatMap (tlv tag)

theorem concat_ne {tag : UInt8} {cs : List Bytes} (h : cs ≠ []) : concat tag cs ≠ [] := by
  cases cs with
  | nil => exact absurd rfl h
  | cons c cs => simp [concat, tlv]

theorem concat_length (tag : UInt8) (cs : List Bytes) : cs.length ≤ (concat tag cs).length := by
  induction cs with
  | nil => simp
  | cons c cs ih =>
    unfold concat at *
    rw [List.flatMap_cons, List.length_append, List.length_cons]
    simp only [tlv, List.length_cons]
    omega

theorem seqLoop_ok (tag : UInt8) (al : Nat → Bool) : ∀ (cs : List Bytes) (fuel k : Nat), cs ≠ [] → (∀ c ∈ cs, c.length < 2 ^ 32) → cs.length ≤ fuel →
    (∀ j, k ≤ j → j < k + (cs.length - 1) → al j = true) → seqLoop tag al fuel k (concat tag cs) = .ok ⟨true, cs, cs.length - 1⟩ := by
  intro cs
  induction cs with
  | nil => intro fuel k h; exact absurd rfl h
  | cons c cs ih =>
    intro fuel k _ hc hf ha
    cases fuel with
    | zero => simp at hf
    | succ fuel =>
      rw [seqLoop, show concat tag (c :: cs) = tlv tag c ++ concat tag cs from List.flatMap_cons .., getTag_ok tag (hc c (by simp))]
      simp only
      rw [takeN_ok (by simp), Res.bind_ok, List.take_left' rfl, List.drop_left' rfl]
      by_cases he : cs = []
      · subst he
        rfl
      · rw [if_neg (concat_ne he)]
        have hpos : 0 < cs.length := List.length_pos_iff.2 he
        rw [if_pos (ha k (Nat.le_refl _) (by simp only [List.length_cons]; omega)),
          ih fuel (k + 1) he (fun x hx => hc x (List.mem_cons_of_mem _ hx)) (by simp only [List.length_cons] at hf; omega)
            (fun j h1 h2 => ha j (by omega) (by simp only [List.length_cons]; omega)), Res.bind_ok]
        simp only [List.length_cons]
        show Res.ok _ = _
        congr 2
        omega

/-- C99 for sequences: a sequence of one or more elements is split into their contents if the allocations succeed. -/
theorem c99_sequence_der (tag : UInt8) (al : Nat → Bool) (old : Bytes) (cs : List Bytes) (h0 : cs ≠ []) (hl : (concat tag cs).length < 2 ^ 32)
    (ha : ∀ j, j < cs.length - 1 → al j = true) : getSequenceOf tag al old (tlv 0x30 (concat tag cs)) = .ok ⟨true, cs, cs.length - 1⟩ := by
  have ht := getTag_ok 0x30 hl []
  rw [List.append_nil, List.append_nil] at ht
  rw [getSequenceOf, ht]
  simp only
  rw [if_neg (by simp), if_neg (concat_ne h0)]
  refine seqLoop_ok tag al cs _ 0 h0 ?_ (concat_length tag cs) fun j _ h => ha j (by omega)
  intro c hc
  have : (tlv tag c).length ≤ (concat tag cs).length := by
    unfold concat
    induction cs with
    | nil => cases hc
    | cons d cs ih =>
      rw [List.flatMap_cons, List.length_append]
      rcases List.mem_cons.1 hc with rfl | hc
      · omega
      · by_cases he : cs = []
        · subst he; cases hc
        · have := ih he (by unfold concat at hl ⊢; rw [List.flatMap_cons, List.length_append] at hl; omega)
            (fun j hj => ha j (by simp only [List.length_cons]; omega))
            (by
              unfold concat at hl
              rw [List.flatMap_cons, List.length_append] at hl
              have := getTag_ok 0x30 (c := concat tag cs) (by unfold concat; omega) []
              rwa [List.append_nil, List.append_nil] at this) hc
          omega
  simp only [tlv, List.length_cons, List.length_append] at this
  omega

theorem splits_ne {tag : UInt8} {r : Bytes} {cs : List Bytes} (h : Splits tag r cs) : r ≠ [] := by
  cases h <;> simp

theorem seqLoop_iff (tag : UInt8) (al : Nat → Bool) (hal : ∀ k, al k = true) : ∀ (fuel k : Nat) (r : Bytes) (cs : List Bytes), r.length ≤ fuel →
    ((∃ o, seqLoop tag al fuel k r = .ok o ∧ o.ok = true ∧ o.nodes = cs) ↔ Splits tag r cs) := by
  intro fuel
  induction fuel with
  | zero =>
    intro k r cs h
    have : r = [] := List.length_eq_zero_iff.1 (by omega)
    subst this
    exact ⟨fun ⟨o, h, _⟩ => (by rw [seqLoop] at h; cases h), fun h => absurd rfl (splits_ne h)⟩
  | succ fuel ih =>
    intro k r cs h
    rw [seqLoop]
    constructor
    · rintro ⟨o, ho, hok, hcs⟩
      cases hg : getTag r tag with
      | ub => rw [hg] at ho; cases ho
      | exc e =>
        rw [hg] at ho
        injection ho with ho
        subst ho; cases hok
      | ok a =>
        obtain ⟨n, rest⟩ := a
        rw [hg] at ho
        obtain ⟨f, hr, hf, hn⟩ := (c99_header tag r rest n).1 hg
        simp only at ho
        rw [takeN_ok hn, Res.bind_ok] at ho
        have hlen : (rest.take n).length = n := by rw [List.length_take]; omega
        by_cases he : rest.drop n = []
        · rw [if_pos he] at ho
          injection ho with ho
          subst ho
          have hrest : rest.take n = rest := by
            have := List.take_append_drop n rest
            rwa [he, List.append_nil] at this
          rw [← hcs, hr]
          simp only
          rw [hrest]
          refine Splits.one ?_
          rw [← hrest, hlen]; exact hf
        · rw [if_neg he, if_pos (hal k)] at ho
          cases hl : seqLoop tag al fuel (k + 1) (rest.drop n) with
          | ub => rw [hl] at ho; cases ho
          | exc e => rw [hl] at ho; cases ho
          | ok o' =>
            rw [hl, Res.bind_ok] at ho
            injection ho with ho
            subst ho
            have hrl : r.length = 1 + (f.length + rest.length) := by rw [hr, List.length_cons, List.length_append]; omega
            have hs := (ih (k + 1) (rest.drop n) o'.nodes (by rw [List.length_drop]; omega)).1 ⟨o', hl, hok, rfl⟩
            rw [← hcs, hr]
            have : f ++ rest = f ++ rest.take n ++ rest.drop n := by rw [List.append_assoc, List.take_append_drop]
            rw [this]
            refine Splits.more ?_ hs
            rw [hlen]; exact hf
    · intro hs
      cases hs with
      | @one f c hf =>
        rw [(c99_header tag _ c c.length).2 ⟨f, rfl, hf, Nat.le_refl _⟩]
        simp only
        rw [takeN_ok (Nat.le_refl _), Res.bind_ok, List.take_length, List.drop_length, if_pos rfl]
        exact ⟨_, rfl, rfl, rfl⟩
      | @more f c s cs hf hs =>
        rw [(c99_header tag _ (c ++ s) c.length).2 ⟨f, by rw [List.append_assoc], hf, by simp⟩]
        simp only
        rw [takeN_ok (by simp), Res.bind_ok, List.take_left' rfl, List.drop_left' rfl, if_neg (splits_ne hs), if_pos (hal k)]
        obtain ⟨o, h1, h2, h3⟩ := (ih (k + 1) s cs (by simp only [List.length_cons, List.length_append] at h; omega)).2 hs
        rw [h1, Res.bind_ok]
        exact ⟨_, rfl, h2, by rw [h3]⟩

/-- C99 for sequences: the parser accepts exactly the sequences that fill the buffer and are empty or consist of elements with the tag, and delivers their contents in order. -/
theorem c99_sequence_exact (tag : UInt8) (al : Nat → Bool) (hal : ∀ k, al k = true) (old r : Bytes) (cs : List Bytes) :
    (∃ o, getSequenceOf tag al old r = .ok o ∧ o.ok = true ∧ o.nodes = cs) ↔
    ∃ f s, r = 0x30 :: (f ++ s) ∧ BerLen f s.length ∧ (s = [] ∧ cs = [old] ∨ Splits tag s cs) := by
  rw [getSequenceOf]
  constructor
  · rintro ⟨o, ho, hok, hcs⟩
    cases hg : getTag r 0x30 with
    | ub => rw [hg] at ho; cases ho
    | exc e =>
      rw [hg] at ho
      injection ho with ho
      subst ho; cases hok
    | ok a =>
      obtain ⟨n, rest⟩ := a
      rw [hg] at ho
      obtain ⟨f, hr, hf, hn⟩ := (c99_header 0x30 r rest n).1 hg
      simp only at ho
      by_cases h1 : n ≠ rest.length
      · rw [if_pos h1] at ho
        injection ho with ho
        subst ho; cases hok
      · have h1 : n = rest.length := by simpa using h1
        subst h1
        rw [if_neg (by simp)] at ho
        refine ⟨f, rest, hr, hf, ?_⟩
        by_cases h2 : rest = []
        · rw [if_pos h2] at ho
          injection ho with ho
          subst ho
          exact Or.inl ⟨h2, hcs.symm⟩
        · rw [if_neg h2] at ho
          exact Or.inr ((seqLoop_iff tag al hal _ 0 rest cs (Nat.le_refl _)).1 ⟨o, ho, hok, hcs⟩)
  · rintro ⟨f, s, rfl, hf, h⟩
    rw [(c99_header 0x30 _ s s.length).2 ⟨f, rfl, hf, Nat.le_refl _⟩]
    simp only
    rw [if_neg (by simp)]
    rcases h with ⟨rfl, rfl⟩ | h
    · rw [if_pos rfl]; exact ⟨_, rfl, rfl, rfl⟩
    · rw [if_neg (splits_ne h)]
      exact (seqLoop_iff tag al hal _ 0 s cs (Nat.le_refl _)).2 h

example : Splits 2 [2, 1, 5, 2, 0x81, 2, 6, 7] [[5], [6, 7]] :=
  Splits.more (f := [1]) (c := [5]) (Or.inl ⟨1, rfl, rfl, by decide⟩)
    (Splits.one (f := [0x81, 2]) (c := [6, 7]) (Or.inr ⟨0x81, [2], rfl, rfl, by decide, by decide, by decide⟩))

example : getSequenceOf 2 (fun _ => true) [] [0x30, 7, 2, 1, 5, 2, 2, 6, 7] = .ok ⟨true, [[5], [6, 7]], 1⟩ := by decide +kernel

/-- Finding: an empty sequence is accepted and leaves the node of the caller as it was, which then looks like a sequence of one element. -/
theorem c99_sequence_empty_false (tag : UInt8) (al : Nat → Bool) (old : Bytes) : getSequenceOf tag al old [0x30, 0] = .ok ⟨true, [old], 0⟩ := by
  rfl

/-! ## C100: named data -/

namespace Spec

/-- The value of a name: of the first entry with it. -/
def lookup : List Named → Bytes → Option Bytes
  | [], _ => none
  | e :: r, oid => if e.oid = oid then some e.val else lookup r oid

/-- No name occurs twice, and three blocks are allocated for each entry. -/
def NOk (l : NList) : Prop := (l.items.map Named.oid).Nodup ∧ l.live = 3 * l.items.length

end Spec

theorem find_none {l : List Named} {oid : Bytes} (h : findNamed l oid = none) : lookup l oid = none ∧ oid ∉ l.map Named.oid := by
  unfold findNamed at h
  induction l with
  | nil => exact ⟨rfl, by simp⟩
  | cons e r ih =>
    rw [List.findIdx?_cons] at h
    by_cases he : e.oid = oid
    · subst he; simp at h
    · have : (e.oid.length == oid.length && e.oid == oid) = false := by simp [he]
      rw [this] at h
      simp only [Bool.false_eq_true, if_false, Option.map_eq_none_iff] at h
      obtain ⟨h1, h2⟩ := ih h
      refine ⟨by rw [lookup, if_neg he, h1], ?_⟩
      rw [List.map_cons, List.mem_cons]
      exact fun hc => hc.elim (fun h => he h.symm) h2

theorem find_some {l : List Named} {oid : Bytes} {i : Nat} (h : findNamed l oid = some i) :
    ∃ e, l[i]? = some e ∧ e.oid = oid ∧ lookup l oid = some e.val ∧ ∀ v,
      lookup (l.set i ⟨e.oid, v⟩) oid = some v ∧ (∀ x, x ≠ oid → lookup (l.set i ⟨e.oid, v⟩) x = lookup l x) ∧
      (l.set i ⟨e.oid, v⟩).map Named.oid = l.map Named.oid := by
  unfold findNamed at h
  induction l generalizing i with
  | nil => simp at h
  | cons e r ih =>
    rw [List.findIdx?_cons] at h
    by_cases he : e.oid = oid
    · have : (e.oid.length == oid.length && e.oid == oid) = true := by simp [he]
      rw [this] at h
      simp only [if_true, Option.some.injEq] at h
      subst h
      refine ⟨e, rfl, he, by rw [lookup, if_pos he], fun v => ⟨?_, ?_, ?_⟩⟩
      · rw [List.set_cons_zero, lookup, if_pos he]
      · intro x hx
        rw [List.set_cons_zero, lookup, lookup, if_neg (by simp only [he]; exact fun h => hx h.symm), if_neg (by rw [he]; exact fun h => hx h.symm)]
      · rw [List.set_cons_zero]; rfl
    · have : (e.oid.length == oid.length && e.oid == oid) = false := by simp [he]
      rw [this] at h
      simp only [Bool.false_eq_true, if_false, Option.map_eq_some_iff] at h
      obtain ⟨j, hj, rfl⟩ := h
      obtain ⟨e', h1, h2, h3, h4⟩ := ih hj
      refine ⟨e', by rw [List.getElem?_cons_succ]; exact h1, h2, by rw [lookup, if_neg he, h3], fun v => ?_⟩
      obtain ⟨h5, h6, h7⟩ := h4 v
      rw [List.set_cons_succ]
      refine ⟨by rw [lookup, if_neg he, h5], fun x hx => ?_, by rw [List.map_cons, h7, List.map_cons]⟩
      rw [lookup, lookup, h6 x hx]

/-- C100: what finding an entry delivers. -/
theorem c100_find (l : List Named) (oid : Bytes) : ((findNamed l oid).bind (fun i => l[i]?)).map Named.val = lookup l oid := by
  cases h : findNamed l oid with
  | none => rw [(find_none h).1]; rfl
  | some i =>
    obtain ⟨e, h1, _, h3, _⟩ := find_some h
    rw [h3, Option.bind_some, h1]; rfl

/-- The value after storing `val` (`none`: only space of `n` bytes) over an old one: enough space is kept, with what was behind the new bytes. -/
def Spec.merged (old : Option Bytes) (val : Option Bytes) (n : Nat) : Bytes :=
  match old with
  | none => val.getD (List.replicate n 0)
  | some o => if o.length < n then val.getD (List.replicate n 0) else (val.getD []) ++ o.drop (val.getD []).length

/-- C100: storing.  Either an allocation failed and nothing changes, or the name has the merged value and the other names are as they were; nothing is written outside of a buffer; the
invariant remains. -/
theorem c100_store (al : Fin 3 → Bool) (l : NList) (oid : Bytes) (val : Option Bytes) (n : Nat) (hv : ∀ v, val = some v → v.length = n) (hl : NOk l) :
    ∃ ok l', storeNamed al l oid val n = .ok (ok, l') ∧ NOk l' ∧
      (ok = false → l' = l ∧ ∃ k, al k = false) ∧
      (ok = true → lookup l'.items oid = some (merged (lookup l.items oid) val n) ∧ ∀ x, x ≠ oid → lookup l'.items x = lookup l.items x) := by
  obtain ⟨hnd, hlive⟩ := hl
  have hfill : ∀ buf : Bytes, n ≤ buf.length → fill val buf = .ok ((val.getD []) ++ buf.drop (val.getD []).length) := by
    intro buf hb
    cases val with
    | none => simp [fill]
    | some v =>
      rw [fill, copyInto, if_neg (by rw [hv v rfl]; omega)]; rfl
  have hfill0 : fill val (List.replicate n 0) = .ok (val.getD (List.replicate n 0)) := by
    cases val with
    | none => rfl
    | some v => rw [fill, copyInto, if_neg (by rw [hv v rfl]; simp), hv v rfl]; simp
  rw [storeNamed]
  cases hf : findNamed l.items oid with
  | none =>
    obtain ⟨h1, h2⟩ := find_none hf
    simp only
    by_cases a0 : al 0 = true
    · by_cases a1 : al 1 = true
      · by_cases a2 : al 2 = true
        · rw [a0, a1, a2]
          simp only [Bool.not_true, Bool.false_eq_true, if_false]
          rw [hfill0, Res.bind_ok]
          refine ⟨true, _, rfl, ⟨by rw [List.map_cons, List.nodup_cons]; exact ⟨h2, hnd⟩, by simp only [List.length_cons]; omega⟩, fun h => (by cases h), fun _ => ⟨?_, ?_⟩⟩
          · rw [h1, lookup, if_pos rfl]; rfl
          · intro x hx
            rw [lookup, if_neg (fun h => hx h.symm)]
        · rw [a0, a1, Bool.eq_false_iff.2 a2]
          exact ⟨false, l, rfl, ⟨hnd, hlive⟩, fun _ => ⟨rfl, 2, Bool.eq_false_iff.2 a2⟩, fun h => by cases h⟩
      · rw [a0, Bool.eq_false_iff.2 a1]
        exact ⟨false, l, rfl, ⟨hnd, hlive⟩, fun _ => ⟨rfl, 1, Bool.eq_false_iff.2 a1⟩, fun h => by cases h⟩
    · rw [Bool.eq_false_iff.2 a0]
      exact ⟨false, l, rfl, ⟨hnd, hlive⟩, fun _ => ⟨rfl, 0, Bool.eq_false_iff.2 a0⟩, fun h => by cases h⟩
  | some i =>
    obtain ⟨e, h1, h2, h3, h4⟩ := find_some hf
    simp only
    rw [h1]
    simp only
    by_cases hn : e.val.length < n
    · rw [if_pos hn]
      by_cases a0 : al 0 = true
      · rw [a0]
        simp only [Bool.not_true, Bool.false_eq_true, if_false]
        rw [hfill0, Res.bind_ok]
        obtain ⟨h5, h6, h7⟩ := h4 (val.getD (List.replicate n 0))
        refine ⟨true, _, rfl, ⟨by rw [h7]; exact hnd, by simp only [List.length_set]; omega⟩, fun h => (by cases h), fun _ => ⟨?_, h6⟩⟩
        rw [h5, h3, merged]
        rw [if_pos hn]
      · rw [Bool.eq_false_iff.2 a0]
        exact ⟨false, l, rfl, ⟨hnd, hlive⟩, fun _ => ⟨rfl, 0, Bool.eq_false_iff.2 a0⟩, fun h => by cases h⟩
    · rw [if_neg hn, hfill _ (by omega), Res.bind_ok]
      obtain ⟨h5, h6, h7⟩ := h4 ((val.getD []) ++ e.val.drop (val.getD []).length)
      refine ⟨true, _, rfl, ⟨by rw [h7]; exact hnd, by simp only [List.length_set]; omega⟩, fun h => (by cases h), fun _ => ⟨?_, h6⟩⟩
      rw [h5, h3, merged]
      rw [if_neg hn]

/-- C100 (part): a stored value is found again unless a longer one was there. -/
theorem c100_found_partial (al : Fin 3 → Bool) (l l' : NList) (oid v : Bytes) (hl : NOk l) (h : storeNamed al l oid (some v) v.length = .ok (true, l'))
    (hs : ∀ o, lookup l.items oid = some o → o.length ≤ v.length) : lookup l'.items oid = some v := by
  obtain ⟨ok, l2, h1, _, _, h4⟩ := c100_store al l oid (some v) v.length (fun w hw => by injection hw with hw; rw [hw]) hl
  rw [h] at h1
  injection h1 with h1
  injection h1 with h1 h2
  subst h1; subst h2
  rw [(h4 rfl).1]
  cases ho : lookup l.items oid with
  | none => rfl
  | some o =>
    have := hs o ho
    rw [merged]
    split
    · rfl
    · rw [Option.getD_some, List.drop_eq_nil_of_le this, List.append_nil]

/-- C100 (finding): a value that is stored over a longer one is found with the tail of the old one. -/
theorem c100_shorter_false : storeNamed (fun _ => true) ⟨[⟨[42], [1, 2, 3]⟩], 3⟩ [42] (some [9]) 1 = .ok (true, ⟨[⟨[42], [9, 2, 3]⟩], 3⟩) := by rfl

/-- C100: freeing the list releases as many blocks as were allocated. -/
theorem c100_free (l : NList) (hl : NOk l) : freeNamed l.items l.live = .ok 0 := by
  have : ∀ (items : List Named) (live : Nat), live = 3 * items.length → freeNamed items live = .ok 0 := by
    intro items
    induction items with
    | nil => intro live h; rw [freeNamed, h]; rfl
    | cons e r ih =>
      intro live h
      rw [List.length_cons] at h
      rw [freeNamed, if_neg (by omega)]; exact ih _ (by omega)
  exact this _ _ hl.2

example : NOk ⟨[⟨[42], [1, 2, 3]⟩, ⟨[43], []⟩], 6⟩ := ⟨by decide, rfl⟩

/-- C100: every list that calls of the function make from the empty one. -/
inductive Made : NList → Prop
  | empty : Made ⟨[], 0⟩
  | store {l l' : NList} {al : Fin 3 → Bool} {oid : Bytes} {val : Option Bytes} {n : Nat} {ok : Bool} :
    Made l → (∀ v, val = some v → v.length = n) → storeNamed al l oid val n = .ok (ok, l') → Made l'

theorem c100_made (l : NList) (h : Made l) : NOk l := by
  induction h with
  | empty => exact ⟨List.nodup_nil, rfl⟩
  | store _ hv hs ih =>
    obtain ⟨ok, l2, h1, h2, _⟩ := c100_store _ _ _ _ _ hv ih
    rw [hs] at h1
    injection h1 with h1
    injection h1 with _ h1
    subst h1
    exact h2

end Verif.Io
