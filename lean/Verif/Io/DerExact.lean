import Verif.Io.PkSafe

/-!
# Which byte strings are accepted as RSA keys

A grammar of elements, and the proof that the parsers accept exactly what it generates.
-/

namespace Verif.Io.Der

open Verif Verif.Tdp

/-- The forms of a length: one byte below 128, or `0x80 + k` and `k` bytes, with `k` from 1 to 4. It need not be the shortest one. -/
def Length (l : Bytes) (n : Nat) : Prop :=
  (n < 128 ∧ l = [UInt8.ofNat n]) ∨ ∃ b : Bytes, 1 ≤ b.length ∧ b.length ≤ 4 ∧ l = UInt8.ofNat (128 + b.length) :: b ∧ n = beNat b

/-- An element: the tag, the length of the content, the content. -/
def Element (tag : UInt8) (c e : Bytes) : Prop := ∃ l, Length l c.length ∧ e = tag :: (l ++ c)

/-- An element that is read as the number `x`: any number of zeros in front, and no sign. -/
def Number (x : Nat) (e : Bytes) : Prop := ∃ c, Element 0x02 c e ∧ beNat c = x ∧ x < 256 ^ 80000

/-- An element that is read as the version `v`: one to four bytes, the first bit zero. -/
def Version (v : Nat) (e : Bytes) : Prop := ∃ b c, Element 0x02 (b :: c) e ∧ b.toNat < 128 ∧ c.length ≤ 3 ∧ beNat (b :: c) = v

/-! ## The parsers -/

theorem bind_iff {α β : Type} {x : Res α} {f : α → Res β} {y : β} : (x >>= f) = .ok y ↔ ∃ a, x = .ok a ∧ f a = .ok y := Res.bind_eq_ok

theorem byte_form : ∀ n, n < 256 → (n &&& 0x80 = 0 ↔ n < 128) ∧ (n &&& 0x80 ≠ 0 → n = 128 + (n &&& 0x7F)) := by decide +kernel

theorem longLen_iff {c : UInt8} {t : Bytes} {k n : Nat} {s : Bytes} :
    longLen (c :: t) k = .ok (n, s) ↔ ∃ b : Bytes, b.length = k ∧ t = b ++ s ∧ n = beNat b := by
  constructor
  · intro h
    unfold longLen at h
    by_cases hl : (c :: t).length < k + 1
    · rw [if_pos hl] at h; cases h
    · rw [if_neg hl] at h
      have hk : k ≤ t.length := by simp at hl; omega
      rw [show List.drop 1 (c :: t) = t from rfl, takeN_ok hk, Res.bind_ok, fold_beNat] at h
      have h := Prod.mk.inj (Res.ok.inj h)
      refine ⟨t.take k, by rw [List.length_take]; omega, ?_, h.1.symm⟩
      rw [← h.2]
      exact (List.take_append_drop k t).symm
  · rintro ⟨b, rfl, rfl, rfl⟩
    exact longLen_ok c b s

theorem lenField_iff {r s : Bytes} {n : Nat} : lenField r = .ok (n, s) ↔ ∃ l, Length l n ∧ r = l ++ s := by
  cases r with
  | nil =>
    constructor
    · intro h; cases h
    · rintro ⟨l, h | ⟨b, -, -, h, -⟩, e⟩
      · rw [h.2] at e; cases e
      · rw [h] at e; cases e
  | cons c t =>
    unfold lenField
    rw [if_neg (by simp), show rd (c :: t) 0 = .ok c from rfl, Res.bind_ok]
    obtain ⟨f1, f2⟩ := byte_form c.toNat c.toNat_lt
    have hk : ∀ k, 1 ≤ k → k ≤ 4 → c.toNat = 128 + k → (longLen (c :: t) k = .ok (n, s) ↔ ∃ l, Length l n ∧ c :: t = l ++ s) := by
      intro k h1 h4 hc
      rw [longLen_iff]
      constructor
      · rintro ⟨b, rfl, rfl, rfl⟩
        exact ⟨c :: b, Or.inr ⟨b, h1, h4, by rw [← hc, UInt8.ofNat_toNat], rfl⟩, rfl⟩
      · rintro ⟨l, ⟨h, rfl⟩ | ⟨b, _, _, rfl, h⟩, e⟩
        · rw [List.cons_append, List.cons.injEq] at e
          have := congrArg UInt8.toNat e.1
          rw [UInt8.toNat_ofNat'] at this
          omega
        · rw [List.cons_append, List.cons.injEq] at e
          have := congrArg UInt8.toNat e.1
          rw [UInt8.toNat_ofNat', Nat.mod_eq_of_lt (by omega)] at this
          exact ⟨b, by omega, e.2, h⟩
    by_cases h0 : c.toNat &&& 0x80 = 0
    · rw [if_pos h0]
      have hc := f1.1 h0
      constructor
      · intro h
        have h := Prod.mk.inj (Res.ok.inj h)
        refine ⟨[c], Or.inl ⟨by omega, by rw [← h.1, UInt8.ofNat_toNat]⟩, ?_⟩
        rw [← h.2]
        rfl
      · rintro ⟨l, ⟨h, rfl⟩ | ⟨b, _, _, rfl, h⟩, e⟩
        · rw [List.cons_append, List.cons.injEq] at e
          rw [e.1, e.2, UInt8.toNat_ofNat', Nat.mod_eq_of_lt (by omega)]
          rfl
        · rw [List.cons_append, List.cons.injEq] at e
          have := congrArg UInt8.toNat e.1
          rw [UInt8.toNat_ofNat', Nat.mod_eq_of_lt (by omega)] at this
          omega
    · rw [if_neg h0]
      have hc := f2 h0
      have hbad : ¬(1 ≤ (c.toNat &&& 0x7F) ∧ (c.toNat &&& 0x7F) ≤ 4) → ¬∃ l, Length l n ∧ c :: t = l ++ s := by
        rintro hx ⟨l, ⟨h, rfl⟩ | ⟨b, _, _, rfl, h⟩, e⟩
        · rw [List.cons_append, List.cons.injEq] at e
          have := congrArg UInt8.toNat e.1
          rw [UInt8.toNat_ofNat'] at this
          omega
        · rw [List.cons_append, List.cons.injEq] at e
          have := congrArg UInt8.toNat e.1
          rw [UInt8.toNat_ofNat', Nat.mod_eq_of_lt (by omega)] at this
          omega
      generalize c.toNat &&& 0x7F = k at hc hbad
      split
      · exact hk 1 (by omega) (by omega) hc
      · exact hk 2 (by omega) (by omega) hc
      · exact hk 3 (by omega) (by omega) hc
      · exact hk 4 (by omega) (by omega) hc
      · rename_i n1 n2 n3 n4
        refine ⟨fun h => (by cases h), fun h => absurd h (hbad ?_)⟩
        rintro ⟨_, _⟩
        have : k = 1 ∨ k = 2 ∨ k = 3 ∨ k = 4 := by omega
        rcases this with h | h | h | h
        · exact n1 h
        · exact n2 h
        · exact n3 h
        · exact n4 h

theorem getTag_iff {r s : Bytes} {t : UInt8} {n : Nat} : getTag r t = .ok (n, s) ↔ n ≤ s.length ∧ ∃ l, Length l n ∧ r = t :: (l ++ s) := by
  cases r with
  | nil =>
    constructor
    · intro h; cases h
    · rintro ⟨-, l, -, h⟩; cases h
  | cons c r =>
    unfold getTag
    rw [if_neg (by simp), show rd (c :: r) 0 = .ok c from rfl, Res.bind_ok, show List.drop 1 (c :: r) = r from rfl]
    by_cases hc : c ≠ t
    · rw [if_pos hc]
      constructor
      · intro h; cases h
      · rintro ⟨-, l, -, h⟩; exact absurd (List.cons.inj h).1 hc
    · rw [if_neg hc]
      have hc : c = t := not_not.1 hc
      subst hc
      unfold getLen
      rw [bind_iff]
      constructor
      · rintro ⟨⟨m, u⟩, h1, h2⟩
        unfold checkLen at h2
        by_cases hm : m > u.length
        · rw [if_pos hm] at h2; cases h2
        · rw [if_neg hm] at h2
          cases h2
          obtain ⟨l, hl, rfl⟩ := lenField_iff.1 h1
          exact ⟨by omega, l, hl, rfl⟩
      · rintro ⟨hn, l, hl, e⟩
        refine ⟨(n, s), lenField_iff.2 ⟨l, hl, (List.cons.inj e).2⟩, ?_⟩
        unfold checkLen
        rw [if_neg (by simp only; omega)]

/-- Reading an element: the content and what follows. -/
theorem getTag_element {r : Bytes} {t : UInt8} {n : Nat} {s : Bytes} : getTag r t = .ok (n, s) ↔
    ∃ c rest e, Element t c e ∧ r = e ++ rest ∧ n = c.length ∧ s = c ++ rest := by
  rw [getTag_iff]
  constructor
  · rintro ⟨hn, l, hl, rfl⟩
    refine ⟨s.take n, s.drop n, t :: (l ++ s.take n), ⟨l, ?_, rfl⟩, ?_, ?_, (List.take_append_drop n s).symm⟩
    · rwa [List.length_take, Nat.min_eq_left hn]
    · rw [List.cons_append, List.append_assoc, List.take_append_drop]
    · rw [List.length_take, Nat.min_eq_left hn]
  · rintro ⟨c, rest, e, ⟨l, hl, rfl⟩, rfl, rfl, rfl⟩
    refine ⟨by simp, l, hl, ?_⟩
    rw [List.cons_append, List.append_assoc]

theorem getMpi_iff {r s : Bytes} {x : Nat} : getMpi r = .ok (x, s) ↔ ∃ e, Number x e ∧ r = e ++ s := by
  unfold getMpi
  rw [bind_iff]
  constructor
  · rintro ⟨⟨n, u⟩, h1, h2⟩
    obtain ⟨c, rest, e, he, rfl, rfl, rfl⟩ := getTag_element.1 h1
    simp only at h2
    rw [takeN_ok (by simp), Res.bind_ok, List.take_left', mpiRead_eq] at h2
    · by_cases hx : beNat c < 256 ^ 80000
      · rw [if_pos hx] at h2
        have h2 := Prod.mk.inj (Res.ok.inj h2)
        refine ⟨e, ⟨c, he, h2.1, h2.1 ▸ hx⟩, ?_⟩
        rw [← h2.2, List.drop_left']
        rfl
      · rw [if_neg hx] at h2; cases h2
    · rfl
  · rintro ⟨e, ⟨c, he, rfl, hx⟩, rfl⟩
    refine ⟨(c.length, c ++ s), getTag_element.2 ⟨c, s, e, he, rfl, rfl, rfl⟩, ?_⟩
    simp only
    rw [takeN_ok (by simp), Res.bind_ok, List.take_left' rfl, mpiRead_eq, if_pos hx, List.drop_left' rfl]
    rfl

theorem getInt_iff {r s : Bytes} {v : Nat} : getInt r = .ok (v, s) ↔ ∃ e, Version v e ∧ r = e ++ s := by
  unfold getInt
  rw [bind_iff]
  constructor
  · rintro ⟨⟨n, u⟩, h1, h2⟩
    obtain ⟨c, rest, e, he, rfl, rfl, rfl⟩ := getTag_element.1 h1
    simp only at h2
    by_cases hn : c.length = 0 ∨ c.length > 4
    · rw [if_pos hn] at h2; cases h2
    · rw [if_neg hn] at h2
      match c, hn with
      | b :: c, hn =>
        rw [List.cons_append, show rd (b :: (c ++ rest)) 0 = .ok b from rfl, Res.bind_ok] at h2
        by_cases hb : b.toNat &&& 0x80 ≠ 0
        · rw [if_pos hb] at h2; cases h2
        · rw [if_neg hb, ← List.cons_append, takeN_ok (by simp), Res.bind_ok, fold_beNat, List.take_left' rfl, List.drop_left' rfl] at h2
          have h2 := Prod.mk.inj (Res.ok.inj h2)
          refine ⟨e, ⟨b, c, he, (byte_form _ b.toNat_lt).1.1 (not_not.1 hb), by simp at hn; omega, h2.1⟩, ?_⟩
          rw [← h2.2]
  · rintro ⟨e, ⟨b, c, he, hb, hc, rfl⟩, rfl⟩
    refine ⟨((b :: c).length, (b :: c) ++ s), getTag_element.2 ⟨b :: c, s, e, he, rfl, rfl, rfl⟩, ?_⟩
    simp only
    rw [if_neg (by simp; omega), List.cons_append, show rd (b :: (c ++ s)) 0 = .ok b from rfl, Res.bind_ok,
      if_neg (not_not.2 ((byte_form _ b.toNat_lt).1.2 hb)), ← List.cons_append, takeN_ok (by simp), Res.bind_ok, fold_beNat, List.take_left' rfl, List.drop_left' rfl]
    rfl

/-! ## Keys -/

/-- A private key: a sequence of the version 0 and eight numbers. -/
def PrivateKey (k : Rsa) (s : Priv) (e : Bytes) : Prop :=
  ∃ v n x d p q dp dq qp, Version 0 v ∧ Number k.N n ∧ Number k.E x ∧ Number s.D d ∧ Number s.P p ∧ Number s.Q q ∧ Number s.DP dp ∧ Number s.DQ dq ∧
    Number s.QP qp ∧ Element 0x30 (v ++ (n ++ (x ++ (d ++ (p ++ (q ++ (dp ++ (dq ++ qp)))))))) e

/-- A public key: a sequence of two numbers. -/
def PublicKey (k : Rsa) (e : Bytes) : Prop := ∃ n x, Number k.N n ∧ Number k.E x ∧ Element 0x30 (n ++ x) e

/-- **C120**: `pk_parse_key_pkcs1_der` accepts a byte string exactly if it begins with the encoding of a private key, in one of the forms of the grammar, that passes
the checks; what follows is ignored. The key that it returns has the numbers of the encoding. -/
theorem c120_private (key : Bytes) (k : Rsa) : parsePkcs1 key = .ok k ↔
    ∃ s e rest, key = e ++ rest ∧ PrivateKey k s e ∧ k.priv = some s ∧ k.len = mpiSize k.N ∧ k.blind = none ∧ checkPriv k = true := by
  unfold parsePkcs1
  constructor
  · intro h
    rw [bind_iff] at h
    obtain ⟨⟨m, u⟩, h0, h⟩ := h
    obtain ⟨c, rest, e, he, rfl, rfl, rfl⟩ := getTag_element.1 h0
    rw [bind_iff] at h
    obtain ⟨⟨v, u⟩, h1, h⟩ := h
    simp only [List.take_left' rfl] at h1
    obtain ⟨ev, hv, rfl⟩ := getInt_iff.1 h1
    by_cases hv0 : v ≠ 0
    · rw [if_pos hv0] at h; cases h
    rw [if_neg hv0] at h
    have hv0 : v = 0 := not_not.1 hv0
    subst hv0
    rw [bind_iff] at h
    obtain ⟨⟨n, u⟩, h2, h⟩ := h
    obtain ⟨en, hn, rfl⟩ := getMpi_iff.1 h2
    rw [bind_iff] at h
    obtain ⟨⟨x, u⟩, h2, h⟩ := h
    obtain ⟨ex, hx, rfl⟩ := getMpi_iff.1 h2
    rw [bind_iff] at h
    obtain ⟨⟨d, u⟩, h2, h⟩ := h
    obtain ⟨ed, hd, rfl⟩ := getMpi_iff.1 h2
    rw [bind_iff] at h
    obtain ⟨⟨p, u⟩, h2, h⟩ := h
    obtain ⟨ep, hp, rfl⟩ := getMpi_iff.1 h2
    rw [bind_iff] at h
    obtain ⟨⟨q, u⟩, h2, h⟩ := h
    obtain ⟨eq, hq, rfl⟩ := getMpi_iff.1 h2
    rw [bind_iff] at h
    obtain ⟨⟨dp, u⟩, h2, h⟩ := h
    obtain ⟨edp, hdp, rfl⟩ := getMpi_iff.1 h2
    rw [bind_iff] at h
    obtain ⟨⟨dq, u⟩, h2, h⟩ := h
    obtain ⟨edq, hdq, rfl⟩ := getMpi_iff.1 h2
    rw [bind_iff] at h
    obtain ⟨⟨qp, u⟩, h2, h⟩ := h
    obtain ⟨eqp, hqp, rfl⟩ := getMpi_iff.1 h2
    by_cases hu : u ≠ []
    · rw [if_pos hu] at h; cases h
    rw [if_neg hu] at h
    have hu : u = [] := not_not.1 hu
    subst hu
    simp only at h
    split at h
    · rename_i hc
      cases h
      rw [List.append_nil] at he
      exact ⟨_, e, rest, rfl, ⟨ev, en, ex, ed, ep, eq, edp, edq, eqp, hv, hn, hx, hd, hp, hq, hdp, hdq, hqp, he⟩, rfl, rfl, rfl, hc⟩
    · cases h
  · rintro ⟨s, e, rest, rfl, ⟨ev, en, ex, ed, ep, eq, edp, edq, eqp, hv, hn, hx, hd, hp, hq, hdp, hdq, hqp, he⟩, k1, k2, k3, hc⟩
    refine bind_iff.2 ⟨_, getTag_element.2 ⟨_, rest, e, he, rfl, rfl, rfl⟩, ?_⟩
    refine bind_iff.2 ⟨(0, _), by simp only [List.take_left' rfl]; exact getInt_iff.2 ⟨ev, hv, rfl⟩, ?_⟩
    rw [if_neg (by simp)]
    refine bind_iff.2 ⟨(_, _), getMpi_iff.2 ⟨en, hn, rfl⟩, ?_⟩
    refine bind_iff.2 ⟨(_, _), getMpi_iff.2 ⟨ex, hx, rfl⟩, ?_⟩
    refine bind_iff.2 ⟨(_, _), getMpi_iff.2 ⟨ed, hd, rfl⟩, ?_⟩
    refine bind_iff.2 ⟨(_, _), getMpi_iff.2 ⟨ep, hp, rfl⟩, ?_⟩
    refine bind_iff.2 ⟨(_, _), getMpi_iff.2 ⟨eq, hq, rfl⟩, ?_⟩
    refine bind_iff.2 ⟨(_, _), getMpi_iff.2 ⟨edp, hdp, rfl⟩, ?_⟩
    refine bind_iff.2 ⟨(_, _), getMpi_iff.2 ⟨edq, hdq, rfl⟩, ?_⟩
    refine bind_iff.2 ⟨(_, []), getMpi_iff.2 ⟨eqp, hqp, (List.append_nil _).symm⟩, ?_⟩
    rw [if_neg (by simp)]
    have hk : ({ len := mpiSize k.N, N := k.N, E := k.E, priv := some { D := s.D, P := s.P, Q := s.Q, DP := s.DP, DQ := s.DQ, QP := s.QP }, blind := none } : Rsa) = k := by
      cases k
      simp only at k1 k2 k3 ⊢
      subst k1 k2 k3
      rfl
    simp only [hk, hc, if_true]

/-- **C120**: `pk_get_rsapubkey`: here nothing may follow. -/
theorem c120_public (key : Bytes) (k : Rsa) : getRsaPubkey key = .ok k ↔
    PublicKey k key ∧ k.priv = none ∧ k.len = mpiSize k.N ∧ k.blind = none ∧ checkPub k = true := by
  unfold getRsaPubkey
  constructor
  · intro h
    rw [bind_iff] at h
    obtain ⟨⟨m, u⟩, h0, h⟩ := h
    obtain ⟨c, rest, e, he, rfl, rfl, rfl⟩ := getTag_element.1 h0
    simp only at h
    by_cases hl : c.length ≠ (c ++ rest).length
    · rw [if_pos hl] at h; cases h
    rw [if_neg hl] at h
    have hr : rest = [] := List.length_eq_zero_iff.1 (by simp at hl; simpa using hl)
    subst hr
    rw [List.append_nil] at h ⊢
    rw [bind_iff] at h
    obtain ⟨⟨n, u⟩, h2, h⟩ := h
    obtain ⟨en, hn, rfl⟩ := getMpi_iff.1 h2
    rw [bind_iff] at h
    obtain ⟨⟨x, u⟩, h2, h⟩ := h
    obtain ⟨ex, hx, rfl⟩ := getMpi_iff.1 h2
    by_cases hu : u ≠ []
    · rw [if_pos hu] at h; cases h
    rw [if_neg hu] at h
    have hu : u = [] := not_not.1 hu
    subst hu
    simp only at h
    split at h
    · rename_i hc
      cases h
      rw [List.append_nil] at he
      exact ⟨⟨en, ex, hn, hx, he⟩, rfl, rfl, rfl, hc⟩
    · cases h
  · rintro ⟨⟨en, ex, hn, hx, he⟩, k1, k2, k3, hc⟩
    refine bind_iff.2 ⟨_, getTag_element.2 ⟨_, [], key, he, (List.append_nil _).symm, rfl, rfl⟩, ?_⟩
    rw [if_neg (by simp)]
    simp only [List.append_nil]
    refine bind_iff.2 ⟨(_, _), getMpi_iff.2 ⟨en, hn, rfl⟩, ?_⟩
    refine bind_iff.2 ⟨(_, []), getMpi_iff.2 ⟨ex, hx, (List.append_nil _).symm⟩, ?_⟩
    rw [if_neg (by simp)]
    have hk : ({ len := mpiSize k.N, N := k.N, E := k.E, priv := none, blind := none } : Rsa) = k := by
      cases k
      simp only at k1 k2 k3 ⊢
      subst k1 k2 k3
      rfl
    simp only [hk, hc, if_true]

/-- The identifier of RSA, with parameters that are missing or empty. -/
def Algorithm (e : Bytes) : Prop :=
  ∃ o par t, Element 0x06 rsaOid o ∧ (par = [] ∨ Element t [] par ∧ (t = 0x05 ∨ t = 0)) ∧ Element 0x30 (o ++ par) e

/-- A public key with its algorithm. -/
def SubjectKey (k : Rsa) (e : Bytes) : Prop :=
  ∃ alg key bits, Algorithm alg ∧ PublicKey k key ∧ Element 0x03 (0 :: key) bits ∧ Element 0x30 (alg ++ bits) e

/-- A private key with its algorithm; attributes may follow, and there may be bytes behind the key. -/
def WrappedKey (k : Rsa) (s : Priv) (e : Bytes) : Prop :=
  ∃ v alg key tail oct attr, Version 0 v ∧ Algorithm alg ∧ PrivateKey k s key ∧ Element 0x04 (key ++ tail) oct ∧
    Element 0x30 (v ++ (alg ++ (oct ++ attr))) e

theorem Element.cons {t : UInt8} {c e : Bytes} (h : Element t c e) : ∃ r, e = t :: r := by
  obtain ⟨l, -, rfl⟩ := h
  exact ⟨_, rfl⟩

theorem getParams_iff {oid r after p : Bytes} : (∃ a, getParams oid r after = .ok (a, p) ∧ a.oid = rsaOid ∧ (a.ptag = 0x05 ∨ a.ptag = 0) ∧ a.plen = 0) ↔
    oid = rsaOid ∧ p = after ∧ (r = [] ∨ ∃ t, Element t [] r ∧ (t = 0x05 ∨ t = 0)) := by
  unfold getParams
  cases r with
  | nil =>
    rw [if_pos rfl]
    constructor
    · rintro ⟨a, h, h1, -, -⟩
      cases h
      exact ⟨h1, rfl, Or.inl rfl⟩
    · rintro ⟨rfl, rfl, -⟩
      exact ⟨_, rfl, rfl, Or.inr rfl, rfl⟩
  | cons t r =>
    rw [if_neg (by simp), show rd (t :: r) 0 = .ok t from rfl, Res.bind_ok, show List.drop 1 (t :: r) = r from rfl]
    have hg : getLen r = getTag (t :: r) t := by
      unfold getTag
      rw [if_neg (by simp), show rd (t :: r) 0 = .ok t from rfl, Res.bind_ok, if_neg (by simp)]
      rfl
    rw [hg]
    constructor
    · rintro ⟨a, h, h1, h2, h3⟩
      rw [bind_iff] at h
      obtain ⟨⟨n, u⟩, h4, h⟩ := h
      obtain ⟨c, rest, e, he, e1, rfl, rfl⟩ := getTag_element.1 h4
      simp only [List.drop_left' rfl] at h
      by_cases hr : rest ≠ []
      · rw [if_pos hr] at h; cases h
      · rw [if_neg hr] at h
        cases h
        have hr : rest = [] := not_not.1 hr
        subst hr
        have hc : c = [] := List.length_eq_zero_iff.1 h3
        subst hc
        rw [List.append_nil] at e1
        exact ⟨h1, rfl, Or.inr ⟨t, e1 ▸ he, h2⟩⟩
    · rintro ⟨rfl, rfl, h | ⟨t', h, ht⟩⟩
      · cases h
      · obtain ⟨x, hx⟩ := h.cons
        obtain ⟨rfl, rfl⟩ := List.cons.inj hx
        refine ⟨⟨rsaOid, t, 0⟩, bind_iff.2 ⟨(0, []), getTag_element.2 ⟨[], [], _, h, (List.append_nil _).symm, rfl, rfl⟩, rfl⟩, rfl, ht, rfl⟩

theorem getPkAlg_iff {r p : Bytes} : getPkAlg r = .ok p ↔ ∃ e, Algorithm e ∧ r = e ++ p := by
  have hsplit : getPkAlg r = .ok p ↔ ∃ a, getAlg r = .ok (a, p) ∧ a.oid = rsaOid ∧ (a.ptag = 0x05 ∨ a.ptag = 0) ∧ a.plen = 0 := by
    unfold getPkAlg
    rw [bind_iff]
    constructor
    · rintro ⟨⟨a, q⟩, h1, h2⟩
      simp only at h2
      split at h2
      · cases h2
      · split at h2
        · cases h2
        · rename_i g1 g2
          cases h2
          refine ⟨a, h1, by tauto, by tauto, by tauto⟩
    · rintro ⟨a, h1, h2, h3, h4⟩
      refine ⟨(a, p), h1, ?_⟩
      simp only
      rw [if_neg (by rw [h2]; decide), if_neg (by tauto)]
  rw [hsplit]
  unfold getAlg
  constructor
  · rintro ⟨a, h, ha⟩
    rw [bind_iff] at h
    obtain ⟨⟨n, u⟩, h1, h⟩ := h
    obtain ⟨c, rest, e, he, rfl, rfl, rfl⟩ := getTag_element.1 h1
    simp only [List.take_left' rfl, List.drop_left' rfl] at h
    split at h
    · cases h
    rw [bind_iff] at h
    obtain ⟨_, -, h⟩ := h
    rw [bind_iff] at h
    obtain ⟨⟨n, u⟩, h2, h⟩ := h
    obtain ⟨oid, par, o, ho, rfl, rfl, rfl⟩ := getTag_element.1 h2
    simp only at h
    rw [takeN_ok (by simp), Res.bind_ok, List.take_left' rfl, List.drop_left' rfl] at h
    obtain ⟨g1, rfl, g3⟩ := getParams_iff.1 ⟨a, h, ha⟩
    subst g1
    refine ⟨e, ?_, rfl⟩
    rcases g3 with rfl | ⟨t, ht⟩
    · exact ⟨o, [], 0, ho, Or.inl rfl, he⟩
    · exact ⟨o, par, t, ho, Or.inr ht, he⟩
  · rintro ⟨e, ⟨o, par, t, ho, hp, he⟩, rfl⟩
    obtain ⟨a, h1, h2⟩ := (getParams_iff (oid := rsaOid) (r := par) (after := p) (p := p)).2 ⟨rfl, rfl, hp.imp id fun h => ⟨t, h⟩⟩
    refine ⟨a, bind_iff.2 ⟨_, getTag_element.2 ⟨_, p, e, he, rfl, rfl, rfl⟩, ?_⟩, h2⟩
    obtain ⟨x, hx⟩ := ho.cons
    simp only [List.take_left' rfl, List.drop_left' rfl]
    rw [if_neg (by rw [hx]; simp)]
    refine bind_iff.2 ⟨0x06, by rw [hx]; rfl, ?_⟩
    refine bind_iff.2 ⟨_, getTag_element.2 ⟨rsaOid, par, o, ho, rfl, rfl, rfl⟩, ?_⟩
    simp only
    rw [takeN_ok (by simp), Res.bind_ok, List.take_left' rfl, List.drop_left' rfl]
    exact h1

/-- **C120**: `mbedtls_pk_parse_subpubkey` accepts a byte string exactly if it begins with the encoding of a public key and its algorithm; what follows is
ignored. -/
theorem c120_subject (r : Bytes) (k : Rsa) : parseSubpubkey r = .ok k ↔
    ∃ e rest, r = e ++ rest ∧ SubjectKey k e ∧ k.priv = none ∧ k.len = mpiSize k.N ∧ k.blind = none ∧ checkPub k = true := by
  unfold parseSubpubkey getBits
  constructor
  · intro h
    rw [bind_iff] at h
    obtain ⟨⟨m, u⟩, h0, h⟩ := h
    obtain ⟨c, rest, e, he, rfl, rfl, rfl⟩ := getTag_element.1 h0
    simp only [List.take_left' rfl] at h
    rw [bind_iff] at h
    obtain ⟨p, h1, h⟩ := h
    obtain ⟨alg, ha, rfl⟩ := getPkAlg_iff.1 h1
    rw [bind_iff] at h
    obtain ⟨⟨m, u⟩, h2, h⟩ := h
    rw [bind_iff] at h2
    obtain ⟨⟨m', u'⟩, h3, h2⟩ := h2
    obtain ⟨b, rest', bits, hb, rfl, rfl, rfl⟩ := getTag_element.1 h3
    simp only at h2 h
    split at h2
    · cases h2
    rename_i hb2
    match b, hb2 with
    | x :: b, hb2 =>
      rw [List.cons_append, show rd (x :: (b ++ rest')) 0 = .ok x from rfl, Res.bind_ok] at h2
      split at h2
      · cases h2
      rename_i hx
      have hx : x = 0 := not_not.1 hx
      subst hx
      have h2 := Prod.mk.inj (Res.ok.inj h2)
      rw [← h2.1, ← h2.2] at h
      split at h
      · cases h
      rename_i hl
      have hr : rest' = [] := List.length_eq_zero_iff.1 (by
        have hl := not_not.1 hl
        rw [List.length_cons, List.drop_succ_cons, List.drop_zero, List.length_append] at hl
        omega)
      subst hr
      rw [List.append_nil] at h he
      obtain ⟨g1, g2⟩ := (c120_public _ k).1 h
      rw [List.drop_succ_cons, List.drop_zero] at g1
      exact ⟨e, rest, rfl, ⟨alg, b, bits, ha, g1, hb, he⟩, g2⟩
  · rintro ⟨e, rest, rfl, ⟨alg, key, bits, ha, hk, hb, he⟩, hc⟩
    refine bind_iff.2 ⟨_, getTag_element.2 ⟨_, rest, e, he, rfl, rfl, rfl⟩, ?_⟩
    simp only [List.take_left' rfl]
    refine bind_iff.2 ⟨bits, getPkAlg_iff.2 ⟨alg, ha, rfl⟩, ?_⟩
    have hkey : key ≠ [] := by
      obtain ⟨_, _, -, -, h⟩ := hk
      obtain ⟨x, rfl⟩ := h.cons
      simp
    have hpos : 0 < key.length := List.length_pos_iff.2 hkey
    refine bind_iff.2 ⟨(key.length, key), bind_iff.2 ⟨_, getTag_element.2 ⟨_, [], bits, hb, (List.append_nil _).symm, rfl, rfl⟩, ?_⟩, ?_⟩
    · simp only [List.append_nil]
      rw [if_neg (by simp; omega), show rd (0 :: key) 0 = .ok 0 from rfl, Res.bind_ok, if_neg (by simp)]
      simp
    · simp only
      rw [if_neg (by simp)]
      exact (c120_public key k).2 ⟨hk, hc⟩

/-- **C120**: `pk_parse_key_pkcs8_unencrypted_der`. -/
theorem c120_pkcs8 (r : Bytes) (k : Rsa) : parsePkcs8 r = .ok k ↔
    ∃ s e rest, r = e ++ rest ∧ WrappedKey k s e ∧ k.priv = some s ∧ k.len = mpiSize k.N ∧ k.blind = none ∧ checkPriv k = true := by
  unfold parsePkcs8
  constructor
  · intro h
    rw [bind_iff] at h
    obtain ⟨⟨m, u⟩, h0, h⟩ := h
    obtain ⟨c, rest, e, he, rfl, rfl, rfl⟩ := getTag_element.1 h0
    simp only [List.take_left' rfl] at h
    rw [bind_iff] at h
    obtain ⟨⟨v, u⟩, h1, h⟩ := h
    obtain ⟨ev, hv, rfl⟩ := getInt_iff.1 h1
    by_cases hv0 : v ≠ 0
    · rw [if_pos hv0] at h; cases h
    rw [if_neg hv0] at h
    have hv0 : v = 0 := not_not.1 hv0
    subst hv0
    rw [bind_iff] at h
    obtain ⟨p, h1, h⟩ := h
    obtain ⟨alg, ha, e1⟩ := getPkAlg_iff.1 h1
    simp only at e1
    subst e1
    rw [bind_iff] at h
    obtain ⟨⟨m, u⟩, h2, h⟩ := h
    obtain ⟨o, attr, oct, ho, rfl, rfl, rfl⟩ := getTag_element.1 h2
    simp only at h
    split at h
    · cases h
    rw [takeN_ok (by simp), Res.bind_ok, List.take_left' rfl] at h
    obtain ⟨s, key, tail, rfl, g1, g2⟩ := (c120_private o k).1 h
    exact ⟨s, e, rest, rfl, ⟨ev, alg, key, tail, oct, attr, hv, ha, g1, ho, he⟩, g2⟩
  · rintro ⟨s, e, rest, rfl, ⟨ev, alg, key, tail, oct, attr, hv, ha, hk, ho, he⟩, hc⟩
    refine bind_iff.2 ⟨_, getTag_element.2 ⟨_, rest, e, he, rfl, rfl, rfl⟩, ?_⟩
    simp only [List.take_left' rfl]
    refine bind_iff.2 ⟨(0, _), getInt_iff.2 ⟨ev, hv, rfl⟩, ?_⟩
    rw [if_neg (by simp)]
    refine bind_iff.2 ⟨oct ++ attr, getPkAlg_iff.2 ⟨alg, ha, rfl⟩, ?_⟩
    refine bind_iff.2 ⟨_, getTag_element.2 ⟨_, attr, oct, ho, rfl, rfl, rfl⟩, ?_⟩
    have hpos : 0 < key.length := by
      obtain ⟨_, _, _, _, _, _, _, _, _, -, -, -, -, -, -, -, -, -, h⟩ := hk
      obtain ⟨x, rfl⟩ := h.cons
      simp
    simp only
    rw [if_neg (by rw [List.length_append]; omega), takeN_ok (by simp), Res.bind_ok, List.take_left' rfl]
    exact (c120_private _ k).2 ⟨s, key, tail, rfl, hk, hc⟩

/-- No byte string is both. -/
theorem not_both {r : Bytes} {k k' : Rsa} (h1 : parsePkcs1 r = .ok k) (h8 : parsePkcs8 r = .ok k') : False := by
  unfold parsePkcs1 at h1
  unfold parsePkcs8 at h8
  rw [bind_iff] at h1 h8
  obtain ⟨a, ha, h1⟩ := h1
  obtain ⟨a', ha', h8⟩ := h8
  rw [ha] at ha'
  cases ha'
  rw [bind_iff] at h1 h8
  obtain ⟨v, hv, h1⟩ := h1
  obtain ⟨v', hv', h8⟩ := h8
  rw [hv] at hv'
  cases hv'
  split at h1
  · cases h1
  split at h8
  · cases h8
  rw [bind_iff] at h1 h8
  obtain ⟨⟨n, u⟩, hn, -⟩ := h1
  obtain ⟨p, hp, -⟩ := h8
  obtain ⟨e, ⟨c, he, -⟩, e1⟩ := getMpi_iff.1 hn
  obtain ⟨alg, ⟨_, _, _, -, -, he'⟩, e2⟩ := getPkAlg_iff.1 hp
  obtain ⟨x, rfl⟩ := he.cons
  obtain ⟨y, rfl⟩ := he'.cons
  rw [e1, List.cons_append, List.cons_append, List.cons.injEq] at e2
  exact absurd e2.1 (by decide)

/-- **C120**: the private keys that are accepted without PEM armour: both forms, and no others. -/
theorem c120_der (r : Bytes) (k : Rsa) : parseDer r = .ok k ↔
    ∃ s e rest, r = e ++ rest ∧ (PrivateKey k s e ∨ WrappedKey k s e) ∧ k.priv = some s ∧ k.len = mpiSize k.N ∧ k.blind = none ∧ checkPriv k = true := by
  have key : parseDer r = .ok k ↔ parsePkcs1 r = .ok k ∨ parsePkcs8 r = .ok k := by
    unfold parseDer
    rcases parsePkcs8_safe r with h8 | ⟨N, E, s, h8, -⟩
    · rw [h8]
      rcases parsePkcs1_safe r with h1 | ⟨N, E, s, h1, -⟩
      · rw [h1]
        exact ⟨fun h => (by cases h), fun h => h.elim (fun h => by cases h) fun h => by cases h⟩
      · rw [h1]
        exact ⟨fun h => Or.inl h, fun h => h.elim id fun h => by cases h⟩
    · rw [h8]
      exact ⟨fun h => Or.inr h, fun h => h.elim (fun h => (not_both h h8).elim) id⟩
  rw [key, c120_private, c120_pkcs8]
  constructor
  · rintro (⟨s, e, rest, h1, h2, h3⟩ | ⟨s, e, rest, h1, h2, h3⟩)
    · exact ⟨s, e, rest, h1, Or.inl h2, h3⟩
    · exact ⟨s, e, rest, h1, Or.inr h2, h3⟩
  · rintro ⟨s, e, rest, h1, h2 | h2, h3⟩
    · exact Or.inl ⟨s, e, rest, h1, h2, h3⟩
    · exact Or.inr ⟨s, e, rest, h1, h2, h3⟩

/-- **C120**, what DER forbids and the code accepts: bytes behind the key do not change it. -/
theorem c120_trailing (r t : Bytes) (k : Rsa) :
    (parseDer r = .ok k → parseDer (r ++ t) = .ok k) ∧ (parseSubpubkey r = .ok k → parseSubpubkey (r ++ t) = .ok k) := by
  constructor
  · intro h
    obtain ⟨s, e, rest, rfl, h'⟩ := (c120_der r k).1 h
    exact (c120_der _ k).2 ⟨s, e, rest ++ t, List.append_assoc _ _ _, h'⟩
  · intro h
    obtain ⟨e, rest, rfl, h'⟩ := (c120_subject r k).1 h
    exact (c120_subject _ k).2 ⟨e, rest ++ t, List.append_assoc _ _ _, h'⟩

theorem beNat_zeros (z : Nat) (b : Bytes) : beNat (List.replicate z 0 ++ b) = beNat b := by
  induction z with
  | zero => rfl
  | succ z ih =>
    rw [List.replicate_succ, List.cons_append, beNat_cons, ih, show (0 : UInt8).toNat = 0 from rfl, Nat.zero_mul, Nat.zero_add]

/-- **C120**, what DER forbids and the code accepts: zeros in front of a number, in any number, and lengths in the long form. -/
theorem c120_zeros (x z : Nat) (hx : x < 256 ^ 80000) (hz : z < 2 ^ 31) :
    ∃ e, Number x e ∧ e = 0x02 :: 0x84 :: (beBytes 4 (z + 80000) ++ (List.replicate z 0 ++ beBytes 80000 x)) := by
  have hl : (List.replicate z (0 : UInt8) ++ beBytes 80000 x).length = z + 80000 := by
    rw [List.length_append, List.length_replicate, beBytes_length]
  refine ⟨_, ⟨_, ⟨0x84 :: beBytes 4 (z + 80000), Or.inr ⟨beBytes 4 (z + 80000), ?_, ?_, ?_, ?_⟩, rfl⟩, ?_, hx⟩, rfl⟩
  · rw [beBytes_length]; decide
  · rw [beBytes_length]
  · rw [beBytes_length]; rfl
  · rw [hl, beNat_beBytes_of_lt (by omega)]
  · rw [beNat_zeros, beNat_beBytes_of_lt hx]

/-! ## Cases -/

/-- Five forms of the number 5. -/
example : Number 5 [2, 1, 5] ∧ Number 5 [2, 2, 0, 5] ∧ Number 5 [2, 0x81, 1, 5] ∧ Number 5 [2, 0x82, 0, 2, 0, 5] ∧ Number 5 [2, 3, 0, 0, 5] :=
  have h : 5 < 256 ^ 80000 := by decide +kernel
  ⟨⟨[5], ⟨[1], Or.inl ⟨by decide, rfl⟩, rfl⟩, rfl, h⟩, ⟨[0, 5], ⟨[2], Or.inl ⟨by decide, rfl⟩, rfl⟩, rfl, h⟩,
    ⟨[5], ⟨[0x81, 1], Or.inr ⟨[1], by decide, by decide, rfl, rfl⟩, rfl⟩, rfl, h⟩,
    ⟨[0, 5], ⟨[0x82, 0, 2], Or.inr ⟨[0, 2], by decide, by decide, rfl, rfl⟩, rfl⟩, rfl, h⟩, ⟨[0, 0, 5], ⟨[3], Or.inl ⟨by decide, rfl⟩, rfl⟩, rfl, h⟩⟩

/-- The encoding of -56 is read as 200. -/
example : Number 200 [2, 1, 200] := ⟨[200], ⟨[1], Or.inl ⟨by decide, rfl⟩, rfl⟩, rfl, by decide +kernel⟩

/-- The example key has an encoding, and is read from it. -/
example : ∃ e, PrivateKey exKey exPriv e ∧ parseDer (e ++ [1, 2, 3]) = .ok exKey := by
  have h := parsePkcs1_spec (N := exKey.N) (E := exKey.E) (s := exPriv) ⟨by decide +kernel, by decide +kernel⟩ ⟨by decide +kernel, by decide +kernel⟩
    ⟨by decide +kernel, by decide +kernel⟩ ⟨by decide +kernel, by decide +kernel⟩ ⟨by decide +kernel, by decide +kernel⟩ ⟨by decide +kernel, by decide +kernel⟩
    ⟨by decide +kernel, by decide +kernel⟩ ⟨by decide +kernel, by decide +kernel⟩
  have hk : mkPriv exKey.N exKey.E exPriv = exKey := by
    have : mpiSize exKey.N = 256 := by decide +kernel
    unfold mkPriv
    rw [this]
    rfl
  rw [hk, if_pos exKey_check] at h
  obtain ⟨s, e, rest, -, h1, h2, h3⟩ := (c120_private _ exKey).1 h
  cases h2
  exact ⟨e, h1, (c120_der _ exKey).2 ⟨exPriv, e, [1, 2, 3], rfl, Or.inl h1, rfl, h3⟩⟩

end Verif.Io.Der
