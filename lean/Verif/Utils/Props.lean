import Verif.Utils.Model

/-!
# Substring search: theorems (C43, and the wrapper-level part of C42)
-/

namespace Verif.Utils

open Verif

/-! ## Specification -/

/-- `t` occurs in `s` at position `i`. -/
def OccursAt (s t : Bytes) (i : Nat) : Prop := ∃ a b, s = a ++ t ++ b ∧ a.length = i

/-- `i` is the first position at which `t` occurs in `s`. -/
def FirstAt (s t : Bytes) (i : Nat) : Prop := OccursAt s t i ∧ ∀ j, OccursAt s t j → i ≤ j

theorem occursAt_iff (s t : Bytes) (i : Nat) : OccursAt s t i ↔ i + t.length ≤ s.length ∧ ∀ j, j < t.length → s[i + j]? = t[j]? := by
  constructor
  · rintro ⟨a, b, rfl, rfl⟩
    refine ⟨by simp, ?_⟩
    intro j hj
    rw [List.append_assoc, List.getElem?_append_right (by omega), Nat.add_sub_cancel_left, List.getElem?_append_left hj]
  · rintro ⟨h1, h2⟩
    refine ⟨s.take i, s.drop (i + t.length), ?_, by simp; omega⟩
    have : (s.drop i).take t.length = t := by
      apply List.ext_getElem?
      intro j
      by_cases hj : j < t.length
      · rw [List.getElem?_take_of_lt hj, List.getElem?_drop, h2 j hj]
      · rw [List.getElem?_eq_none (by simp; omega), List.getElem?_eq_none (by omega)]
    calc s = s.take i ++ s.drop i := (List.take_append_drop i s).symm
      _ = s.take i ++ ((s.drop i).take t.length ++ (s.drop i).drop t.length) := by
        rw [List.take_append_drop t.length (s.drop i), List.take_append_drop]
      _ = _ := by rw [this, List.drop_drop, List.append_assoc]

/-! ## The loop -/

theorem subW_eq {i j : Nat} (h : j ≤ i) (hi : i < W64) : subW i j = i - j := by
  unfold subW; omega

/-- Number of loop tests that suffice from start position `p` with `j` bytes matched. -/
def need (s t : Bytes) (p j : Nat) : Nat := (s.length + 1 - p) * (t.length + 1) + (t.length + 1 - j)

theorem searchLoop_spec (s t : Bytes) (ht : t ≠ []) (hs : s.length + 1 < W64) (htl : t.length < W64) (hsum : s.length + t.length + 1 < W64) :
    ∀ (fuel p j : Nat), need s t p j ≤ fuel → j < t.length → p + j ≤ s.length + 1 →
    (∀ q, q < j → s[p + q]? = t[q]?) → (∀ q, q < p → ¬ OccursAt s t q) →
    (∃ i, searchLoop s t fuel (p + j) j = some (.ok (some i)) ∧ FirstAt s t i) ∨
    (searchLoop s t fuel (p + j) j = some (.ok none) ∧ ∀ i, ¬ OccursAt s t i) := by
  have htp : 0 < t.length := List.length_pos_iff.2 ht
  intro fuel
  induction fuel with
  | zero =>
    intro p j hf hj hp hm hno
    unfold need at hf
    omega
  | succ fuel ih =>
    intro p j hf hj hp hm hno
    rw [searchLoop]
    have e1 : subW (p + j) j = p := by rw [subW_eq (by omega) (by omega)]; omega
    rw [e1]
    by_cases hc : (p + t.length) % W64 ≤ s.length
    · have hc' : p + t.length ≤ s.length := by
        have : (p + t.length) % W64 = p + t.length := Nat.mod_eq_of_lt (by omega)
        omega
      rw [if_pos hc]
      have hi : p + j < s.length := by omega
      rw [List.getElem?_eq_getElem hi, List.getElem?_eq_getElem hj]
      simp only
      by_cases hab : s[p + j] = t[j]
      · rw [if_pos hab]
        have ej : (j + 1) % W64 = j + 1 := Nat.mod_eq_of_lt (by omega)
        rw [ej]
        have hm' : ∀ q, q < j + 1 → s[p + q]? = t[q]? := by
          intro q hq
          by_cases hq' : q < j
          · exact hm q hq'
          · have : q = j := by omega
            subst this
            rw [List.getElem?_eq_getElem hi, List.getElem?_eq_getElem hj, hab]
        by_cases hfin : j + 1 = t.length
        · rw [if_pos hfin]
          left
          refine ⟨p, ?_, ?_, ?_⟩
          · by_cases hp0 : p = 0
            · subst hp0
              have : (subW (0 + j) (j + 1) + 1) % W64 = 0 := by unfold subW; omega
              rw [this]
            · have : (subW (p + j) (j + 1) + 1) % W64 = p := by
                rw [subW_eq (by omega) (by omega)]; omega
              rw [this]
          · rw [occursAt_iff]
            exact ⟨hc', fun q hq => hm' q (by omega)⟩
          · intro q hq
            by_cases h : p ≤ q
            · exact h
            · exact absurd hq (hno q (by omega))
        · rw [if_neg hfin]
          have ei : (p + j + 1) % W64 = p + (j + 1) := by rw [Nat.mod_eq_of_lt (by omega)]; omega
          rw [ei]
          apply ih p (j + 1) _ (by omega) (by omega) hm' hno
          unfold need at hf ⊢
          omega
      · rw [if_neg hab]
        have ei : (p + 1) % W64 = p + 1 + 0 := by rw [Nat.mod_eq_of_lt (by omega)]
        rw [ei]
        apply ih (p + 1) 0 _ htp (by omega) (fun q hq => absurd hq (by omega))
        · intro q hq hocc
          by_cases hq' : q < p
          · exact hno q hq' hocc
          · have : q = p := by omega
            subst this
            rw [occursAt_iff] at hocc
            have := hocc.2 j hj
            rw [List.getElem?_eq_getElem hi, List.getElem?_eq_getElem hj] at this
            exact hab (Option.some.inj this)
        · unfold need at hf ⊢
          have : s.length + 1 - p = (s.length + 1 - (p + 1)) + 1 := by omega
          rw [this, Nat.add_mul] at hf
          omega
    · rw [if_neg hc]
      right
      refine ⟨rfl, ?_⟩
      intro i hi
      rw [occursAt_iff] at hi
      have hc' : ¬ p + t.length ≤ s.length := by
        intro h
        rw [Nat.mod_eq_of_lt (by omega)] at hc
        exact hc h
      exact hno i (by omega) ((occursAt_iff _ _ _).2 hi)

/-- **C43**: `strstrn_uint8` ends, reads only inside the two buffers, and returns the first position at which the second
string occurs in the first, or null when it does not occur. (The two buffers fit in the address space together.) -/
theorem c43_first (s t : Bytes) (hmem : s.length + t.length + 1 < W64) (fuel : Nat) (hf : enough s t ≤ fuel) :
    (∃ i, strstrn fuel s t = some (.ok (some i)) ∧ FirstAt s t i) ∨
    (strstrn fuel s t = some (.ok none) ∧ ∀ i, ¬ OccursAt s t i) := by
  unfold strstrn
  by_cases ht : t.length = 0
  · rw [if_pos ht]
    left
    have : t = [] := List.eq_nil_of_length_eq_zero ht
    subst this
    exact ⟨0, rfl, ⟨[], s, by simp, rfl⟩, fun j _ => Nat.zero_le j⟩
  · rw [if_neg ht]
    by_cases hs : s.length = 0
    · rw [if_pos hs]
      right
      refine ⟨rfl, ?_⟩
      rintro i ⟨a, b, rfl, _⟩
      simp at hs
      exact ht (by simp [hs.2.1])
    · rw [if_neg hs]
      have ht' : t ≠ [] := by intro h; subst h; exact ht rfl
      have := searchLoop_spec s t ht' (by omega) (by omega) hmem fuel 0 0 ?_ (by omega) (by omega)
        (fun q hq => absurd hq (by omega)) (fun q hq => absurd hq (by omega))
      · simpa using this
      · unfold need enough at *
        rw [Nat.sub_zero, Nat.sub_zero]
        have : (s.length + 2) * (t.length + 1) = (s.length + 1) * (t.length + 1) + (t.length + 1) := by
          rw [show s.length + 2 = (s.length + 1) + 1 from rfl, Nat.add_mul, Nat.one_mul]
        omega

example : strstrn 100 [1, 1, 2, 1, 1, 3] [1, 1, 3] = some (.ok (some 3)) ∧ strstrn 100 [1, 1, 2] [2, 1] = some (.ok none) := by
  decide +kernel

/-! ## TDP inverse: serialization at the wrapper level -/

theorem keySuffix_length : keySuffix.length = 29 := by decide +kernel

/-- What the exported private keys look like: a non-empty text without the end marker, the end marker, a line feed. -/
def PemShape (p : Bytes) : Prop := ∃ body, p = body ++ keySuffix ++ [0x0a] ∧ body ≠ [] ∧ ∀ i, OccursAt (body ++ keySuffix) keySuffix i → body.length ≤ i

theorem occursAt_prefix {s t r : Bytes} {i : Nat} (h : OccursAt s t i) : OccursAt (s ++ r) t i := by
  obtain ⟨a, b, rfl, rfl⟩ := h
  exact ⟨a, b ++ r, by simp, rfl⟩

theorem occursAt_restrict {s t r : Bytes} {i : Nat} (h : OccursAt (s ++ r) t i) (hl : i + t.length ≤ s.length) : OccursAt s t i := by
  rw [occursAt_iff] at h ⊢
  refine ⟨hl, ?_⟩
  intro j hj
  rw [← h.2 j hj, List.getElem?_append_left (by omega)]

/-- **C42** (wrapper-level part): if the exported text has the PEM shape and importing it without its final line feed gives
a key, then deserializing the exported text followed by anything gives that key and reports exactly the number of
bytes that were written. -/
theorem c42_deserialize_serialize {K L : Type} (pem : K → Bytes) (parse : Bytes → Res L) (k : K) (k' : L) (rest : Bytes)
    (hshape : PemShape (pem k)) (hparse : ∀ body, pem k = body ++ [0x0a] → parse body = .ok k')
    (hmem : (pem k).length + rest.length + 30 < W64) (fuel : Nat) (hf : enough (serializeInverse pem k ++ rest) keySuffix ≤ fuel) :
    deserializeInverse parse fuel (serializeInverse pem k ++ rest) = some (.ok (k', (pem k).length)) := by
  obtain ⟨body, hp, hne, hfirst⟩ := hshape
  unfold serializeInverse at *
  have hpl : (pem k).length = body.length + 30 := by rw [hp]; simp [keySuffix_length]
  have hocc : OccursAt (pem k ++ rest) keySuffix body.length := ⟨body, [0x0a] ++ rest, by rw [hp]; simp, rfl⟩
  have hpos : strstrn fuel (pem k ++ rest) keySuffix = some (.ok (some body.length)) := by
    rcases c43_first (pem k ++ rest) keySuffix (by simp [keySuffix_length]; omega) fuel hf with ⟨i, h1, h2, h3⟩ | ⟨_, h⟩
    · have hi := h3 _ hocc
      have : OccursAt (body ++ keySuffix) keySuffix i := by
        rw [hp, List.append_assoc] at h2
        exact occursAt_restrict h2 (by simp; omega)
      have := hfirst i this
      have : i = body.length := by omega
      rw [h1, this]
    · exact absurd hocc (h _)
  unfold deserializeInverse
  rw [hpos]
  have hbl : 0 < body.length := List.length_pos_iff.2 hne
  have htake : (pem k ++ rest).take (29 + body.length) = body ++ keySuffix := by
    rw [hp, List.append_assoc, List.take_append_of_le_length (by simp [keySuffix_length]; omega)]
    rw [List.take_of_length_le (by simp [keySuffix_length]; omega)]
  have hat : (pem k ++ rest)[29 + body.length]? = some 0x0a := by
    rw [hp, List.append_assoc, List.getElem?_append_right (by simp [keySuffix_length]; omega)]
    have : 29 + body.length - (body ++ keySuffix).length = 0 := by simp [keySuffix_length]; omega
    rw [this]; rfl
  simp only [Option.map_some, Res.bind_ok]
  rw [if_neg (by omega), htake, hparse _ hp, Res.bind_ok, if_pos ⟨by simp; omega, hat⟩, hpl]
  simp only [Res.pure_eq, Option.some.injEq, Res.ok.injEq, Prod.mk.injEq, true_and]
  omega

/-- Non-trivial case: a two-byte body. -/
example : PemShape ([0x41, 0x42] ++ keySuffix ++ [0x0a]) := by
  refine ⟨[0x41, 0x42], rfl, by simp, ?_⟩
  intro i hi
  rcases i with _ | _ | i
  · rw [occursAt_iff] at hi
    have := hi.2 0 (by decide +kernel)
    exact absurd this (by decide +kernel)
  · rw [occursAt_iff] at hi
    have := hi.2 0 (by decide +kernel)
    exact absurd this (by decide +kernel)
  · exact Nat.le_add_left _ _

example : deserializeInverse (fun b => .ok b.length) 5000 ([0x41, 0x42] ++ keySuffix ++ [0x0a] ++ [7, 7]) = some (.ok (31, 32)) := by
  decide +kernel

/-- Deserializing arbitrary bytes: no undefined behaviour unless the key parser has some; a result is reported only for a
buffer that contains the end marker, and the number of bytes reported lies inside the buffer. -/
theorem c42_deserialize_bounds {K : Type} (parse : Bytes → Res K) (inp : Bytes) (hmem : inp.length + 30 < W64)
    (hparse : ∀ b, parse b ≠ .ub) (fuel : Nat) (hf : enough inp keySuffix ≤ fuel) :
    ∃ r, deserializeInverse parse fuel inp = some r ∧ r ≠ .ub ∧
      ∀ k n, r = .ok (k, n) → n ≤ inp.length ∧ ∃ i, FirstAt inp keySuffix i ∧ (n = i + 29 ∨ n = i + 30) ∧
        parse (inp.take (i + 29)) = .ok k := by
  unfold deserializeInverse
  rcases c43_first inp keySuffix (by rw [keySuffix_length]; omega) fuel hf with ⟨i, h1, h2⟩ | ⟨h1, _⟩
  · rw [h1]
    refine ⟨_, rfl, ?_⟩
    simp only [Res.bind_ok]
    by_cases hi : i ≤ 0
    · rw [if_pos hi]
      exact ⟨by simp, fun k n h => by cases h⟩
    · rw [if_neg hi]
      have hl : i + 29 ≤ inp.length := by
        have := ((occursAt_iff _ _ _).1 h2.1).1
        rwa [keySuffix_length] at this
      rw [Nat.add_comm 29 i]
      cases hk : parse (inp.take (i + 29)) with
      | ub => exact absurd hk (hparse _)
      | exc e => exact ⟨by simp, fun k n h => by cases h⟩
      | ok k0 =>
        simp only [Res.bind_ok]
        by_cases hc : i + 29 < inp.length ∧ inp[i + 29]? = some 0x0a
        · rw [if_pos hc]
          refine ⟨by simp, ?_⟩
          intro k n h
          injection h with h
          injection h with ha hb
          subst ha; subst hb
          exact ⟨by omega, i, h2, .inr rfl, hk⟩
        · rw [if_neg hc]
          refine ⟨by simp, ?_⟩
          intro k n h
          injection h with h
          injection h with ha hb
          subst ha; subst hb
          exact ⟨by omega, i, h2, .inl rfl, hk⟩
  · rw [h1]
    refine ⟨_, rfl, by simp, ?_⟩
    intro k n h
    cases h

end Verif.Utils
