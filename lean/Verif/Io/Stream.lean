import Verif.Io.Normal

/-!
# Which buffers `TdpInverse::deserialize` accepts, and sequences of keys
-/

namespace Verif.Io.Stream

open Verif Verif.Tdp Verif.Utils Verif.Io.Normal

/-- **C124**: a key is read from a buffer exactly if the end marker occurs in it, not at the start, and the bytes up to the end of its first occurrence are accepted by
the constructor; the bytes read are these and the line feed behind them, if there is one. -/
theorem c124_exact (inp : Bytes) (hl : inp.length + 30 < W64) (fuel : Nat) (hf : enough inp keySuffix ≤ fuel) (k : Rsa) (n : Nat) :
    deserializeInverse importPrivate fuel inp = some (.ok (k, n)) ↔
    ∃ i, FirstAt inp keySuffix i ∧ 0 < i ∧ importPrivate (inp.take (i + 29)) = .ok k ∧ n = if inp[i + 29]? = some 0x0a then i + 30 else i + 29 := by
  unfold deserializeInverse
  rcases c43_first inp keySuffix (by rw [keySuffix_length]; omega) fuel hf with ⟨i, h1, h2⟩ | ⟨h1, h2⟩
  · rw [h1]
    have huniq : ∀ j, FirstAt inp keySuffix j → j = i := fun j hj => Nat.le_antisymm (hj.2 _ h2.1) (h2.2 _ hj.1)
    have hlt : inp[29 + i]? = some 0x0a → 29 + i < inp.length := fun h => (List.getElem?_eq_some_iff.1 h).1
    simp only [Option.map_some, Res.bind_ok, Option.some.injEq]
    by_cases hi : i ≤ 0
    · rw [if_pos hi]
      constructor
      · intro h
        cases h
      · rintro ⟨j, hj, h0, -⟩
        rw [huniq j hj] at h0
        omega
    · rw [if_neg hi]
      constructor
      · intro h
        rw [Res.bind_eq_ok] at h
        obtain ⟨k', hk, h⟩ := h
        refine ⟨i, h2, by omega, ?_⟩
        rw [Nat.add_comm i 29]
        split at h
        · rename_i hc
          cases h
          exact ⟨hk, by rw [if_pos hc.2]; omega⟩
        · rename_i hc
          cases h
          exact ⟨hk, by rw [if_neg fun h => hc ⟨hlt h, h⟩]⟩
      · rintro ⟨j, hj, h0, hk, hn⟩
        obtain rfl := huniq j hj
        rw [Nat.add_comm j 29] at hk hn
        rw [hk, Res.bind_ok, hn]
        by_cases hc : inp[29 + j]? = some 0x0a
        · rw [if_pos ⟨hlt hc, hc⟩, if_pos hc, show 29 + j + 1 = j + 30 by omega]
          rfl
        · rw [if_neg fun h => hc h.2, if_neg hc]
          rfl
  · rw [h1]
    constructor
    · intro h
      cases h
    · rintro ⟨j, hj, -⟩
      exact absurd hj.1 (h2 j)

/-- **C124**: what is read does not depend on what follows: if a key was read together with the line feed behind it, the same key and the same number of bytes are read
from these bytes followed by anything. -/
theorem c124_rest (inp rest : Bytes) (hl : inp.length + rest.length + 30 < W64) (fuel fuel' : Nat) (hf : enough inp keySuffix ≤ fuel) (k : Rsa) (n : Nat)
    (h : deserializeInverse importPrivate fuel inp = some (.ok (k, n))) (hn : inp[n - 1]? = some 0x0a) (hf' : enough (inp.take n ++ rest) keySuffix ≤ fuel') :
    deserializeInverse importPrivate fuel' (inp.take n ++ rest) = some (.ok (k, n)) := by
  obtain ⟨i, hi, h0, hk, e⟩ := (c124_exact inp (by omega) fuel hf k n).1 h
  obtain ⟨ho, hch⟩ := (occursAt_iff _ _ _).1 hi.1
  rw [keySuffix_length] at ho hch
  have hnl : inp[i + 29]? = some 0x0a := by
    by_contra hc
    rw [if_neg hc] at e
    have h28 := hch 28 (by omega)
    rw [e, show i + 29 - 1 = i + 28 by omega, h28] at hn
    exact absurd hn (by decide +kernel)
  rw [if_pos hnl] at e
  have hil : i + 29 < inp.length := (List.getElem?_eq_some_iff.1 hnl).1
  have htl : (inp.take n).length = i + 30 := by rw [List.length_take]; omega
  have hget : ∀ j, j < i + 30 → (inp.take n ++ rest)[j]? = inp[j]? := by
    intro j hj
    rw [List.getElem?_append_left (by omega), List.getElem?_take_of_lt (by omega)]
  refine (c124_exact _ (by rw [List.length_append, htl]; omega) fuel' hf' k n).2 ⟨i, ⟨?_, fun j hj => ?_⟩, h0, ?_, ?_⟩
  · rw [occursAt_iff, keySuffix_length]
    refine ⟨by rw [List.length_append, htl]; omega, fun j hj => ?_⟩
    rw [hget _ (by omega), hch j hj]
  · by_contra hlt
    obtain ⟨h3, h4⟩ := (occursAt_iff _ _ _).1 hj
    rw [keySuffix_length] at h4
    have : OccursAt inp keySuffix j := by
      rw [occursAt_iff, keySuffix_length]
      refine ⟨by omega, fun m hm => ?_⟩
      rw [← h4 m hm, hget _ (by omega)]
    have := hi.2 j this
    omega
  · rw [List.take_append_of_le_length (by omega), List.take_take, Nat.min_eq_left (by omega)]
    exact hk
  · rw [hget _ (by omega), if_pos hnl, e]

/-! ## Sequences of keys -/

/-- Reading `c` keys, one after the other; what is left is returned. -/
def readAll : Nat → Bytes → Option (List Rsa × Bytes)
  | 0, b => some ([], b)
  | c + 1, b =>
    match deserializeInverse importPrivate (enough b keySuffix) b with
    | some (.ok (k, n)) => (readAll c (b.drop n)).map fun r => (k :: r.1, r.2)
    | _ => none

/-- **C124**: keys that were imported, written one behind the other and followed by anything, are read back in the same order, and reading stops where the
last one ends. -/
theorem c124_sequence (keys : List (Rsa × Bytes))
    (hk : ∀ p ∈ keys, ∃ t : Bytes, t.length < 2 ^ 62 ∧ importPrivate t = .ok p.1 ∧ privateKey p.1 = .ok p.2) (rest : Bytes)
    (hl : (keys.map (·.2)).flatten.length + rest.length + 30 < W64) :
    readAll keys.length ((keys.map (·.2)).flatten ++ rest) = some (keys.map (·.1), rest) := by
  induction keys with
  | nil => rfl
  | cons p keys ih =>
    obtain ⟨t, ht, h1, h2⟩ := hk p (List.mem_cons_self ..)
    obtain ⟨s, hs, hlen, hb, hc, hD⟩ := private_facts ht h1
    have hkb : { p.1 with blind := none } = p.1 := by
      rcases p with ⟨⟨len, N, E, pr, bl⟩, x⟩
      simp only at hb ⊢
      rw [hb]
    rw [List.map_cons, List.flatten_cons, List.length_append] at hl
    have hr := c42_inverse_roundtrip hs hc hlen hD h2 ((keys.map (·.2)).flatten ++ rest) (by rw [List.length_append]; omega) _ (Nat.le_refl _)
    rw [hkb] at hr
    rw [List.map_cons, List.flatten_cons, List.length_cons, List.append_assoc, readAll, hr]
    simp only
    rw [List.drop_left' rfl, ih (fun q hq => hk q (List.mem_cons_of_mem _ hq)) (by omega)]
    rfl

/-! ## Cases -/

theorem exText : ∃ t : Bytes, t.length < 2 ^ 62 ∧ importPrivate t = .ok exKey ∧ privateKey exKey = .ok t ∧ t.length < 5000 := by
  have h : importPrivate (privText exKey.N exKey.E exPriv) = .ok exKey :=
    (c42_import_private (k := exKey) (s := exPriv) rfl exKey_check (by decide +kernel) (by decide +kernel)).1
  obtain ⟨s, hs, -, -, h2⟩ := c122_private _ (by decide +kernel) _ h
  cases hs
  exact ⟨_, by decide +kernel, h, h2 (by decide +kernel) (by decide +kernel), by decide +kernel⟩

/-- The example key twice, and five bytes behind. -/
example : ∃ t, readAll 2 (t ++ (t ++ [1, 2, 3, 4, 5])) = some ([exKey, exKey], [1, 2, 3, 4, 5]) := by
  obtain ⟨t, h1, h2, h3, h4⟩ := exText
  refine ⟨t, ?_⟩
  have := c124_sequence [(exKey, t), (exKey, t)] (by
    intro p hp
    simp only [List.mem_cons, List.not_mem_nil, or_false, or_self] at hp
    subst hp
    exact ⟨t, h1, h2, h3⟩) [1, 2, 3, 4, 5] (by simp; omega)
  simpa using this

end Verif.Io.Stream
