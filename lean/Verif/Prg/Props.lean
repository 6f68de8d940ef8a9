import Verif.Prg.Model
import Verif.RCPrf.Model
import Mathlib.Tactic.Ring

/-!
# Properties C12 – C15 and C58 of the PRG
-/

set_option linter.dupNamespace false

namespace Verif.Prg

open Verif

/-- Specification: byte `i` of the key stream of key `k`. -/
def stream (B : Bytes → Nat → Nat → UInt8) (k : Bytes) (i : Nat) : UInt8 := B k (i / 64) (i % 64)

/-- Specification: bytes `off, …, off+len-1` of the key stream. -/
def window (B : Bytes → Nat → Nat → UInt8) (k : Bytes) (off len : Nat) : Bytes :=
  (List.range len).map fun i => stream B k (off + i)

/-- A concrete block function for the examples. -/
def toyB : Bytes → Nat → Nat → UInt8 := fun k c i => k.headD 0 + 64 * UInt8.ofNat c + UInt8.ofNat i

@[simp] theorem window_length (B : Bytes → Nat → Nat → UInt8) (k : Bytes) (off len : Nat) :
    (window B k off len).length = len := by simp [window]

theorem window_add (B : Bytes → Nat → Nat → UInt8) (k : Bytes) (off a b : Nat) :
    window B k off (a + b) = window B k off a ++ window B k (off + a) b := by
  simp only [window, List.range_add, List.map_append, List.map_map]
  congr 1
  apply List.map_congr_left
  intro i _
  simp [Nat.add_assoc]

theorem xorIc_zero (B : Bytes → Nat → Nat → UInt8) (k : Bytes) (c n : Nat) (h : c + n / 64 < W64) :
    xorIc B k c (List.replicate n 0) = window B k (c * 64) n := by
  apply List.ext_getElem
  · simp [xorIc]
  · intro i h1 h2
    simp only [window_length] at h2
    simp only [xorIc, List.getElem_mapIdx, List.getElem_replicate, window, List.getElem_map,
      List.getElem_range, stream]
    have e1 : (c * 64 + i) / 64 = c + i / 64 := by omega
    have e2 : (c * 64 + i) % 64 = i % 64 := by omega
    have e3 : (c + i / 64) % W64 = c + i / 64 := by
      apply Nat.mod_eq_of_lt
      have : i / 64 ≤ n / 64 := Nat.div_le_div_right (by omega)
      omega
    rw [e1, e2, e3]
    simp

/-- The core function computes a window of the stream. -/
theorem prgDerivation_eq (B : Bytes → Nat → Nat → UInt8) (k : Bytes) (off len : Nat) (ho : off < W64) (hl : len ≤ 9223372036854775808) :
    prgDerivation B k off len false = .ok (window B k off len) := by
  unfold prgDerivation
  rw [if_neg (by simp)]
  by_cases h0 : len = 0
  · rw [if_pos h0, h0]; rfl
  rw [if_neg h0]
  by_cases hal : off % 64 = 0
  · simp only [hal, if_true]
    rw [xorIc_zero _ _ _ _ (by omega)]
    have : off / 64 * 64 = off := by omega
    rw [this]
  · simp only [hal, if_false]
    have hbuf : ∀ m, m + off % 64 ≤ 64 →
        ((xorIc B k (off / 64) (List.replicate 64 0)).drop (off % 64)).take m = window B k off m := by
      intro m hm
      rw [xorIc_zero _ _ _ _ (by omega)]
      have e : window B k (off / 64 * 64) 64 = window B k (off / 64 * 64) (off % 64) ++
          (window B k (off / 64 * 64 + off % 64) m ++
            window B k (off / 64 * 64 + off % 64 + m) (64 - off % 64 - m)) := by
        rw [← window_add, ← window_add]
        congr 1
        omega
      rw [e, List.drop_left' (by simp), List.take_left' (by simp)]
      have : off / 64 * 64 + off % 64 = off := by omega
      rw [this]
    by_cases hb : (((len + off + (W64 - 1)) % W64) / 64 + 1 + W64 - off / 64) % W64 > 1
    · rw [if_pos hb]
      have hlen : 64 - off % 64 < len := by
        by_contra hc
        have : len + off + (W64 - 1) = len + off - 1 + W64 := by omega
        rw [this, Nat.add_mod_right, Nat.mod_eq_of_lt (a := len + off - 1) (by omega)] at hb
        have : (len + off - 1) / 64 = off / 64 := by omega
        rw [this] at hb
        have : off / 64 + 1 + W64 - off / 64 = 1 + W64 := by omega
        rw [this, Nat.add_mod_right] at hb
        norm_num at hb
      rw [if_neg (by omega)]
      simp only [Res.bind_ok]
      rw [if_neg (by omega), hbuf _ (by omega)]
      have e1 : ((List.replicate len (0 : UInt8)).take (64 - off % 64) ++ xorIc B k ((off / 64 + 1) % W64)
          ((List.replicate len 0).drop (64 - off % 64))).drop (64 - off % 64) =
          xorIc B k ((off / 64 + 1) % W64) ((List.replicate len 0).drop (64 - off % 64)) := by
        apply List.drop_left'
        rw [List.length_take, List.length_replicate]; omega
      rw [e1, List.drop_replicate, Nat.mod_eq_of_lt (a := off / 64 + 1) (by omega), xorIc_zero _ _ _ _ (by omega)]
      have e2 : len = (64 - off % 64) + (len - (64 - off % 64)) := by omega
      conv_rhs => rw [e2, window_add]
      have e3 : (off / 64 + 1) * 64 = off + (64 - off % 64) := by omega
      rw [e3]
    · rw [if_neg hb]
      have hlen : len ≤ 64 - off % 64 := by
        by_contra hc
        apply hb
        by_cases hw : len + off - 1 < W64
        · have : len + off + (W64 - 1) = len + off - 1 + W64 := by omega
          rw [this, Nat.add_mod_right, Nat.mod_eq_of_lt (a := len + off - 1) hw]
          have h1 : off / 64 + 1 ≤ (len + off - 1) / 64 := by omega
          have : (len + off - 1) / 64 + 1 + W64 - off / 64 = ((len + off - 1) / 64 + 1 - off / 64) + W64 := by
            omega
          rw [this, Nat.add_mod_right, Nat.mod_eq_of_lt (a := (len + off - 1) / 64 + 1 - off / 64) (by omega)]
          omega
        · have h1 : (len + off + (W64 - 1)) % W64 / 64 + 2 < off / 64 := by
            have : len + off + (W64 - 1) = len + off - 1 - W64 + W64 + W64 := by omega
            rw [this, Nat.add_mod_right, Nat.add_mod_right,
              Nat.mod_eq_of_lt (a := len + off - 1 - W64) (by omega)]
            omega
          generalize (len + off + (W64 - 1)) % W64 / 64 = q at *
          -- the wrapped end lies in a block before the first one
          rw [Nat.mod_eq_of_lt (a := q + 1 + W64 - off / 64) (by omega)]
          omega
      simp only [Res.bind_ok]
      rw [if_neg (by omega), hbuf _ (by omega)]
      simp

/-! ## C12 -/

/-- **C12**: for every key, every 64-bit offset and every length up to `2^63` (no object is larger), all non-throwing forms of `derive` on an instance return
the window of one stream, which depends on the key only. -/
theorem c12_window (B : Bytes → Nat → Nat → UInt8) (k : Bytes) (off len : Nat) (ho : off < W64) (hl : len ≤ 9223372036854775808) :
    derive B (some k) off len false = .ok (window B k off len) ∧
    deriveString B (some k) off len = .ok (window B k off len) ∧
    deriveString0 B (some k) len = .ok (window B k 0 len) ∧
    (sDerive B (some k) off len false).1 = .ok (window B k off len) ∧
    (sDeriveString B (some k) off len).1 = .ok (window B k off len) := by
  have hd : ∀ o, o < W64 → derive B (some k) o len false = .ok (window B k o len) := by
    intro o ho
    unfold derive
    by_cases h0 : len = 0
    · rw [if_pos h0, h0]; rfl
    · rw [if_neg h0]; exact prgDerivation_eq B k o len ho hl
  refine ⟨hd off ho, hd off ho, hd 0 (by omega), ?_, ?_⟩
  · exact prgDerivation_eq B k off len ho hl
  · exact prgDerivation_eq B k off len ho hl

example : derive toyB (some [3]) 60 10 false = .ok [63, 64, 65, 66, 67, 68, 69, 70, 71, 72] := by decide +kernel

/-! ## C13 -/

/-- **C13**, splitting: a derivation of `a + b` bytes is the concatenation of two derivations. -/
theorem c13_split (B : Bytes → Nat → Nat → UInt8) (k : Bytes) (off a b : Nat) (ho : off + a < W64)
    (hl : a + b ≤ 9223372036854775808) :
    ∃ x y, derive B (some k) off a false = .ok x ∧ derive B (some k) (off + a) b false = .ok y ∧
      x.length = a ∧ y.length = b ∧ derive B (some k) off (a + b) false = .ok (x ++ y) := by
  refine ⟨_, _, (c12_window B k off a (by omega) (by omega)).1, (c12_window B k (off + a) b ho (by omega)).1,
    by simp, by simp, ?_⟩
  rw [(c12_window B k off (a + b) (by omega) hl).1, window_add]

example : (5 : Nat) + 70 < W64 ∧ (70 : Nat) + 3 ≤ 9223372036854775808 := by decide

/-- **C13**, overloads, for positive lengths: the instance and one-shot versions into buffers and strings return
the same bytes.  Missing for length 0: see `c13_empty_false`. -/
theorem c13_overloads_partial (B : Bytes → Nat → Nat → UInt8) (k : Bytes) (off len : Nat) (hlen : 0 < len) (ho : off < W64)
    (hl : len ≤ 9223372036854775808) :
    ∃ out, derive B (some k) off len false = .ok out ∧ deriveString B (some k) off len = .ok out ∧
      (sDerive B (some k) off len false).1 = .ok out ∧ (sDeriveString B (some k) off len).1 = .ok out ∧
      (off = 0 → deriveString0 B (some k) len = .ok out ∧ (sDeriveString0 B (some k) len).1 = .ok out) := by
  obtain ⟨h1, h2, h3, h4, h5⟩ := c12_window B k off len ho hl
  refine ⟨_, h1, h2, h4, h5, ?_⟩
  rintro rfl
  refine ⟨h3, ?_⟩
  unfold sDeriveString0
  have : decide (len = 0) = false := by simp; omega
  rw [this]
  exact h4

example : (0 : Nat) < 7 ∧ (deriveString0 toyB (some [3]) 7).isOk = true ∧
    (sDeriveString0 toyB (some [3]) 7).1 = deriveString0 toyB (some [3]) 7 := by decide +kernel

/-- **C13 is false for length 0**: one one-shot overload throws where all others return the empty string (libstdc++ and
libc++, where an empty vector has a null data pointer). -/
theorem c13_empty_false (B : Bytes → Nat → Nat → UInt8) (k : Bytes) :
    (sDeriveString0 B (some k) 0).1 = .exc .invalidArgument ∧ (sDeriveString B (some k) 0 0).1 = .ok [] ∧
    deriveString0 B (some k) 0 = .ok [] := ⟨rfl, rfl, rfl⟩

/-! ## C14, C15 -/

theorem not_tooLarge {K cnt : Nat} (h : tooLarge K cnt = false) : cnt * K < W64 := by
  unfold tooLarge at h
  by_cases hc : cnt > 0
  · simp only [hc, decide_true, Bool.true_and, decide_eq_false_iff_not, ge_iff_le, not_le] at h
    have h1 : cnt * K < cnt * ((W64 - 1) / cnt) := Nat.mul_lt_mul_of_pos_left h hc
    have h2 : cnt * ((W64 - 1) / cnt) ≤ W64 - 1 := Nat.mul_div_le _ _
    omega
  · have : cnt = 0 := by omega
    simp [this]

theorem tooLarge_of_ge {K cnt : Nat} (h : W64 - 1 < cnt * K) : tooLarge K cnt = true := by
  by_contra hc
  have := not_tooLarge (by simpa using hc : tooLarge K cnt = false)
  omega

/-- What the size check refuses. -/
theorem tooLarge_eq (K cnt : Nat) : tooLarge K cnt = decide (W64 ≤ cnt * (K + 1)) := by
  unfold tooLarge
  by_cases hc : cnt > 0
  · rw [decide_eq_true hc, Bool.true_and, decide_eq_decide]
    constructor
    · intro h
      by_contra hlt
      have : K + 1 ≤ (W64 - 1) / cnt := (Nat.le_div_iff_mul_le hc).2 (by rw [Nat.mul_comm]; omega)
      omega
    · intro h
      by_contra hlt
      have := (Nat.le_div_iff_mul_le hc).1 (show K + 1 ≤ (W64 - 1) / cnt by omega)
      rw [Nat.mul_comm] at this
      omega
  · have : cnt = 0 := by omega
    subst this
    simp

/-- **C15**: an index whose byte offset does not fit in 64 bits is rejected by all four functions; and no accepted call uses
a wrapped offset. -/
theorem c15_overflow (B : Bytes → Nat → Nat → UInt8) (K : Nat) (k : Bytes) (off n : Nat)
    (hK : K ≤ 9223372036854775808) (hn : 0 < n) :
    (W64 ≤ off * K → deriveKey B K (some k) off = .exc .invalidArgument ∧
      (sDeriveKey B K (some k) off).1 = .exc .invalidArgument ∧
      deriveKeys B K (some k) n off = .exc .invalidArgument ∧
      (sDeriveKeys B K (some k) n off).1 = .exc .invalidArgument) ∧
    (W64 ≤ n * K → deriveKeys B K (some k) n off = .exc .invalidArgument ∧
      (sDeriveKeys B K (some k) n off).1 = .exc .invalidArgument) ∧
    (∀ v, deriveKey B K (some k) off = .ok v → off * K < W64 ∧ v = window B k (off * K) K) ∧
    (∀ v, deriveKeys B K (some k) n off = .ok v → off * K < W64 ∧ n * K < W64) := by
  refine ⟨fun h => ?_, fun h => ?_, fun v h => ?_, fun v h => ?_⟩
  · have ht := tooLarge_of_ge (K := K) (cnt := off) (by omega)
    refine ⟨by simp [deriveKey, ht], by simp [sDeriveKey, ht], ?_, ?_⟩
    · unfold deriveKeys; rw [ht]; split <;> simp
    · unfold sDeriveKeys; rw [if_neg (by simp), if_neg (by omega), ht]; split <;> simp
  · have ht := tooLarge_of_ge (K := K) (cnt := n) (by omega)
    refine ⟨by simp [deriveKeys, ht], ?_⟩
    unfold sDeriveKeys; rw [if_neg (by simp), if_neg (by omega), ht]; simp
  · unfold deriveKey at h
    cases ht : tooLarge K off with
    | true => rw [ht] at h; simp at h
    | false =>
      have h1 := not_tooLarge ht
      rw [ht] at h
      simp only [Bool.false_eq_true, if_false] at h
      rw [Nat.mod_eq_of_lt h1, (c12_window B k _ K h1 hK).1] at h
      injection h with h
      exact ⟨h1, h.symm⟩
  · unfold deriveKeys at h
    cases ht : tooLarge K n with
    | true => rw [ht] at h; simp at h
    | false =>
      cases ht' : tooLarge K off with
      | true => rw [ht, ht'] at h; simp at h
      | false => exact ⟨not_tooLarge ht', not_tooLarge ht⟩

example : (W64 : Nat) ≤ 65535 * 18014398509481984 ∧
    deriveKey toyB 18014398509481984 (some [1]) 65535 = .exc .invalidArgument := by decide +kernel

/-- **C15**, which calls are refused: those for which `index * (K + 1)` does not fit in 64 bits, and no others — in particular never index 0. (So some indices whose
byte offset does fit are refused too.) A refused one-shot call leaves the key to the caller. -/
theorem c15_exact (B : Bytes → Nat → Nat → UInt8) (K : Nat) (k : Bytes) (off n : Nat) (hK : K ≤ 9223372036854775808) (hn : 0 < n)
    (hnK : n * K ≤ 9223372036854775808) :
    (deriveKey B K (some k) off = .exc .invalidArgument ↔ W64 ≤ off * (K + 1)) ∧
    (W64 ≤ off * (K + 1) → sDeriveKey B K (some k) off = (.exc .invalidArgument, some k)) ∧
    (off * (K + 1) < W64 → deriveKey B K (some k) off = .ok (window B k (off * K) K) ∧
      sDeriveKey B K (some k) off = (.ok (window B k (off * K) K), none)) ∧
    (deriveKeys B K (some k) n off = .exc .invalidArgument ↔ W64 ≤ off * (K + 1) ∨ W64 ≤ n * (K + 1)) ∧
    (W64 ≤ off * (K + 1) ∨ W64 ≤ n * (K + 1) → sDeriveKeys B K (some k) n off = (.exc .invalidArgument, some k)) := by
  have hle : ∀ c, c * (K + 1) < W64 → c * K < W64 := fun c h => Nat.lt_of_le_of_lt (Nat.mul_le_mul_left c (Nat.le_succ K)) h
  have hgood : off * (K + 1) < W64 → deriveKey B K (some k) off = .ok (window B k (off * K) K) ∧
      sDeriveKey B K (some k) off = (.ok (window B k (off * K) K), none) := by
    intro h
    obtain ⟨w1, -, -, w4, -⟩ := c12_window B k (off * K) K (hle off h) hK
    have ht : tooLarge K off = false := by rw [tooLarge_eq]; simpa using h
    rw [deriveKey, sDeriveKey, ht, Nat.mod_eq_of_lt (hle off h)]
    refine ⟨by simpa using w1, ?_⟩
    rw [if_neg (by simp)]
    exact Prod.ext w4 rfl
  have hbad : W64 ≤ off * (K + 1) → tooLarge K off = true := fun h => by rw [tooLarge_eq]; simpa using h
  have hbad2 : W64 ≤ n * (K + 1) → tooLarge K n = true := fun h => by rw [tooLarge_eq]; simpa using h
  refine ⟨⟨fun h => ?_, fun h => by rw [deriveKey, hbad h]; rfl⟩, fun h => by rw [sDeriveKey, hbad h]; rfl, hgood, ⟨fun h => ?_, fun h => ?_⟩, fun h => ?_⟩
  · by_contra hlt
    rw [(hgood (by omega)).1] at h
    cases h
  · by_contra hlt
    obtain ⟨v1, -⟩ := c12_window B k (off * K) (n * K) (hle off (by omega)) hnK
    have h1 : tooLarge K off = false := by rw [tooLarge_eq]; simp; omega
    have h2 : tooLarge K n = false := by rw [tooLarge_eq]; simp; omega
    rw [deriveKeys, h1, h2, Nat.mod_eq_of_lt (hle off (by omega)), Nat.mod_eq_of_lt (hle n (by omega)), if_neg (by simp), if_neg (by simp), if_neg (by omega),
      v1] at h
    cases h
  · rcases h with h | h
    · rw [deriveKeys, hbad h]; split <;> rfl
    · rw [deriveKeys, hbad2 h]; rfl
  · rw [sDeriveKeys, if_neg (by simp), if_neg (by omega)]
    rcases h with h | h
    · rw [hbad h]; split <;> rfl
    · rw [hbad2 h]; rfl

/-- An index that would be possible and is refused. -/
example : 558992244657865200 * 32 < W64 ∧ deriveKey toyB 32 (some [1]) 558992244657865201 = .exc .invalidArgument ∧ 558992244657865201 * 32 < W64 := by
  decide +kernel

theorem cutKeys_window (B : Bytes → Nat → Nat → UInt8) (K : Nat) (k : Bytes) (off n : Nat) :
    cutKeys K n (window B k (off * K) (n * K)) =
      (List.range n).map fun j => window B k ((off + j) * K) K := by
  unfold cutKeys
  apply List.map_congr_left
  intro i hi
  rw [List.mem_range] at hi
  have e : n * K = i * K + (K + (n - i - 1) * K) := by
    obtain ⟨d, rfl⟩ : ∃ d, n = i + 1 + d := ⟨n - i - 1, by omega⟩
    have : i + 1 + d - i - 1 = d := by omega
    rw [this]; ring
  rw [e, window_add, window_add, List.drop_left' (by simp), List.take_left' (by simp)]
  congr 1
  ring

/-- **C14**: single and bulk derivation of keys of `K` bytes (any number of keys and index for which the size checks, `c15_exact`, do not
throw) are stream windows at multiples of `K`; the one-shot versions agree with the instance versions. -/
theorem c14_derived_keys (B : Bytes → Nat → Nat → UInt8) (K : Nat) (k : Bytes) (off n : Nat)
    (hK : K ≤ 9223372036854775808) (hnK : n * K ≤ 9223372036854775808) (h1 : off * (K + 1) < W64)
    (h2 : n * (K + 1) < W64) :
    deriveKey B K (some k) off = .ok (window B k (off * K) K) ∧
    (sDeriveKey B K (some k) off).1 = .ok (window B k (off * K) K) ∧
    deriveKeys B K (some k) n off = .ok ((List.range n).map fun j => window B k ((off + j) * K) K) ∧
    (sDeriveKeys B K (some k) n off).1 = .ok ((List.range n).map fun j => window B k ((off + j) * K) K) := by
  replace h1 : tooLarge K off = false := by rw [tooLarge_eq]; simpa using h1
  replace h2 : tooLarge K n = false := by rw [tooLarge_eq]; simpa using h2
  have l1 := not_tooLarge h1
  have l2 := not_tooLarge h2
  obtain ⟨w1, _, _, w4, _⟩ := c12_window B k (off * K) K l1 hK
  obtain ⟨v1, _, _, v4, _⟩ := c12_window B k (off * K) (n * K) l1 hnK
  refine ⟨?_, ?_, ?_, ?_⟩
  · unfold deriveKey
    rw [h1, Nat.mod_eq_of_lt l1]
    simpa using w1
  · unfold sDeriveKey
    rw [h1, Nat.mod_eq_of_lt l1]
    simpa using w4
  · unfold deriveKeys
    rw [h1, h2, Nat.mod_eq_of_lt l1, Nat.mod_eq_of_lt l2]
    by_cases hn : n = 0
    · subst hn; simp
    · rw [if_neg (by simp), if_neg (by simp), if_neg hn, v1, Res.map_ok, cutKeys_window]
  · unfold sDeriveKeys
    rw [h1, h2, Nat.mod_eq_of_lt l1, Nat.mod_eq_of_lt l2]
    by_cases hn : n = 0
    · subst hn; simp
    · rw [if_neg (by simp), if_neg hn, if_neg (by simp), if_neg (by simp)]
      simp only [v4, Res.map_ok, cutKeys_window]

/-- **C14**, bulk = single: key `j` of a bulk derivation is the singly derived key of index `off + j`. -/
theorem c14_bulk_eq_single (B : Bytes → Nat → Nat → UInt8) (K : Nat) (k : Bytes) (off n j : Nat)
    (hK : K ≤ 9223372036854775808) (hnK : n * K ≤ 9223372036854775808) (hj : j < n)
    (h1 : off * (K + 1) < W64) (h2 : n * (K + 1) < W64) (h3 : (off + j) * (K + 1) < W64) :
    ∃ ks, deriveKeys B K (some k) n off = .ok ks ∧ ks.length = n ∧
      ∃ v, ks[j]? = some v ∧ deriveKey B K (some k) (off + j) = .ok v := by
  obtain ⟨_, _, d3, _⟩ := c14_derived_keys B K k off n hK hnK h1 h2
  obtain ⟨e1, _, _, _⟩ := c14_derived_keys B K k (off + j) n hK hnK h3 h2
  exact ⟨_, d3, by simp, _, by simp [hj], e1⟩

example : 3 * (32 + 1) < W64 ∧ 4 * (32 + 1) < W64 ∧
    ∃ ks v, deriveKeys toyB 2 (some [1]) 4 3 = .ok ks ∧ ks[2]? = some v ∧ deriveKey toyB 2 (some [1]) 5 = .ok v :=
  ⟨by decide, by decide, [[7, 8], [9, 10], [11, 12], [13, 14]], [11, 12], by decide +kernel, by decide, by decide +kernel⟩

/-- **C14**, disjointness: the byte positions used by two different indices are disjoint. -/
theorem c14_windows_disjoint (K i j a b : Nat) (hij : i ≠ j) (ha : a < K) (hb : b < K) : i * K + a ≠ j * K + b := by
  intro h
  rcases Nat.lt_or_gt_of_ne hij with hl | hl
  · have : (i + 1) * K ≤ j * K := Nat.mul_le_mul_right _ hl
    have : (i + 1) * K = i * K + K := by ring
    omega
  · have : (j + 1) * K ≤ i * K := Nat.mul_le_mul_right _ hl
    have : (j + 1) * K = j * K + K := by ring
    omega

/-- The abstraction used by the model of the RC-PRF is the one proved here. -/
theorem c12_rcprf_window (B : Bytes → Nat → Nat → UInt8) (k : Bytes) (off len : Nat) :
    Verif.RCPrf.window (stream B) k off len = window B k off len := rfl

/-! ## C58 -/

/-- **C58** (largest true part): a one-shot derivation that does not throw leaves the caller's key empty — unless zero keys
are requested (`c58_no_keys_false`). -/
theorem c58_consumed_partial (B : Bytes → Nat → Nat → UInt8) (K : Nat) (key : Option Bytes) (off len n : Nat) :
    ((sDerive B key off len false).1.isOk = true → (sDerive B key off len false).2 = none) ∧
    ((sDeriveString B key off len).1.isOk = true → (sDeriveString B key off len).2 = none) ∧
    ((sDeriveString0 B key len).1.isOk = true → (sDeriveString0 B key len).2 = none) ∧
    ((sDeriveKey B K key off).1.isOk = true → (sDeriveKey B K key off).2 = none) ∧
    (0 < n → (sDeriveKeys B K key n off).1.isOk = true → (sDeriveKeys B K key n off).2 = none) := by
  have h : ∀ o l b, (sDerive B key o l b).2 = none := by
    intro o l b; unfold sDerive; split <;> rfl
  refine ⟨fun _ => h _ _ _, fun _ => h _ _ _, fun _ => h _ _ _, ?_, ?_⟩
  · unfold sDeriveKey
    split
    · intro h0; cases h0
    · intro _; exact h _ _ _
  · intro hn
    unfold sDeriveKeys
    split
    · intro h0; cases h0
    · rw [if_neg (by omega)]
      split
      · intro h0; cases h0
      · split
        · intro h0; cases h0
        · intro _; exact h _ _ _

example : (sDeriveKeys toyB 2 (some [1]) 4 3).1.isOk = true := by decide +kernel

/-- **C58 is false for the code**: deriving zero keys returns normally and leaves the key usable. -/
theorem c58_no_keys_false (B : Bytes → Nat → Nat → UInt8) (K : Nat) (k : Bytes) (off : Nat) :
    sDeriveKeys B K (some k) 0 off = (.ok [], some k) := by
  simp [sDeriveKeys]

end Verif.Prg
