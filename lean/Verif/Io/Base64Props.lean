import Verif.Io.Base64
import Mathlib.Data.Nat.Bitwise
import Mathlib.Tactic.IntervalCases

/-!
# Base64: encoding, decoding, buffer bounds (C44, C45)
-/

namespace Verif.Io

open Verif

/-! ## Specification: RFC 4648, section 4 -/

namespace Spec

/-- The alphabet of RFC 4648, table 1. -/
def alphabet : List UInt8 :=
  "ABCDEFGHIJKLMNOPQRSTUVWXYZabcdefghijklmnopqrstuvwxyz0123456789+/".toList.map fun c => UInt8.ofNat c.toNat

/-- The character of a 6-bit value. -/
def digit (v : Nat) : UInt8 := alphabet.getD v 0

/-- The text of a byte string: groups of 24 bits are cut into four 6-bit values, the last group is filled with zero bits and padded. -/
def base64 : Bytes → Bytes
  | a :: b :: c :: r =>
    let B := a.toNat * 65536 + b.toNat * 256 + c.toNat
    digit (B / 262144) :: digit (B / 4096 % 64) :: digit (B / 64 % 64) :: digit (B % 64) :: base64 r
  | [a, b] =>
    let B := (a.toNat * 256 + b.toNat) * 4
    [digit (B / 4096), digit (B / 64 % 64), digit (B % 64), 0x3d]
  | [a] =>
    let B := a.toNat * 16
    [digit (B / 64), digit (B % 64), 0x3d, 0x3d]
  | [] => []

end Spec

open Spec

theorem base64_length : ∀ s : Bytes, (base64 s).length = 4 * ((s.length + 2) / 3)
  | [] => by simp [base64]
  | [_] => by simp [base64]
  | [_, _] => by simp [base64]
  | _ :: _ :: _ :: r => by
    have := base64_length r
    simp only [base64, List.length_cons, this]
    omega

theorem encMap_digit : ∀ v, v < 64 → encMap[v]? = some (digit v) := by decide +kernel

theorem putEnc_ok {cap : Nat} {out : Bytes} {v : Nat} (hv : v < 64) (h : out.length < cap) : putEnc cap out v = .ok (out ++ [digit v]) := by
  unfold putEnc rd
  rw [encMap_digit v hv, Res.bind_ok]
  unfold put
  rw [if_pos h]

theorem put_ok {cap : Nat} {out : Bytes} {b : UInt8} (h : out.length < cap) : put cap out b = .ok (out ++ [b]) := by
  unfold put
  rw [if_pos h]

theorem and63 (v : Nat) : v &&& 0x3F = v % 64 := Nat.and_two_pow_sub_one_eq_mod v 6
theorem and15 (v : Nat) : v &&& 15 = v % 16 := Nat.and_two_pow_sub_one_eq_mod v 4
theorem and7 (v : Nat) : v &&& 0x7 = v % 8 := Nat.and_two_pow_sub_one_eq_mod v 3
theorem and3 (v : Nat) : v &&& 3 = v % 4 := Nat.and_two_pow_sub_one_eq_mod v 2

theorem rd_mid (pre : Bytes) (a : UInt8) (r : Bytes) : rd (pre ++ a :: r) pre.length = .ok a := by
  unfold rd
  simp

theorem encGroups_spec {cap : Nat} (k : Nat) (pre mid rest out : Bytes) (hm : mid.length = 3 * k) (hc : out.length + 4 * k ≤ cap) :
    encGroups cap (pre ++ mid ++ rest) k pre.length out = .ok (out ++ base64 mid) := by
  induction k generalizing pre mid out with
  | zero =>
    have : mid = [] := List.length_eq_zero_iff.1 (by omega)
    subst this
    simp [encGroups, base64]
  | succ k ih =>
    match mid, hm with
    | a :: b :: c :: mid', hm =>
      have hl : mid'.length = 3 * k := by simp at hm; omega
      have ha := a.toNat_lt
      have hb := b.toNat_lt
      have hcc := c.toNat_lt
      have r1 : rd (pre ++ a :: b :: c :: mid' ++ rest) pre.length = .ok a := by
        rw [List.append_assoc]; exact rd_mid pre a _
      have r2 : rd (pre ++ a :: b :: c :: mid' ++ rest) (pre.length + 1) = .ok b := by
        have := rd_mid (pre ++ [a]) b (c :: mid' ++ rest)
        simpa using this
      have r3 : rd (pre ++ a :: b :: c :: mid' ++ rest) (pre.length + 2) = .ok c := by
        have := rd_mid (pre ++ [a, b]) c (mid' ++ rest)
        simpa using this
      unfold encGroups
      rw [r1, Res.bind_ok, r2, Res.bind_ok, r3, Res.bind_ok]
      rw [putEnc_ok (by rw [and63]; omega) (by omega), Res.bind_ok,
        putEnc_ok (by rw [and63]; omega) (by simp; omega), Res.bind_ok,
        putEnc_ok (by rw [and63]; omega) (by simp; omega), Res.bind_ok,
        putEnc_ok (by rw [and63]; omega) (by simp; omega), Res.bind_ok]
      have hi := ih (pre ++ [a, b, c]) mid' (out ++ [digit ((a.toNat >>> 2) &&& 0x3F)] ++
        [digit ((((a.toNat &&& 3) <<< 4) + (b.toNat >>> 4)) &&& 0x3F)] ++
        [digit ((((b.toNat &&& 15) <<< 2) + (c.toNat >>> 6)) &&& 0x3F)] ++ [digit (c.toNat &&& 0x3F)]) hl (by simp; omega)
      have e1 : pre ++ [a, b, c] ++ mid' ++ rest = pre ++ a :: b :: c :: mid' ++ rest := by simp
      have e2 : (pre ++ [a, b, c]).length = pre.length + 3 := by simp
      rw [e1, e2] at hi
      rw [hi]
      simp only [base64, and63, and15, and3, Nat.shiftRight_eq_div_pow, Nat.shiftLeft_eq, List.append_assoc, List.cons_append, List.nil_append,
        Nat.reducePow]
      rw [show a.toNat / 4 % 64 = (a.toNat * 65536 + b.toNat * 256 + c.toNat) / 262144 by omega,
        show (a.toNat % 4 * 16 + b.toNat / 16) % 64 = (a.toNat * 65536 + b.toNat * 256 + c.toNat) / 4096 % 64 by omega,
        show (b.toNat % 16 * 4 + c.toNat / 64) % 64 = (a.toNat * 65536 + b.toNat * 256 + c.toNat) / 64 % 64 by omega,
        show c.toNat % 64 = (a.toNat * 65536 + b.toNat * 256 + c.toNat) % 64 by omega]

theorem encTail_spec {cap : Nat} (pre mid out : Bytes) (hm : mid.length < 3) (hc : out.length + 4 ≤ cap) :
    encTail cap (pre ++ mid) pre.length out = .ok (out ++ base64 mid) := by
  match mid, hm with
  | [], _ => simp [encTail, base64]
  | [a], _ =>
    have ha := a.toNat_lt
    unfold encTail tailByte tailThird
    rw [if_pos (by simp), rd_mid, Res.bind_ok, if_neg (by simp), Res.bind_ok,
      putEnc_ok (by rw [and63]; omega) (by omega), Res.bind_ok,
      putEnc_ok (by rw [and63]; omega) (by simp; omega), Res.bind_ok, if_neg (by simp),
      put_ok (by simp; omega), Res.bind_ok, put_ok (by simp; omega)]
    simp only [base64, and63, and3, Nat.shiftRight_eq_div_pow, Nat.shiftLeft_eq, List.append_assoc, List.cons_append, List.nil_append,
        Nat.reducePow]
    rw [show a.toNat / 4 % 64 = a.toNat * 16 / 64 by omega,
      show (a.toNat % 4 * 16 + (0 : UInt8).toNat / 16) % 64 = a.toNat * 16 % 64 by
        rw [show (0 : UInt8).toNat = 0 from rfl]; omega]
  | [a, b], _ =>
    have ha := a.toNat_lt
    have hb := b.toNat_lt
    have r2 : rd (pre ++ [a, b]) (pre.length + 1) = .ok b := by
      have := rd_mid (pre ++ [a]) b []
      simpa using this
    unfold encTail tailByte tailThird
    rw [if_pos (by simp), rd_mid, Res.bind_ok, if_pos (by simp), r2, Res.bind_ok,
      putEnc_ok (by rw [and63]; omega) (by omega), Res.bind_ok,
      putEnc_ok (by rw [and63]; omega) (by simp; omega), Res.bind_ok, if_pos (by simp),
      putEnc_ok (by rw [and63]; omega) (by simp; omega), Res.bind_ok, put_ok (by simp; omega)]
    simp only [base64, and63, and15, and3, Nat.shiftRight_eq_div_pow, Nat.shiftLeft_eq, List.append_assoc, List.cons_append, List.nil_append,
        Nat.reducePow]
    rw [show a.toNat / 4 % 64 = (a.toNat * 256 + b.toNat) * 4 / 4096 by omega,
      show (a.toNat % 4 * 16 + b.toNat / 16) % 64 = (a.toNat * 256 + b.toNat) * 4 / 64 % 64 by omega,
      show b.toNat % 16 * 4 % 64 = (a.toNat * 256 + b.toNat) * 4 % 64 by omega]

theorem base64_append (s t : Bytes) (k : Nat) (h : s.length = 3 * k) : base64 (s ++ t) = base64 s ++ base64 t := by
  induction k generalizing s with
  | zero =>
    have : s = [] := List.length_eq_zero_iff.1 (by omega)
    subst this
    rfl
  | succ k ih =>
    match s, h with
    | a :: b :: c :: s', h =>
      simp only [base64, List.cons_append, ih s' (by simp at h; omega)]

/-- **C44**: encoding into a buffer of sufficient size stores the standard text followed by a zero byte, and nothing else; smaller buffers
and null pointers are refused with the required size. No read or write leaves the buffers. -/
theorem c44_encode (s : Bytes) (hs : s ≠ []) (hlen : s.length < 2 ^ 63) (dst : Option Nat) :
    encode dst s = .ok (match dst with
      | some dlen => if 4 * ((s.length + 2) / 3) < dlen then .ok (base64 s ++ [0]) (base64 s).length else .tooSmall (4 * ((s.length + 2) / 3) + 1)
      | none => .tooSmall (4 * ((s.length + 2) / 3) + 1)) := by
  have hn : s.length ≠ 0 := fun h => hs (List.length_eq_zero_iff.1 h)
  have e : s.length / 3 + (if s.length % 3 ≠ 0 then 1 else 0) = (s.length + 2) / 3 := by split <;> omega
  unfold encode
  rw [if_neg hn]
  simp only
  rw [e, if_neg (by omega), Nat.mul_comm]
  rcases dst with _ | dlen
  · rfl
  · simp only
    by_cases hd : 4 * ((s.length + 2) / 3) < dlen
    · rw [if_neg (by omega), if_pos hd]
      have hm : (s.take (s.length / 3 * 3)).length = 3 * (s.length / 3) := by simp; omega
      have h1 := encGroups_spec (cap := dlen) (s.length / 3) [] (s.take (s.length / 3 * 3)) (s.drop (s.length / 3 * 3)) [] hm
        (by simp; omega)
      simp only [List.nil_append, List.take_append_drop, List.length_nil] at h1
      rw [h1, Res.bind_ok]
      have h2 := encTail_spec (cap := dlen) (s.take (s.length / 3 * 3)) (s.drop (s.length / 3 * 3)) (base64 (s.take (s.length / 3 * 3)))
      rw [List.take_append_drop, hm, ← base64_append _ _ _ hm, List.take_append_drop, Nat.mul_comm 3] at h2
      have hlt : (s.drop (s.length / 3 * 3)).length < 3 := by simp; omega
      by_cases hz : s.drop (s.length / 3 * 3) = []
      · have h3 : encTail dlen s (s.length / 3 * 3) (base64 (s.take (s.length / 3 * 3))) = .ok (base64 s) := by
          have hle : s.length ≤ s.length / 3 * 3 := List.drop_eq_nil_iff.1 hz
          unfold encTail
          rw [if_neg (by omega), List.take_of_length_le hle]
        rw [h3, Res.bind_ok, put_ok (by rw [base64_length]; omega)]
        rfl
      · have hgt : s.length / 3 * 3 < s.length := by
          by_contra hcon
          exact hz (List.drop_eq_nil_iff.2 (by omega))
        rw [h2 hlt (by rw [base64_length, hm]; omega), Res.bind_ok, put_ok (by rw [base64_length]; omega)]
        rfl
    · rw [if_pos (by omega), if_neg hd]

/-- **C44**: the length of the text. -/
theorem c44_length (s : Bytes) : (base64 s).length = 4 * ((s.length + 2) / 3) := base64_length s

/-! ## The decoder as a function of 6-bit values -/

/-- White space for the second pass. -/
def isWs (c : UInt8) : Bool := c = 0x0d ∨ c = 0x0a ∨ c = 0x20

/-- The values of the characters that are not white space. -/
def vals (src : Bytes) : List Nat := (src.filter fun c => !isWs c).map fun c => decMap.getD c.toNat 0

theorem decMap_range : ∀ c : Nat, c < 128 → decMap.getD c 0 ≠ 127 → decMap.getD c 0 ≤ 64 := by decide +kernel
theorem decMap_pad : ∀ c : Nat, c < 128 → (decMap.getD c 0 = 64 ↔ c = 0x3d) := by decide +kernel
theorem decMap_get : ∀ c : Nat, c < 128 → decMap[c]? = some (decMap.getD c 0) := by decide +kernel

theorem vals_ws {c : UInt8} (h : isWs c = true) (r : Bytes) : vals (c :: r) = vals r := by
  unfold vals
  rw [List.filter_cons_of_neg (by simp [h])]

theorem vals_cons {c : UInt8} (h : isWs c = false) (r : Bytes) : vals (c :: r) = decMap.getD c.toNat 0 :: vals r := by
  unfold vals
  rw [List.filter_cons_of_pos (by simp [h]), List.map_cons]

/-- What the first pass establishes. -/
theorem scan_spec (src : Bytes) (x n j n' j' : Nat) (hj : j ≤ 2) (h : scan x src n j = some (n', j')) :
    (∀ c ∈ src, isWs c = false → c.toNat < 128 ∧ decMap.getD c.toNat 0 ≤ 64) ∧ j ≤ j' ∧ j' ≤ 2 ∧
    n' = n + (vals src).length ∧ ∃ a : List Nat, vals src = a ++ List.replicate (j' - j) 64 ∧ (∀ v ∈ a, v < 64) ∧ (j ≠ 0 → a = []) := by
  induction src generalizing x n j with
  | nil =>
    simp only [scan, Option.some.injEq, Prod.mk.injEq] at h
    obtain ⟨rfl, rfl⟩ := h
    exact ⟨by simp, le_refl _, hj, by simp [vals], [], by simp [vals], by simp, fun _ => rfl⟩
  | cons c rest ih =>
    have ws : isWs c = true → ∀ y, scan y rest n j = some (n', j') → _ := fun hw y hh => by
      obtain ⟨h1, h2, h3, h4, h5⟩ := ih y n j hj hh
      rw [← vals_ws hw rest] at h4 h5
      refine (⟨?_, h2, h3, h4, h5⟩ : (∀ c' ∈ c :: rest, isWs c' = false → c'.toNat < 128 ∧ decMap.getD c'.toNat 0 ≤ 64) ∧ j ≤ j' ∧ j' ≤ 2 ∧
        n' = n + (vals (c :: rest)).length ∧ ∃ a : List Nat, vals (c :: rest) = a ++ List.replicate (j' - j) 64 ∧ (∀ v ∈ a, v < 64) ∧ (j ≠ 0 → a = []))
      intro c' hc' hw'
      rcases List.mem_cons.1 hc' with rfl | hc'
      · rw [hw] at hw'; cases hw'
      · exact h1 c' hc' hw'
    rw [scan] at h
    by_cases c1 : c = 0x20
    · rw [if_pos c1] at h
      exact ws (by simp [isWs, c1]) _ h
    rw [if_neg c1] at h
    by_cases c2 : c = 0x0d ∧ rest.head? = some 0x0a
    · rw [if_pos c2] at h
      exact ws (by simp [isWs, c2.1]) _ h
    rw [if_neg c2] at h
    by_cases c3 : c = 0x0a
    · rw [if_pos c3] at h
      exact ws (by simp [isWs, c3]) _ h
    rw [if_neg c3] at h
    by_cases c4 : x ≠ 0
    · rw [if_pos c4] at h; cases h
    rw [if_neg c4] at h
    simp only at h
    by_cases c5 : c = 0x3d ∧ (if c = 0x3d then j + 1 else j) > 2
    · rw [if_pos c5] at h; cases h
    rw [if_neg c5] at h
    by_cases c6 : c.toNat > 127 ∨ decMap[c.toNat]? = some 127
    · rw [if_pos c6] at h; cases h
    rw [if_neg c6] at h
    have hlt : c.toNat < 128 := by omega
    have hg := decMap_get _ hlt
    have hne : decMap.getD c.toNat 0 ≠ 127 := fun e => c6 (Or.inr (by rw [hg, e]))
    have hle := decMap_range _ hlt hne
    have hpad := decMap_pad _ hlt
    have hcr : c ≠ 0x0d := by
      rintro rfl
      exact hne (by decide)
    have hws : isWs c = false := by simp [isWs, c1, c3, hcr]
    have heq : c = 0x3d ↔ c.toNat = 0x3d := by
      constructor
      · rintro rfl; rfl
      · intro e; exact UInt8.toNat_inj.1 (by rw [e]; rfl)
    by_cases c7 : (∃ d, decMap[c.toNat]? = some d ∧ d < 64) ∧ (if c = 0x3d then j + 1 else j) ≠ 0
    · rw [if_pos c7] at h; cases h
    rw [if_neg c7] at h
    rw [vals_cons hws]
    have hmem : ∀ (P : ∀ c' ∈ rest, isWs c' = false → c'.toNat < 128 ∧ decMap.getD c'.toNat 0 ≤ 64), ∀ c' ∈ c :: rest, isWs c' = false →
        c'.toNat < 128 ∧ decMap.getD c'.toNat 0 ≤ 64 := by
      intro P c' hc' hw'
      rcases List.mem_cons.1 hc' with rfl | hc'
      · exact ⟨hlt, hle⟩
      · exact P c' hc' hw'
    by_cases hp : c = 0x3d
    · rw [if_pos hp] at h c5
      have h2 : j + 1 ≤ 2 := by
        by_contra hcon
        exact c5 ⟨hp, by omega⟩
      obtain ⟨h1, h2', h3, h4, a, h5, h6, h7⟩ := ih 0 (n + 1) (j + 1) h2 h
      have ha := h7 (by omega)
      subst ha
      have hv : decMap.getD c.toNat 0 = 64 := hpad.2 (heq.1 hp)
      refine ⟨hmem h1, by omega, h3, by simp only [List.length_cons]; omega, [], ?_, by simp, fun _ => rfl⟩
      rw [h5, hv, show j' - j = (j' - (j + 1)) + 1 by omega, List.replicate_succ]
      rfl
    · rw [if_neg hp] at h c7
      have hlt64 : decMap.getD c.toNat 0 < 64 := by
        have : decMap.getD c.toNat 0 ≠ 64 := fun e => hp (heq.2 (hpad.1 e))
        omega
      have hj0 : j = 0 := by
        by_contra hcon
        exact c7 ⟨⟨_, hg, hlt64⟩, hcon⟩
      obtain ⟨h1, h2', h3, h4, a, h5, h6, h7⟩ := ih 0 (n + 1) j hj h
      refine ⟨hmem h1, h2', h3, by simp only [List.length_cons]; omega, decMap.getD c.toNat 0 :: a, by rw [h5]; rfl, ?_, fun hc => absurd hj0 hc⟩
      intro v hv
      rcases List.mem_cons.1 hv with rfl | hv
      · exact hlt64
      · exact h6 v hv

/-- The second pass on values. -/
def emitV (cap : Nat) : List Nat → Nat → Nat → Nat → Bytes → Res Bytes
  | [], _, _, _, out => .ok out
  | d :: rest, j, n, x, out =>
    let j := (j + 4294967296 - (if d = 64 then 1 else 0)) % 4294967296
    let x := ((x <<< 6) % 4294967296) ||| (d &&& 0x3F)
    if n + 1 = 4 then do
      let out ← emitGroup cap j x out
      emitV cap rest j 0 x out
    else emitV cap rest j (n + 1) x out

theorem emit_eq (cap : Nat) (src : Bytes) (h : ∀ c ∈ src, isWs c = false → c.toNat < 128 ∧ decMap.getD c.toNat 0 ≤ 64) (j n x : Nat) (out : Bytes) :
    emit cap src j n x out = emitV cap (vals src) j n x out := by
  induction src generalizing j n x out with
  | nil => rfl
  | cons c rest ih =>
    have ih' := fun j n x out => ih (fun c' hc' => h c' (List.mem_cons_of_mem _ hc')) j n x out
    by_cases hw : isWs c = true
    · rw [vals_ws hw, emit, if_pos (by simpa [isWs] using hw), ih']
    · have hw' : isWs c = false := by simpa using hw
      obtain ⟨hlt, -⟩ := h c List.mem_cons_self hw'
      rw [vals_cons hw', emit, if_neg (by simpa [isWs] using hw), rd, decMap_get _ hlt]
      simp only [Res.bind_ok, emitV]
      by_cases h4 : n + 1 = 4
      · rw [if_pos h4, if_pos h4]
        congr 1
        funext o
        exact ih' _ _ _ _
      · rw [if_neg h4, if_neg h4, ih']

theorem shl_or (x v : Nat) (hv : v < 64) : ((x <<< 6) % 4294967296) ||| (v &&& 0x3F) = 64 * x % 4294967296 + v := by
  rw [and63, Nat.mod_eq_of_lt hv, Nat.shiftLeft_eq, show x * 2 ^ 6 % 4294967296 = (x % 67108864) <<< 6 by rw [Nat.shiftLeft_eq]; omega,
    ← Nat.shiftLeft_add_eq_or_of_lt (by simpa using hv), Nat.shiftLeft_eq]
  omega

/-- A complete group of four values below 64. -/
theorem emitV_group {cap : Nat} {v1 v2 v3 v4 : Nat} (h1 : v1 < 64) (h2 : v2 < 64) (h3 : v3 < 64) (h4 : v4 < 64) (vs : List Nat) (x : Nat) {out : Bytes}
    (hc : out.length + 3 ≤ cap) : ∃ x', emitV cap (v1 :: v2 :: v3 :: v4 :: vs) 3 0 x out =
      emitV cap vs 3 0 x' (out ++ [UInt8.ofNat (v1 * 4 + v2 / 16), UInt8.ofNat (v2 % 16 * 16 + v3 / 4), UInt8.ofNat (v3 % 4 * 64 + v4)]) := by
  refine ⟨64 * (64 * (64 * (64 * x % 4294967296 + v1) % 4294967296 + v2) % 4294967296 + v3) % 4294967296 + v4, ?_⟩
  simp only [emitV, shl_or _ _ h1, shl_or _ _ h2, shl_or _ _ h3, shl_or _ _ h4, if_neg (show v1 ≠ 64 by omega), if_neg (show v2 ≠ 64 by omega),
    if_neg (show v3 ≠ 64 by omega), if_neg (show v4 ≠ 64 by omega)]
  simp only [show (3 + 4294967296 - 0) % 4294967296 = 3 from rfl, show ¬ (0 + 1 = 4) by omega, show ¬ (0 + 1 + 1 = 4) by omega,
    show ¬ (0 + 1 + 1 + 1 = 4) by omega, if_false, if_true]
  unfold emitGroup putIf
  simp only [show (decide (3 > 0)) = true from rfl, show (decide (3 > 1)) = true from rfl, show (decide (3 > 2)) = true from rfl, if_true]
  rw [put_ok (by omega), Res.bind_ok, put_ok (by simp; omega), Res.bind_ok, put_ok (by simp; omega), Res.bind_ok]
  have e : ∀ a b : Nat, a % 256 = b % 256 → UInt8.ofNat a = UInt8.ofNat b := fun a b hab => by
    apply UInt8.toNat_inj.1
    simp only [UInt8.toNat_ofNat']
    exact hab
  congr 1
  simp only [List.append_assoc, List.cons_append, List.nil_append, Nat.shiftRight_eq_div_pow, Nat.reducePow]
  generalize hx1 : 64 * x % 4294967296 + v1 = x1
  generalize hx2 : 64 * x1 % 4294967296 + v2 = x2
  generalize hx3 : 64 * x2 % 4294967296 + v3 = x3
  rw [e _ (v1 * 4 + v2 / 16) (by omega), e ((64 * x3 % 4294967296 + v4) / 256) (v2 % 16 * 16 + v3 / 4) (by omega),
    e (64 * x3 % 4294967296 + v4) (v3 % 4 * 64 + v4) (by omega)]

/-- The bytes of a list of values whose length is a multiple of four. -/
def unGroup : List Nat → Bytes
  | v1 :: v2 :: v3 :: v4 :: vs =>
    UInt8.ofNat (v1 * 4 + v2 / 16) :: UInt8.ofNat (v2 % 16 * 16 + v3 / 4) :: UInt8.ofNat (v3 % 4 * 64 + v4) :: unGroup vs
  | _ => []

theorem unGroup_length (k : Nat) (a : List Nat) (h : a.length = 4 * k) : (unGroup a).length = 3 * k := by
  induction k generalizing a with
  | zero =>
    have : a = [] := List.length_eq_zero_iff.1 (by omega)
    subst this
    rfl
  | succ k ih =>
    match a, h with
    | v1 :: v2 :: v3 :: v4 :: vs, h =>
      have := ih vs (by simp at h; omega)
      simp only [unGroup, List.length_cons, this]
      omega

theorem emitV_groups {cap : Nat} (k : Nat) (a vs : List Nat) (ha : a.length = 4 * k) (hv : ∀ v ∈ a, v < 64) (x : Nat) {out : Bytes}
    (hc : out.length + 3 * k ≤ cap) : ∃ x', emitV cap (a ++ vs) 3 0 x out = emitV cap vs 3 0 x' (out ++ unGroup a) := by
  induction k generalizing a x out with
  | zero =>
    have : a = [] := List.length_eq_zero_iff.1 (by omega)
    subst this
    exact ⟨x, by simp [unGroup]⟩
  | succ k ih =>
    match a, ha with
    | v1 :: v2 :: v3 :: v4 :: a', ha =>
      obtain ⟨x1, h1⟩ := emitV_group (cap := cap) (hv v1 (by simp)) (hv v2 (by simp)) (hv v3 (by simp)) (hv v4 (by simp)) (a' ++ vs) x (out := out) (by omega)
      obtain ⟨x2, h2⟩ := ih a' (by simp at ha; omega) (fun v hv' => hv v (by simp [hv'])) x1
        (out := out ++ [UInt8.ofNat (v1 * 4 + v2 / 16), UInt8.ofNat (v2 % 16 * 16 + v3 / 4), UInt8.ofNat (v3 % 4 * 64 + v4)]) (by simp; omega)
      refine ⟨x2, ?_⟩
      simp only [List.cons_append]
      rw [h1, h2]
      simp [unGroup]

/-- The bytes of the last, padded group. -/
def unTail (vs : List Nat) (p : Nat) : Bytes :=
  match vs, p with
  | [v1, v2], 2 => [UInt8.ofNat (v1 * 4 + v2 / 16)]
  | [v1, v2, v3], 1 => [UInt8.ofNat (v1 * 4 + v2 / 16), UInt8.ofNat (v2 % 16 * 16 + v3 / 4)]
  | [v1, v2, v3], 2 => [UInt8.ofNat (v1 * 4 + v2 / 16), UInt8.ofNat (v2 % 16 * 16 + v3 / 4)]
  | _, _ => []

theorem ofNat_congr {a b : Nat} (h : a % 256 = b % 256) : UInt8.ofNat a = UInt8.ofNat b := by
  apply UInt8.toNat_inj.1
  simp only [UInt8.toNat_ofNat']
  exact h

theorem shl_or_pad (x : Nat) : ((x <<< 6) % 4294967296) ||| (64 &&& 0x3F) = 64 * x % 4294967296 := by
  rw [and63, Nat.shiftLeft_eq]
  simp [Nat.mul_comm]

theorem emitV_tail {cap : Nat} (r : List Nat) (p : Nat) (hr : r.length < 4) (hp : p ≤ 2) (hv : ∀ v ∈ r, v < 64) (x : Nat) {out : Bytes}
    (hc : out.length + (unTail r p).length ≤ cap) :
    emitV cap (r ++ List.replicate p 64) 3 0 x out = .ok (out ++ unTail r p) := by
  have m3 : (3 + 4294967296 - 0) % 4294967296 = 3 := rfl
  have m2 : (3 + 4294967296 - 1) % 4294967296 = 2 := rfl
  have m1 : (2 + 4294967296 - 1) % 4294967296 = 1 := rfl
  have n1 : ¬ (0 + 1 = 4) := by omega
  have n2 : ¬ (0 + 1 + 1 = 4) := by omega
  have n3 : ¬ (0 + 1 + 1 + 1 = 4) := by omega
  have hp' : p = 0 ∨ p = 1 ∨ p = 2 := by omega
  match r, hr with
  | [], _ =>
    rcases hp' with rfl | rfl | rfl <;>
      simp [emitV, unTail, List.replicate]
  | [v1], _ =>
    have h1 := hv v1 (by simp)
    have e1 : v1 ≠ 64 := by omega
    rcases hp' with rfl | rfl | rfl <;>
      simp [emitV, unTail, List.replicate]
  | [v1, v2], _ =>
    have h1 := hv v1 (by simp)
    have h2 := hv v2 (by simp)
    have e1 : v1 ≠ 64 := by omega
    have e2 : v2 ≠ 64 := by omega
    rcases hp' with rfl | rfl | rfl
    · simp [emitV, unTail, List.replicate]
    · simp [emitV, unTail, List.replicate]
    · simp only [List.replicate, List.cons_append, List.nil_append, emitV, shl_or _ _ h1, shl_or _ _ h2, shl_or_pad, if_neg e1, if_neg e2,
        if_true, m3, m2, m1, n1, n2, n3, if_false]
      simp only [unTail, List.length_cons, List.length_nil] at hc
      unfold emitGroup putIf
      simp only [show (decide (1 > 0)) = true from rfl, show (decide (1 > 1)) = false from rfl, show (decide (1 > 2)) = false from rfl, if_true,
        Bool.false_eq_true, if_false]
      rw [put_ok (by omega)]
      simp only [Res.bind_ok, unTail]
      rw [Nat.shiftRight_eq_div_pow, ofNat_congr (b := v1 * 4 + v2 / 16) (by norm_num; omega)]
  | [v1, v2, v3], _ =>
    have h1 := hv v1 (by simp)
    have h2 := hv v2 (by simp)
    have h3 := hv v3 (by simp)
    have e1 : v1 ≠ 64 := by omega
    have e2 : v2 ≠ 64 := by omega
    have e3 : v3 ≠ 64 := by omega
    rcases hp' with rfl | rfl | rfl
    · simp [emitV, unTail, List.replicate]
    · simp only [List.replicate, List.cons_append, List.nil_append, emitV, shl_or _ _ h1, shl_or _ _ h2, shl_or _ _ h3, shl_or_pad, if_neg e1, if_neg e2,
        if_neg e3, if_true, m3, m2, n1, n2, n3, if_false]
      simp only [unTail, List.length_cons, List.length_nil] at hc
      unfold emitGroup putIf
      simp only [show (decide (2 > 0)) = true from rfl, show (decide (2 > 1)) = true from rfl, show (decide (2 > 2)) = false from rfl, if_true,
        Bool.false_eq_true, if_false]
      rw [put_ok (by omega), Res.bind_ok, put_ok (by simp; omega)]
      simp only [Res.bind_ok, unTail]
      generalize hX : 64 * (64 * (64 * (64 * x % 4294967296 + v1) % 4294967296 + v2) % 4294967296 + v3) % 4294967296 = X
      rw [Nat.shiftRight_eq_div_pow, Nat.shiftRight_eq_div_pow, ofNat_congr (a := X / 2 ^ 16) (b := v1 * 4 + v2 / 16) (by norm_num; omega),
        ofNat_congr (a := X / 2 ^ 8) (b := v2 % 16 * 16 + v3 / 4) (by norm_num; omega)]
      simp only [List.append_assoc, List.cons_append, List.nil_append]
    · simp only [List.replicate, List.cons_append, List.nil_append, emitV, shl_or _ _ h1, shl_or _ _ h2, shl_or _ _ h3, shl_or_pad, if_neg e1, if_neg e2,
        if_neg e3, if_true, m3, m2, m1, n1, n2, n3, if_false]
      simp only [unTail, List.length_cons, List.length_nil] at hc
      unfold emitGroup putIf
      simp only [show (decide (2 > 0)) = true from rfl, show (decide (2 > 1)) = true from rfl, show (decide (2 > 2)) = false from rfl, if_true,
        Bool.false_eq_true, if_false]
      rw [put_ok (by omega), Res.bind_ok, put_ok (by simp; omega)]
      simp only [Res.bind_ok, unTail]
      generalize hX : 64 * (64 * (64 * (64 * x % 4294967296 + v1) % 4294967296 + v2) % 4294967296 + v3) % 4294967296 = X
      rw [Nat.shiftRight_eq_div_pow, Nat.shiftRight_eq_div_pow, ofNat_congr (a := X / 2 ^ 16) (b := v1 * 4 + v2 / 16) (by norm_num; omega),
        ofNat_congr (a := X / 2 ^ 8) (b := v2 % 16 * 16 + v3 / 4) (by norm_num; omega)]
      simp only [List.append_assoc, List.cons_append, List.nil_append]

/-- The size announced for `n` characters of which `j` are padding. -/
theorem announced {n j : Nat} (hj : j ≤ 2) (hjn : j ≤ n) (hn : n < 2 ^ 63) :
    (6 * (n >>> 3) + ((6 * (n &&& 0x7) + 7) >>> 3) + W64 - j) % W64 = (6 * n + 7) / 8 - j := by
  rw [and7, Nat.shiftRight_eq_div_pow, Nat.shiftRight_eq_div_pow]
  norm_num
  have e : 6 * (n / 8) + (6 * (n % 8) + 7) / 8 = (6 * n + 7) / 8 := by omega
  have hle : j ≤ (6 * n + 7) / 8 := by omega
  rw [e]
  generalize hA : (6 * n + 7) / 8 = A at *
  have hA2 : A < 18446744073709551616 := by omega
  clear hA e
  omega

/-- The decoded bytes. -/
def decoded (a : List Nat) (p : Nat) : Bytes := unGroup (a.take (a.length / 4 * 4)) ++ unTail (a.drop (a.length / 4 * 4)) p

theorem unTail_length (r : List Nat) (p : Nat) : (unTail r p).length ≤ r.length - 1 ∧ (r.length + p < 4 → unTail r p = []) := by
  unfold unTail
  split <;> simp

theorem decoded_length (a : List Nat) (p : Nat) (hp : p ≤ 2) : (decoded a p).length ≤ (6 * (a.length + p) + 7) / 8 - p := by
  unfold decoded
  rw [List.length_append, unGroup_length (a.length / 4) _ (by simp; omega)]
  have h := unTail_length (a.drop (a.length / 4 * 4)) p
  rw [List.length_drop] at h
  by_cases hlt : a.length - a.length / 4 * 4 + p < 4
  · rw [h.2 hlt]
    simp only [List.length_nil]
    omega
  · omega

/-- The result of the decoder on every input accepted by the first pass. -/
theorem decode_spec {src : Bytes} {n j : Nat} (hs : src.length < 2 ^ 63) (h : scan 0 src 0 0 = some (n, j)) :
    ∃ a : List Nat, vals src = a ++ List.replicate j 64 ∧ (∀ v ∈ a, v < 64) ∧ j ≤ 2 ∧ n = a.length + j ∧
    (decoded a j).length ≤ (6 * n + 7) / 8 - j ∧
    ∀ dst, decode dst src = .ok (if n = 0 then .ok [] 0 else match dst with
      | none => .tooSmall ((6 * n + 7) / 8 - j)
      | some dlen => if dlen < (6 * n + 7) / 8 - j then .tooSmall ((6 * n + 7) / 8 - j) else .ok (decoded a j) (decoded a j).length) := by
  obtain ⟨h1, -, h3, h4, a, h5, h6, -⟩ := scan_spec src 0 0 0 n j (by omega) h
  rw [Nat.sub_zero] at h5
  have hn : n = a.length + j := by rw [h4, h5]; simp
  have hle : (vals src).length ≤ src.length := by
    unfold vals
    rw [List.length_map]
    exact List.length_filter_le _ _
  have hlen := decoded_length a j h3
  rw [← hn] at hlen
  refine ⟨a, h5, h6, h3, hn, hlen, ?_⟩
  intro dst
  unfold decode
  rw [h]
  simp only
  by_cases hz : n = 0
  · rw [if_pos hz, if_pos hz]
  · rw [if_neg hz, if_neg hz, announced h3 (by omega) (by omega)]
    rcases dst with _ | dlen
    · rfl
    · simp only
      by_cases hd : dlen < (6 * n + 7) / 8 - j
      · rw [if_pos hd, if_pos hd]
      · rw [if_neg hd, if_neg hd, emit_eq _ _ h1, h5]
        have hsplit : a = a.take (a.length / 4 * 4) ++ a.drop (a.length / 4 * 4) := (List.take_append_drop _ _).symm
        have hlen2 : (decoded a j).length ≤ dlen := by omega
        unfold decoded at hlen2
        rw [List.length_append, unGroup_length (a.length / 4) _ (by simp; omega)] at hlen2
        obtain ⟨x', hx'⟩ := emitV_groups (cap := dlen) (a.length / 4) (a.take (a.length / 4 * 4)) (a.drop (a.length / 4 * 4) ++ List.replicate j 64)
          (by simp; omega) (fun v hv => h6 v (List.mem_of_mem_take hv)) 0 (out := []) (by simp; omega)
        rw [← List.append_assoc, ← hsplit] at hx'
        rw [hx', emitV_tail _ j (by simp; omega) h3 (fun v hv => h6 v (List.mem_of_mem_drop hv)) x'
          (by simp only [List.nil_append]; rw [unGroup_length (a.length / 4) _ (by simp; omega)]; omega)]
        rfl

/-- **C45**: whatever the input and the size of the destination, the decoder reads and writes only inside its buffers. Decoding into a
buffer of the announced size succeeds, and stores at most that many bytes. -/
theorem c45_bounds (src : Bytes) (hs : src.length < 2 ^ 63) (dst : Option Nat) :
    decode dst src ≠ .ub ∧
    (∀ out olen, decode dst src = .ok (.ok out olen) → olen = out.length ∧ ∀ dlen, dst = some dlen → out.length ≤ dlen) ∧
    (∀ size, decode none src = .ok (.tooSmall size) → ∃ out, decode (some size) src = .ok (.ok out out.length) ∧ out.length ≤ size) := by
  rcases h : scan 0 src 0 0 with _ | ⟨n, j⟩
  · have : ∀ d, decode d src = .ok .invalidChar := fun d => by unfold decode; rw [h]
    refine ⟨by rw [this]; simp, ?_, ?_⟩
    · intro out olen he; rw [this] at he; simp at he
    · intro size he; rw [this] at he; simp at he
  · obtain ⟨a, -, -, -, -, hlen, hd⟩ := decode_spec hs h
    refine ⟨by rw [hd]; simp, ?_, ?_⟩
    · intro out olen he
      rw [hd] at he
      by_cases hz : n = 0
      · rw [if_pos hz] at he
        simp only [Res.ok.injEq, B64.ok.injEq] at he
        obtain ⟨rfl, rfl⟩ := he
        exact ⟨rfl, by simp⟩
      · rw [if_neg hz] at he
        rcases dst with _ | dlen
        · simp at he
        · simp only at he
          by_cases hdl : dlen < (6 * n + 7) / 8 - j
          · rw [if_pos hdl] at he; simp at he
          · rw [if_neg hdl] at he
            simp only [Res.ok.injEq, B64.ok.injEq] at he
            obtain ⟨rfl, rfl⟩ := he
            refine ⟨rfl, ?_⟩
            rintro d ⟨⟩
            omega
    · intro size he
      rw [hd] at he
      by_cases hz : n = 0
      · rw [if_pos hz] at he; simp at he
      · rw [if_neg hz] at he
        simp only [Res.ok.injEq, B64.tooSmall.injEq] at he
        subst he
        exact ⟨_, by rw [hd, if_neg hz]; simp, hlen⟩

/-- **C45**: an input is accepted only if all its bytes are characters of the alphabet, `=`, or white space, with at most two `=`, all of them
after the last character of the alphabet. -/
theorem c45_alphabet (src : Bytes) (dst : Option Nat) (h : decode dst src ≠ .ok .invalidChar) :
    (∀ c ∈ src, c ∈ alphabet ∨ c = 0x3d ∨ c = 0x0d ∨ c = 0x0a ∨ c = 0x20) ∧
    ∃ (a : Bytes) (p : Nat), src.filter (fun c => !isWs c) = a ++ List.replicate p 0x3d ∧ (∀ c ∈ a, c ∈ alphabet) ∧ p ≤ 2 := by
  have key : ∀ c : UInt8, c.toNat < 128 → decMap.getD c.toNat 0 < 64 → c ∈ alphabet := by
    intro c
    have : ∀ n, n < 128 → decMap.getD n 0 < 64 → UInt8.ofNat n ∈ alphabet := by decide +kernel
    have h2 := this c.toNat
    rwa [UInt8.ofNat_toNat] at h2
  rcases hsc : scan 0 src 0 0 with _ | ⟨n, j⟩
  · exact absurd (by unfold decode; rw [hsc]) h
  · obtain ⟨h1, -, h3, h4, a, h5, h6, -⟩ := scan_spec src 0 0 0 n j (by omega) hsc
    have pad : ∀ c ∈ src, isWs c = false → decMap.getD c.toNat 0 = 64 → c = 0x3d := fun c hc hw he =>
      UInt8.toNat_inj.1 ((decMap_pad _ (h1 c hc hw).1).1 he)
    constructor
    · intro c hc
      rcases hw : isWs c with _ | _
      · obtain ⟨hlt, hle⟩ := h1 c hc hw
        by_cases he : decMap.getD c.toNat 0 = 64
        · exact Or.inr (Or.inl (pad c hc hw he))
        · exact Or.inl (key c hlt (by omega))
      · simp only [isWs, decide_eq_true_eq] at hw
        tauto
    · rw [Nat.sub_zero] at h5
      unfold vals at h5
      rw [List.map_eq_append_iff] at h5
      obtain ⟨l1, l2, hl, ha, hb⟩ := h5
      have hmem : ∀ c, c ∈ l1 ++ l2 → c ∈ src ∧ isWs c = false := by
        intro c hc
        rw [← hl, List.mem_filter] at hc
        simpa using hc
      have hl2 : l2 = List.replicate j 0x3d := by
        rw [List.eq_replicate_iff]
        refine ⟨by have := congrArg List.length hb; simpa using this, ?_⟩
        intro c hc
        obtain ⟨m1, m2⟩ := hmem c (List.mem_append_right _ hc)
        refine pad c m1 m2 ?_
        have : decMap.getD c.toNat 0 ∈ List.replicate j 64 := by
          rw [← hb]
          exact List.mem_map_of_mem (f := fun c : UInt8 => decMap.getD c.toNat 0) hc
        exact (List.mem_replicate.1 this).2
      refine ⟨l1, j, by rw [hl, hl2], ?_, h3⟩
      intro c hc
      obtain ⟨m1, m2⟩ := hmem c (List.mem_append_left _ hc)
      refine key c (h1 c m1 m2).1 (h6 _ ?_)
      rw [← ha]
      exact List.mem_map_of_mem (f := fun c : UInt8 => decMap.getD c.toNat 0) hc

/-! ## Decoding what was encoded -/

/-- The first pass accepts texts of the right form, with line feeds anywhere. -/
theorem scan_text (t a : Bytes) (p n j : Nat) (h : t.filter (fun c => c ≠ 0x0a) = a ++ List.replicate p 0x3d) (ha : ∀ c ∈ a, c ∈ alphabet)
    (hp : j + p ≤ 2) (hj : j ≠ 0 → a = []) : scan 0 t n j = some (n + a.length + p, j + p) := by
  have key : ∀ c ∈ alphabet, c ≠ 0x20 ∧ c ≠ 0x0d ∧ c ≠ 0x0a ∧ c ≠ 0x3d ∧ c.toNat < 128 ∧ decMap.getD c.toNat 0 < 64 := by decide +kernel
  induction t generalizing a p n j with
  | nil =>
    have h' : a ++ List.replicate p (0x3d : UInt8) = [] := h.symm
    rw [List.append_eq_nil_iff] at h'
    obtain ⟨rfl, hr⟩ := h'
    have hp0 : p = 0 := by simpa using congrArg List.length hr
    subst hp0
    simp [scan]
  | cons c t ih =>
    by_cases hc : c = 0x0a
    · rw [List.filter_cons_of_neg (by simp [hc])] at h
      rw [scan, if_neg (by rw [hc]; decide), if_neg (by simp [hc]), if_pos hc]
      exact ih a p n j h ha hp hj
    · rw [List.filter_cons_of_pos (by simp [hc])] at h
      rcases a with _ | ⟨c', a⟩
      · rcases p with _ | p
        · simp at h
        · rw [List.replicate_succ, List.nil_append, List.cons.injEq] at h
          obtain ⟨rfl, h⟩ := h
          have hi := ih [] p (n + 1) (j + 1) (by simpa using h) (by simp) (by omega) (fun _ => rfl)
          rw [scan, if_neg (by decide), if_neg (by simp), if_neg (by decide), if_neg (by simp)]
          simp only [if_true]
          rw [if_neg (by omega), if_neg (by decide), if_neg (by
            rintro ⟨⟨d, hd, hlt⟩, -⟩
            have : decMap[(0x3d : UInt8).toNat]? = some 64 := by decide
            rw [this] at hd
            simp only [Option.some.injEq] at hd
            omega), hi]
          simp only [List.length_nil, Option.some.injEq, Prod.mk.injEq]
          omega
      · rw [List.cons_append, List.cons.injEq] at h
        obtain ⟨rfl, h⟩ := h
        have hj0 : j = 0 := by
          by_contra hcon
          exact absurd (hj hcon) (by simp)
        subst hj0
        obtain ⟨k1, k2, k3, k4, k5, k6⟩ := key c (ha c (by simp))
        have hi := ih a p (n + 1) 0 h (fun c' hc' => ha c' (by simp [hc'])) hp (by simp)
        rw [scan, if_neg k1, if_neg (by tauto), if_neg k3, if_neg (by simp)]
        simp only [if_neg k4]
        rw [if_neg (by omega), if_neg (by
          rintro (hh | hh)
          · omega
          · rw [decMap_get _ k5] at hh
            simp only [Option.some.injEq] at hh
            omega), if_neg (by simp), hi]
        exact congrArg some (Prod.ext (by simp only [List.length_cons]; omega) rfl)

/-- The 6-bit values of a byte string. -/
def sixes : Bytes → List Nat
  | a :: b :: c :: r =>
    let B := a.toNat * 65536 + b.toNat * 256 + c.toNat
    B / 262144 :: B / 4096 % 64 :: B / 64 % 64 :: B % 64 :: sixes r
  | [a, b] =>
    let B := (a.toNat * 256 + b.toNat) * 4
    [B / 4096, B / 64 % 64, B % 64]
  | [a] =>
    let B := a.toNat * 16
    [B / 64, B % 64]
  | [] => []

/-- The number of padding characters. -/
def pads (s : Bytes) : Nat := (3 - s.length % 3) % 3

theorem base64_sixes : ∀ s : Bytes, base64 s = (sixes s).map digit ++ List.replicate (pads s) 0x3d ∧ (∀ v ∈ sixes s, v < 64) ∧
    decoded (sixes s) (pads s) = s
  | [] => by simp [base64, sixes, pads, decoded, unGroup, unTail]
  | [a] => by
    have ha := a.toNat_lt
    have hp : pads [a] = 2 := by simp [pads]
    refine ⟨by rw [hp]; simp [base64, sixes, List.replicate], ?_, ?_⟩
    · intro v hv
      simp only [sixes, List.mem_cons, List.not_mem_nil, or_false] at hv
      omega
    · rw [hp]
      simp only [decoded, sixes, List.length_cons, List.length_nil]
      norm_num
      simp only [unGroup, unTail, List.nil_append]
      rw [ofNat_congr (b := a.toNat) (by omega), UInt8.ofNat_toNat]
  | [a, b] => by
    have ha := a.toNat_lt
    have hb := b.toNat_lt
    have hp : pads [a, b] = 1 := by simp [pads]
    refine ⟨by rw [hp]; simp [base64, sixes, List.replicate], ?_, ?_⟩
    · intro v hv
      simp only [sixes, List.mem_cons, List.not_mem_nil, or_false] at hv
      omega
    · rw [hp]
      simp only [decoded, sixes, List.length_cons, List.length_nil]
      norm_num
      simp only [unGroup, unTail, List.nil_append]
      rw [ofNat_congr (b := a.toNat) (by omega), UInt8.ofNat_toNat,
        ofNat_congr (b := b.toNat) (by omega), UInt8.ofNat_toNat]
  | a :: b :: c :: r => by
    have ha := a.toNat_lt
    have hb := b.toNat_lt
    have hc := c.toNat_lt
    obtain ⟨h1, h2, h3⟩ := base64_sixes r
    have hp : pads (a :: b :: c :: r) = pads r := by
      simp only [pads, List.length_cons]
      omega
    refine ⟨by rw [hp]; simp [base64, sixes, h1], ?_, ?_⟩
    · intro v hv
      simp only [sixes, List.mem_cons] at hv
      rcases hv with rfl | rfl | rfl | rfl | hv
      · omega
      · omega
      · omega
      · omega
      · exact h2 v hv
    · rw [hp]
      unfold decoded at h3 ⊢
      have e : (sixes (a :: b :: c :: r)).length / 4 * 4 = (sixes r).length / 4 * 4 + 4 := by
        simp only [sixes, List.length_cons]
        omega
      rw [e]
      simp only [sixes, List.take_succ_cons, List.drop_succ_cons, unGroup, List.cons_append]
      rw [h3, ofNat_congr (b := a.toNat) (by omega), UInt8.ofNat_toNat,
        ofNat_congr (b := b.toNat) (by omega), UInt8.ofNat_toNat,
        ofNat_congr (b := c.toNat) (by omega), UInt8.ofNat_toNat]

theorem sixes_length : ∀ s : Bytes, (sixes s).length + pads s = 4 * ((s.length + 2) / 3)
  | [] => by simp [sixes, pads]
  | [_] => by simp [sixes, pads]
  | [_, _] => by simp [sixes, pads]
  | _ :: _ :: _ :: r => by
    have := sixes_length r
    simp only [sixes, pads, List.length_cons] at this ⊢
    omega

theorem digit_mem : ∀ v, v < 64 → digit v ∈ alphabet := by decide +kernel
theorem dec_digit : ∀ v, v < 64 → decMap.getD (digit v).toNat 0 = v := by decide +kernel
theorem digit_notWs : ∀ v, v < 64 → isWs (digit v) = false := by decide +kernel

/-- **C44**: decoding the encoding of a byte string, with line feeds inserted anywhere (the PEM writer puts one after every 64 characters),
gives back the byte string; the announced size is the length of the byte string. -/
theorem c44_decode (s t : Bytes) (hs : s ≠ []) (ht : t.filter (fun c => c ≠ 0x0a) = base64 s) (hlen : t.length < 2 ^ 63) :
    decode none t = .ok (.tooSmall s.length) ∧ ∀ dlen, s.length ≤ dlen → decode (some dlen) t = .ok (.ok s s.length) := by
  obtain ⟨h1, h2, h3⟩ := base64_sixes s
  have hmem : ∀ c ∈ (sixes s).map digit, c ∈ alphabet := by
    intro c hc
    obtain ⟨v, hv, rfl⟩ := List.mem_map.1 hc
    exact digit_mem v (h2 v hv)
  have hp : pads s ≤ 2 := by unfold pads; omega
  rw [h1] at ht
  have hsc := scan_text t _ (pads s) 0 0 ht hmem (by omega) (by simp)
  rw [List.length_map, Nat.zero_add, Nat.zero_add] at hsc
  obtain ⟨a, h5, h6, -, hn, -, hd⟩ := decode_spec hlen hsc
  have hv : vals t = sixes s ++ List.replicate (pads s) 64 := by
    have e1 : vals t = vals (t.filter fun c => c ≠ 0x0a) := by
      unfold vals
      rw [List.filter_filter]
      congr 1
      apply List.filter_congr
      intro c _
      by_cases hc : c = 0x0a
      · simp [hc, isWs]
      · simp [hc]
    rw [e1, ht]
    unfold vals
    rw [List.filter_append, List.map_append]
    congr 1
    · rw [List.filter_eq_self.2 (by
        intro c hc
        obtain ⟨v, hv, rfl⟩ := List.mem_map.1 hc
        simp [digit_notWs v (h2 v hv)]), List.map_map]
      have : ∀ l : List Nat, (∀ v ∈ l, v < 64) → l.map ((fun c : UInt8 => decMap.getD c.toNat 0) ∘ digit) = l := by
        intro l hl
        induction l with
        | nil => rfl
        | cons v l ih =>
          rw [List.map_cons, ih (fun w hw => hl w (by simp [hw]))]
          congr 1
          exact dec_digit v (hl v (by simp))
      exact this _ h2
    · rw [List.filter_eq_self.2 (by
        intro c hc
        rw [(List.mem_replicate.1 hc).2]
        decide), List.map_replicate]
      rfl
  have ha : a = sixes s := by
    rw [hv] at h5
    exact (List.append_cancel_right h5).symm
  have hpos : s.length ≠ 0 := fun h => hs (List.length_eq_zero_iff.1 h)
  have hsl := sixes_length s
  have hsz : (6 * ((sixes s).length + pads s) + 7) / 8 - pads s = s.length := by
    rw [hsl]
    unfold pads
    omega
  rw [hsz] at hd
  subst ha
  rw [h3] at hd
  constructor
  · rw [hd, if_neg (by omega)]
  · intro dlen hdl
    rw [hd, if_neg (by omega)]
    simp only
    rw [if_neg (by omega)]

/-- **C44**: the round trip through buffers of the announced sizes. -/
theorem c44_roundtrip (s : Bytes) (hs : s ≠ []) (hlen : s.length < 2 ^ 60) :
    ∃ n text, encode none s = .ok (.tooSmall n) ∧ encode (some n) s = .ok (.ok (text ++ [0]) text.length) ∧
      decode none text = .ok (.tooSmall s.length) ∧ decode (some s.length) text = .ok (.ok s s.length) := by
  refine ⟨4 * ((s.length + 2) / 3) + 1, base64 s, c44_encode s hs (by omega) none, ?_, ?_⟩
  · rw [c44_encode s hs (by omega)]
    simp
  · have hf : (base64 s).filter (fun c => c ≠ 0x0a) = base64 s := by
      obtain ⟨h1, h2, -⟩ := base64_sixes s
      rw [List.filter_eq_self]
      intro c hc
      rw [h1] at hc
      rcases List.mem_append.1 hc with hc | hc
      · obtain ⟨v, hv, rfl⟩ := List.mem_map.1 hc
        have := digit_notWs v (h2 v hv)
        simp [isWs] at this
        simp [this]
      · rw [(List.mem_replicate.1 hc).2]
        decide
    have := c44_decode s (base64 s) hs hf (by rw [base64_length]; omega)
    exact ⟨this.1, this.2 _ (le_refl _)⟩

example : base64 "Man is".toUTF8.toList = "TWFuIGlz".toUTF8.toList ∧ base64 "light w".toUTF8.toList = "bGlnaHQgdw==".toUTF8.toList := by decide +kernel
example := c44_encode [1, 2, 3, 4] (by simp) (by decide) (some 9)
example : decode (some 4) [0x41, 0x51, 0x0a, 0x49, 0x44, 0x42, 0x41, 0x0a, 0x3d, 0x3d, 0x0a] = .ok (.ok [1, 2, 3, 4] 4) :=
  (c44_decode [1, 2, 3, 4] _ (by simp) (by decide +kernel) (by decide)).2 4 (by decide)
example := c44_roundtrip [255, 0, 17, 3, 9] (by simp) (by decide)
example := c45_bounds [0x41, 0x3d, 0x20, 0xff] (by decide) (some 1)
example := c45_alphabet [0x41, 0x41, 0x41, 0x3d, 0x0a] (some 2) (by decide +kernel)

end Verif.Io
