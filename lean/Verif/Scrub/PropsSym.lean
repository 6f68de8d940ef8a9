import Verif.Scrub.PropsMac
import Verif.Cipher.Props

/-!
# What the generator, the cipher, the permutation, the hash function and `random_string` leave in memory
-/

namespace Verif.Scrub

open Verif Verif.Mac

/-! ## The generator -/

section

variable (B : Bytes → Nat → Nat → UInt8) (junk : Nat → UInt8)

theorem xorIc_length (k : Bytes) (c : Nat) (m : Bytes) : (Prg.xorIc B k c m).length = m.length := by simp [Prg.xorIc]

theorem prgDerivation_length {k : Bytes} {off len : Nat} {d : Bytes} (h : Prg.prgDerivation B k off len false = .ok d) : d.length = len := by
  unfold Prg.prgDerivation at h
  generalize W64 = w at h
  rw [if_neg Bool.false_ne_true] at h
  by_cases hl : len = 0
  · rw [if_pos hl] at h
    injection h with h
    rw [← h, hl]; rfl
  rw [if_neg hl] at h
  simp only [] at h
  generalize hbl : (((len + off + (w - 1)) % w) / 64 + 1 + w - off / 64) % w = bl at h
  by_cases ha : off % 64 = 0
  · rw [if_pos ha] at h
    injection h with h
    rw [← h, xorIc_length, List.length_replicate]
  rw [if_neg ha] at h
  by_cases hb : bl > 1
  · rw [if_pos hb] at h
    by_cases hp : len < 64 - off % 64
    · rw [if_pos hp] at h; cases h
    · rw [if_neg hp] at h
      simp only [Res.bind_ok] at h
      split_ifs at h with h1
      injection h with h
      rw [← h]
      simp only [List.length_append, List.length_take, List.length_drop, xorIc_length, List.length_replicate]
      omega
  · rw [if_neg hb] at h
    simp only [Res.bind_ok] at h
    split_ifs at h with h1
    injection h with h
    rw [← h]
    simp only [List.length_append, List.length_take, List.length_drop, xorIc_length, List.length_replicate]
    omega

theorem prgTail_exact (n mo len : Nat) (x : Bytes → Bytes) (hx : ∀ b, (x b).length = b.length) (st : Res (Nat × Bytes)) (hst : ∀ e, st ≠ .exc e) :
    (Z.run (rawBuf junk n) (fun s _ => [s]) (do
      Z.upd fun s => putAt s 0 (List.replicate n 0)
      let p ← Z.lift st
      Z.upd fun s => .ok (x s)
      let s ← Z.get
      let d ← Z.lift (if mo + p.1 > n ∨ p.1 > len then .ub else .ok ((s.drop mo).take p.1 ++ p.2.drop p.1))
      Z.upd fun s => memzero n s
      pure d) : Out Bytes).res = (st >>= fun p =>
        if mo + p.1 > n ∨ p.1 > len then .ub else .ok (((x (List.replicate n 0)).drop mo).take p.1 ++ p.2.drop p.1)) ∧
    Tidy junk (Z.run (rawBuf junk n) (fun s _ => [s]) (do
      Z.upd fun s => putAt s 0 (List.replicate n 0)
      let p ← Z.lift st
      Z.upd fun s => .ok (x s)
      let s ← Z.get
      let d ← Z.lift (if mo + p.1 > n ∨ p.1 > len then .ub else .ok ((s.drop mo).take p.1 ++ p.2.drop p.1))
      Z.upd fun s => memzero n s
      pure d) : Out Bytes) := by
  have e0 : putAt (rawBuf junk n) 0 (List.replicate n 0) = .ok (List.replicate n 0) := putAt_all (by rw [rawBuf_length, List.length_replicate])
  have e1 : memzero n (x (List.replicate n 0)) = .ok (List.replicate n 0) := memzero_eq (by rw [hx, List.length_replicate])
  simp only [Z.run, Z.upd_bind, e0, Z.lift_bind, Z.get_bind]
  rcases st with p | e | _
  · simp only [Res.bind_ok]
    split_ifs with h1
    · exact ⟨rfl, Tidy.of_ub rfl⟩
    · simp only [e1, Z.pure_run]
      refine ⟨trivial, Tidy.of_ok rfl ?_⟩
      intro b hb
      simp only [List.nil_append, List.mem_cons, List.not_mem_nil, or_false] at hb
      rw [hb]
      exact erased_replicate _
  · exact absurd rfl (hst e)
  · exact ⟨rfl, Tidy.of_ub rfl⟩

/-- `prg_derivation`: the result is the one of the model of C12, and the block buffer is erased. -/
theorem prgDerivation_exact (k : Bytes) (off len : Nat) (outNull : Bool) :
    (prgDerivation B junk k off len outNull).res = Prg.prgDerivation B k off len outNull ∧ Tidy junk (prgDerivation B junk k off len outNull) := by
  unfold prgDerivation Prg.prgDerivation
  generalize W64 = w
  by_cases ho : outNull = true
  · simp only [if_pos ho]; exact ⟨trivial, nofun⟩
  simp only [if_neg ho]
  by_cases hl : len = 0
  · simp only [if_pos hl]; exact ⟨trivial, nofun⟩
  simp only [if_neg hl]
  by_cases ha : off % 64 = 0
  · simp only [if_pos ha]; exact ⟨trivial, nofun⟩
  simp only [if_neg ha]
  refine prgTail_exact junk 64 (off % 64) len (Prg.xorIc B k (off / 64)) (xorIc_length B k _) _ ?_
  intro e he
  split_ifs at he

theorem derive_exact (key : Option Bytes) (off len : Nat) (outNull : Bool) :
    (derive B junk key off len outNull).res = Prg.derive B key off len outNull ∧ Tidy junk (derive B junk key off len outNull) := by
  unfold derive Prg.derive
  split_ifs
  · exact ⟨rfl, nofun⟩
  · cases key with
    | none => exact ⟨rfl, nofun⟩
    | some k => exact prgDerivation_exact B junk k off len outNull

theorem sDerive_exact (key : Option Bytes) (off len : Nat) (outNull : Bool) :
    (sDerive B junk key off len outNull).res = (Prg.sDerive B key off len outNull).1 ∧ Tidy junk (sDerive B junk key off len outNull) := by
  unfold sDerive Prg.sDerive
  cases key with
  | none => exact ⟨rfl, nofun⟩
  | some k => exact prgDerivation_exact B junk k off len outNull

theorem derive_length {key : Option Bytes} {off len : Nat} {d : Bytes} (h : Prg.derive B key off len false = .ok d) : d.length = len := by
  unfold Prg.derive at h
  split_ifs at h with hl
  · injection h with h
    rw [← h, hl]; rfl
  · cases key with
    | none => cases h
    | some k => exact prgDerivation_length B h

theorem sDerive_length {key : Option Bytes} {off len : Nat} {d : Bytes} {n : Bool} (h : (Prg.sDerive B key off len n).1 = .ok d) : d.length = len := by
  unfold Prg.sDerive at h
  cases key with
  | none => cases h
  | some k =>
    cases n with
    | false => exact prgDerivation_length B h
    | true => exact absurd h (by simp [Prg.prgDerivation])

theorem intoString_exact (len : Nat) (data : Bytes) (hd : data.length = len) (hi : Erased data ∨ Untouched junk data) (o : Out Bytes)
    (ho : ∀ d, o.res = .ok d → d.length = len) (ht : Tidy junk o) : (intoString len data o).res = o.res ∧ Tidy junk (intoString len data o) := by
  unfold intoString
  simp only [Z.run, Z.call_bind]
  unfold Tidy at ht
  cases h : o.res with
  | ok d =>
    rw [h] at ht
    have hl := ho d h
    have e0 : putAt data 0 d = .ok d := putAt_all (by omega)
    simp only [Z.upd_bind, e0, Z.get_bind, memzero_eq hl, Z.pure_run]
    refine ⟨by rw [List.take_of_length_le (by omega)], Tidy.of_ok rfl ?_⟩
    intro b hb
    simp only [List.append_nil, List.mem_append, List.mem_cons, List.not_mem_nil, or_false] at hb
    rcases hb with hb | rfl
    · exact ht b hb
    · exact erased_replicate _
  | exc e =>
    rw [h] at ht
    refine ⟨rfl, Tidy.of_exc rfl ?_⟩
    intro b hb
    simp only [List.mem_append, List.mem_cons, List.not_mem_nil, or_false] at hb
    rcases hb with hb | rfl
    · exact ht b hb
    · exact hi
  | ub => exact ⟨rfl, Tidy.of_ub rfl⟩

end

/-- The generator: for every key, also an empty one, every offset and every length, the derivation into a buffer and into a string, of an
object and of a key given up, has the result of the model of C12 and leaves only erased or never written buffers. -/
theorem c109_prg (B : Bytes → Nat → Nat → UInt8) (junk : Nat → UInt8) (key : Option Bytes) (off len : Nat) (n : Bool) :
    ((derive B junk key off len n).res = Prg.derive B key off len n ∧ Tidy junk (derive B junk key off len n)) ∧
    ((sDerive B junk key off len n).res = (Prg.sDerive B key off len n).1 ∧ Tidy junk (sDerive B junk key off len n)) ∧
    ((deriveString B junk key off len).res = Prg.deriveString B key off len ∧ Tidy junk (deriveString B junk key off len)) ∧
    ((sDeriveString B junk key off len).res = (Prg.sDeriveString B key off len).1 ∧ Tidy junk (sDeriveString B junk key off len)) ∧
    ((sDeriveString0 B junk key len).res = (Prg.sDeriveString0 B key len).1 ∧ Tidy junk (sDeriveString0 B junk key len)) := by
  refine ⟨derive_exact B junk key off len n, sDerive_exact B junk key off len n, ?_, ?_, ?_⟩
  · obtain ⟨h1, h2⟩ := derive_exact B junk key off len false
    have := intoString_exact junk len (rawBuf junk len) (rawBuf_length _ _) (.inr (untouched_raw _ _)) _
      (fun d hd => derive_length B (h1 ▸ hd)) h2
    exact ⟨this.1.trans h1, this.2⟩
  · obtain ⟨h1, h2⟩ := sDerive_exact B junk key off len false
    have := intoString_exact junk len (rawBuf junk len) (rawBuf_length _ _) (.inr (untouched_raw _ _)) _
      (fun d hd => sDerive_length B (h1 ▸ hd)) h2
    exact ⟨this.1.trans h1, this.2⟩
  · obtain ⟨h1, h2⟩ := sDerive_exact B junk key 0 len (decide (len = 0))
    have := intoString_exact junk len (List.replicate len 0) (List.length_replicate ..) (.inl (erased_replicate _)) _
      (fun d hd => sDerive_length B (h1 ▸ hd)) h2
    exact ⟨this.1.trans h1, this.2⟩

/-- A block function for the examples. -/
def exBlock (k : Bytes) (c i : Nat) : UInt8 := k.getD 0 0 + UInt8.ofNat (3 * c + i + 1)

/-- The unaligned derivation of 70 bytes, whose block buffer is used. -/
example : (deriveString exBlock (fun _ => 5) (some [9]) 10 70).left = [List.replicate 64 0, List.replicate 70 0] ∧
    (deriveString exBlock (fun _ => 5) none 10 2).left = [[5, 5]] := by decide +kernel

/-! ### Several keys -/

theorem slice_le {b : Bytes} {p n : Nat} (h : p + n ≤ b.length) : Cipher.slice b p n = .ok ((b.drop p).take n) := by
  unfold Cipher.slice
  rw [if_neg (by omega)]

theorem pushKeys_exact (K : Nat) : ∀ (n i : Nat) (s : Bytes), (i + n) * K ≤ s.length →
    (pushKeys K n i s).res = .ok ((List.range n).map fun j => (s.drop ((i + j) * K)).take K) ∧ (pushKeys K n i s).left = [] ∧
      (pushKeys K n i s).st.length = s.length
  | 0, i, s, _ => ⟨rfl, rfl, rfl⟩
  | n + 1, i, s, h => by
    have hi : i * K + K ≤ s.length := by
      have : (i + 1) * K ≤ (i + (n + 1)) * K := Nat.mul_le_mul_right K (by omega)
      rw [Nat.add_mul, Nat.one_mul] at this
      omega
    have e0 : putAt s (i * K) (List.replicate K 0) = .ok (s.take (i * K) ++ List.replicate K 0 ++ s.drop (i * K + K)) := by
      rw [putAt_le (by rw [List.length_replicate]; exact hi), List.length_replicate]
    generalize hs' : s.take (i * K) ++ List.replicate K (0 : UInt8) ++ s.drop (i * K + K) = s' at e0
    have hl : s'.length = s.length := by
      rw [← hs']
      simp only [List.length_append, List.length_take, List.length_replicate, List.length_drop]
      omega
    have hpre : (s.take (i * K) ++ List.replicate K (0 : UInt8)).length = (i + 1) * K := by
      rw [List.length_append, List.length_take, List.length_replicate, Nat.min_eq_left (by omega), Nat.add_mul, Nat.one_mul]
    have hdrop : ∀ p, (i + 1) * K ≤ p → s'.drop p = s.drop p := by
      intro p hp
      rw [← hs', List.drop_append, List.drop_eq_nil_of_le (by omega), List.nil_append, hpre, List.drop_drop]
      congr 1
      rw [Nat.add_mul, Nat.one_mul] at hp ⊢
      omega
    obtain ⟨h1, h2, h3⟩ := pushKeys_exact K n (i + 1) s' (by rw [hl, show i + 1 + n = i + (n + 1) by omega]; exact h)
    have e : pushKeys K (n + 1) i s = ⟨[], (pushKeys K n (i + 1) s').st,
        .ok ((s.drop (i * K)).take K :: (List.range n).map fun j => (s'.drop ((i + 1 + j) * K)).take K)⟩ := by
      rw [pushKeys]
      simp only [Z.get_bind, Z.lift_bind, slice_le hi, Z.upd_bind, e0]
      show Z.bind _ _ _ = _
      unfold Z.bind
      simp only [h1, h2, Z.pure_run, List.nil_append]
    rw [e]
    refine ⟨?_, rfl, h3.trans hl⟩
    simp only [List.range_succ_eq_map, List.map_cons, List.map_map, Nat.add_zero]
    congr 2
    apply List.map_congr_left
    intro j _
    simp only [Function.comp_apply]
    rw [hdrop _ (Nat.mul_le_mul_right K (by omega)), show i + 1 + j = i + (j + 1) by omega]

theorem keysFrom_exact (junk : Nat → UInt8) (K n : Nat) (o : Out Bytes) (ho : ∀ d, o.res = .ok d → d.length = n * K) (ht : Tidy junk o) :
    (keysFrom junk K n o).res = Prg.cutKeys K n <$> o.res ∧ Tidy junk (keysFrom junk K n o) := by
  unfold keysFrom
  simp only [Z.run, Z.call_bind]
  unfold Tidy at ht
  cases h : o.res with
  | ok d =>
    rw [h] at ht
    have hl := ho d h
    have e0 : putAt (rawBuf junk (n * K)) 0 d = .ok d := putAt_all (by rw [hl, rawBuf_length])
    obtain ⟨h1, h2, h3⟩ := pushKeys_exact K n 0 d (by rw [Nat.zero_add, hl])
    have e1 : ∀ g : List Bytes → Z Bytes (List Bytes), (pushKeys K n 0 >>= g) d =
        g ((List.range n).map fun j => (d.drop ((0 + j) * K)).take K) (pushKeys K n 0 d).st := by
      intro g
      show Z.bind _ _ _ = _
      unfold Z.bind
      simp only [h1, h2, List.nil_append]
    have e2 : memzero (pushKeys K n 0 d).st.length (pushKeys K n 0 d).st = .ok (List.replicate (n * K) 0) := by
      rw [memzero_eq rfl, h3, hl]
    simp only [Z.upd_bind, e0, e1, e2, Z.pure_run]
    refine ⟨by simp only [Nat.zero_add, Res.map_ok, Prg.cutKeys], Tidy.of_ok rfl ?_⟩
    intro b hb
    simp only [List.append_nil, List.mem_append, List.mem_cons, List.not_mem_nil, or_false] at hb
    rcases hb with hb | rfl
    · exact ht b hb
    · exact erased_replicate _
  | exc e =>
    rw [h] at ht
    refine ⟨rfl, Tidy.of_exc rfl ?_⟩
    intro b hb
    simp only [List.mem_append, List.mem_cons, List.not_mem_nil, or_false] at hb
    rcases hb with hb | rfl
    · exact ht b hb
    · exact .inr (untouched_raw _ _)
  | ub => exact ⟨rfl, Tidy.of_ub rfl⟩

theorem mod_of_tooLarge {K n : Nat} (h : ¬ Prg.tooLarge K n = true) : (n * K) % W64 = n * K := by
  apply Nat.mod_eq_of_lt
  by_cases hn : n = 0
  · rw [hn, Nat.zero_mul]; exact Nat.two_pow_pos 64
  · have h2 : ¬ K ≥ (W64 - 1) / n := by
      intro hc
      apply h
      unfold Prg.tooLarge
      rw [Bool.and_eq_true, decide_eq_true_eq, decide_eq_true_eq]
      exact ⟨by omega, hc⟩
    have h3 : n * K ≤ n * ((W64 - 1) / n) := Nat.mul_le_mul_left n (by omega)
    have h4 := Nat.mul_div_le (W64 - 1) n
    have h5 : 0 < W64 := Nat.two_pow_pos 64
    generalize W64 = w at *
    omega

/-- Several keys at once: the buffer between the generator and the keys is erased, for every key, number and offset. -/
theorem c109_keys (B : Bytes → Nat → Nat → UInt8) (junk : Nat → UInt8) (K : Nat) (key : Option Bytes) (n off : Nat) :
    ((deriveKeys B junk K key n off).res = Prg.deriveKeys B K key n off ∧ Tidy junk (deriveKeys B junk K key n off)) ∧
    ((sDeriveKeys B junk K key n off).res = (Prg.sDeriveKeys B K key n off).1 ∧ Tidy junk (sDeriveKeys B junk K key n off)) := by
  constructor
  · unfold deriveKeys Prg.deriveKeys
    split_ifs with h1 h2 h3
    · exact ⟨rfl, nofun⟩
    · exact ⟨rfl, nofun⟩
    · exact ⟨rfl, nofun⟩
    · rw [mod_of_tooLarge h1]
      obtain ⟨e1, e2⟩ := derive_exact B junk key ((off * K) % W64) (n * K) false
      have := keysFrom_exact junk K n _ (fun d hd => derive_length B (e1 ▸ hd)) e2
      exact ⟨this.1.trans (by rw [e1]), this.2⟩
  · unfold sDeriveKeys Prg.sDeriveKeys
    split_ifs with h0 h3 h1 h2
    · exact ⟨rfl, nofun⟩
    · exact ⟨rfl, nofun⟩
    · exact ⟨rfl, nofun⟩
    · exact ⟨rfl, nofun⟩
    · rw [mod_of_tooLarge h1]
      obtain ⟨e1, e2⟩ := sDerive_exact B junk key ((off * K) % W64) (n * K) false
      have := keysFrom_exact junk K n _ (fun d hd => sDerive_length B (e1 ▸ hd)) e2
      exact ⟨this.1.trans (by rw [e1]), this.2⟩

/-- `Prg::duplicate`: the copy of the key on the stack is erased; a copy of an object without a key throws before it is written. -/
theorem c109_duplicate (junk : Nat → UInt8) (key : Option Bytes) (hk : ∀ k, key = some k → k.length = 32) :
    (duplicate junk key).res = Prg.duplicate key ∧ Tidy junk (duplicate junk key) := by
  unfold duplicate Prg.duplicate
  simp only [Z.run]
  cases key with
  | none =>
    refine ⟨rfl, Tidy.of_exc rfl ?_⟩
    intro b hb
    simp only [unlockGet, Z.lift_bind, List.nil_append, List.mem_cons, List.not_mem_nil, or_false] at hb
    rw [hb]
    exact .inr (untouched_raw _ _)
  | some k =>
    have hl := hk k rfl
    have e0 : putAt (rawBuf junk 32) 0 k = .ok k := putAt_all (by rw [hl, rawBuf_length])
    have e1 : Cipher.slice k 0 32 = .ok k := by rw [slice_le (by omega), List.drop_zero, List.take_of_length_le (by omega)]
    simp only [unlockGet, Z.lift_bind, Z.upd_bind, e0, keyFrom, Z.get_bind, id, e1, memzero_eq hl, Res.map_ok, Z.pure_run]
    refine ⟨trivial, Tidy.of_ok rfl ?_⟩
    intro b hb
    simp only [List.nil_append, List.mem_cons, List.not_mem_nil, or_false] at hb
    rw [hb]
    exact erased_replicate _

example : (deriveKeys exBlock (fun _ => 5) 3 (some [9]) 2 1).left = [List.replicate 64 0, List.replicate 6 0] ∧
    (deriveKeys exBlock (fun _ => 5) 3 (some [9]) 2 1).res = .ok [[13, 14, 15], [16, 17, 18]] := by decide +kernel

/-! ## The cipher -/

section

variable (P : Cipher.Prims) (junk : Nat → UInt8)

theorem encryptBuf_exact (hP : ∀ k s, (P.kdf k s).length = 32) (key : Option Bytes) (salt inp : Bytes) (len : Nat) (out : Bytes) :
    (encryptBuf P junk key salt inp len out).res = Cipher.encryptBuf P key salt inp len out ∧
      Tidy junk (encryptBuf P junk key salt inp len out) := by
  unfold encryptBuf Cipher.encryptBuf
  simp only [Z.run]
  rcases putAt_cases out 0 salt with h | ⟨o1, h, l⟩
  · rw [h]; exact ⟨rfl, Tidy.of_ub rfl⟩
  rw [h]
  simp only [Z.lift_bind, Res.bind_ok]
  cases key with
  | none =>
    refine ⟨rfl, Tidy.of_exc rfl ?_⟩
    intro b hb
    simp only [unlockGet, List.nil_append, List.mem_cons, List.not_mem_nil, or_false] at hb
    rw [hb]
    exact .inr (untouched_raw _ _)
  | some k =>
    simp only [unlockGet]
    cases h1 : Cipher.slice o1 0 Cipher.nonceSize with
    | exc e => unfold Cipher.slice at h1; split_ifs at h1
    | ub => exact ⟨rfl, Tidy.of_ub rfl⟩
    | ok s =>
      have e0 : putAt (rawBuf junk 32) 0 (P.kdf k s) = .ok (P.kdf k s) := putAt_all (by rw [hP, rawBuf_length])
      simp only [Z.upd_bind, e0, Z.lift_bind, Res.bind_ok]
      cases h2 : Cipher.slice inp 0 len with
      | exc e => unfold Cipher.slice at h2; split_ifs at h2
      | ub => exact ⟨rfl, Tidy.of_ub rfl⟩
      | ok m =>
        simp only [Z.lift_bind, Res.bind_ok]
        cases h3 : Cipher.slice o1 0 12 with
        | exc e => unfold Cipher.slice at h3; split_ifs at h3
        | ub => exact ⟨rfl, Tidy.of_ub rfl⟩
        | ok nonce =>
          simp only [Z.lift_bind, Z.get_bind, Res.bind_ok]
          rcases putAt_cases o1 Cipher.nonceSize (P.enc (P.kdf k s) nonce m) with h4 | ⟨o2, h4, _⟩
          · rw [h4]; exact ⟨rfl, Tidy.of_ub rfl⟩
          · rw [h4]
            simp only [Z.upd_bind, memzero_eq (hP k s), Z.pure_run]
            refine ⟨trivial, Tidy.of_ok rfl ?_⟩
            intro b hb
            simp only [List.nil_append, List.mem_cons, List.not_mem_nil, or_false] at hb
            rw [hb]
            exact erased_replicate _

theorem decryptBuf_exact (hP : ∀ k s, (P.kdf k s).length = 32) (key : Option Bytes) (inp : Bytes) (len : Nat) (out : Bytes) :
    (decryptBuf P junk key inp len out).res = Cipher.decryptBuf P key inp len out ∧
      Tidy junk (decryptBuf P junk key inp len out) := by
  unfold decryptBuf Cipher.decryptBuf
  by_cases hl : len < Cipher.ciphertextLength 0
  · rw [if_pos hl, if_pos hl]; exact ⟨rfl, nofun⟩
  rw [if_neg hl, if_neg hl]
  simp only [Z.run]
  cases key with
  | none =>
    refine ⟨rfl, Tidy.of_exc rfl ?_⟩
    intro b hb
    simp only [unlockGet, Z.lift_bind, List.nil_append, List.mem_cons, List.not_mem_nil, or_false] at hb
    rw [hb]
    exact .inr (untouched_raw _ _)
  | some k =>
    simp only [unlockGet, Z.lift_bind]
    cases h1 : Cipher.slice inp 0 Cipher.nonceSize with
    | exc e => unfold Cipher.slice at h1; split_ifs at h1
    | ub => exact ⟨rfl, Tidy.of_ub rfl⟩
    | ok s =>
      have e0 : putAt (rawBuf junk 32) 0 (P.kdf k s) = .ok (P.kdf k s) := putAt_all (by rw [hP, rawBuf_length])
      simp only [Z.upd_bind, e0, Z.lift_bind, Res.bind_ok]
      cases h2 : Cipher.slice inp Cipher.nonceSize (len - Cipher.nonceSize) with
      | exc e => unfold Cipher.slice at h2; split_ifs at h2
      | ub => exact ⟨rfl, Tidy.of_ub rfl⟩
      | ok c =>
        simp only [Z.lift_bind, Res.bind_ok]
        cases h3 : Cipher.slice inp 0 12 with
        | exc e => unfold Cipher.slice at h3; split_ifs at h3
        | ub => exact ⟨rfl, Tidy.of_ub rfl⟩
        | ok nonce =>
          simp only [Z.get_bind, Res.bind_ok, Z.upd_bind, memzero_eq (hP k s)]
          cases P.dec (P.kdf k s) nonce c with
          | none =>
            refine ⟨rfl, Tidy.of_exc rfl ?_⟩
            intro b hb
            simp only [Z.lift, List.nil_append, List.mem_cons, List.not_mem_nil, or_false] at hb
            rw [hb]
            exact .inl (erased_replicate _)
          | some m =>
            rcases putAt_cases out 0 m with h4 | ⟨o2, h4, _⟩
            · simp only [h4]; exact ⟨rfl, Tidy.of_ub rfl⟩
            · simp only [h4]
              refine ⟨rfl, Tidy.of_ok rfl ?_⟩
              intro b hb
              simp only [Z.lift, List.nil_append, List.mem_cons, List.not_mem_nil, or_false] at hb
              rw [hb]
              exact erased_replicate _

end

theorem encryptString_exact (P : Cipher.Prims) (hP : ∀ k s, (P.kdf k s).length = 32) (junk : Nat → UInt8) (key : Option Bytes) (salt inp : Bytes) :
    (encryptString P junk key salt inp).res = Cipher.encryptString P junk key salt inp ∧
      (key.isSome → Tidy junk (encryptString P junk key salt inp)) := by
  unfold encryptString Cipher.encryptString
  by_cases hi : inp.isEmpty = true
  · rw [if_pos hi, if_pos hi]; exact ⟨rfl, fun _ => nofun⟩
  rw [if_neg hi, if_neg hi]
  generalize Cipher.ciphertextLength inp.length = cl
  simp only [Z.run, Z.upd_bind]
  have h0 : ∀ o1, putAt (rawBuf junk cl) 0 salt = .ok o1 →
      Cipher.encryptBuf P key salt inp inp.length o1 = Cipher.encryptBuf P key salt inp inp.length (rawBuf junk cl) := by
    intro o1 h
    have h' : putAt o1 0 salt = .ok o1 := by
      unfold putAt at h
      split_ifs at h with hc
      injection h with h
      rw [putAt_le (by rw [← h]; simp), ← h]
      simp
    unfold Cipher.encryptBuf
    rw [h, h']
  rcases putAt_cases (rawBuf junk cl) 0 salt with h | ⟨o1, h, l⟩
  · rw [h]
    have : Cipher.encryptBuf P key salt inp inp.length (rawBuf junk cl) = .ub := by unfold Cipher.encryptBuf; rw [h]; rfl
    rw [this]
    exact ⟨rfl, fun _ => Tidy.of_ub rfl⟩
  rw [h]
  obtain ⟨e1, e2⟩ := encryptBuf_exact P junk hP key salt inp inp.length o1
  rw [h0 o1 h] at e1
  have hlen : ∀ d, Cipher.encryptBuf P key salt inp inp.length (rawBuf junk cl) = .ok d → d.length = cl := by
    intro d hd
    unfold Cipher.encryptBuf at hd
    rw [h] at hd
    simp only [Res.bind_ok] at hd
    cases key with
    | none => cases hd
    | some k =>
      simp only [] at hd
      cases h1 : Cipher.slice o1 0 Cipher.nonceSize with
      | exc e => rw [h1] at hd; cases hd
      | ub => rw [h1] at hd; cases hd
      | ok s =>
        rw [h1] at hd
        simp only [Res.bind_ok] at hd
        cases h2 : Cipher.slice inp 0 inp.length with
        | exc e => rw [h2] at hd; cases hd
        | ub => rw [h2] at hd; cases hd
        | ok m =>
          rw [h2] at hd
          simp only [Res.bind_ok] at hd
          cases h3 : Cipher.slice o1 0 12 with
          | exc e => rw [h3] at hd; cases hd
          | ub => rw [h3] at hd; cases hd
          | ok nonce =>
            rw [h3] at hd
            simp only [Res.bind_ok] at hd
            rcases putAt_cases o1 Cipher.nonceSize (P.enc (P.kdf k s) nonce m) with h4 | ⟨o2, h4, l4⟩
            · rw [h4] at hd; cases hd
            · rw [h4] at hd
              injection hd with hd
              rw [← hd, l4, l, rawBuf_length]
  unfold Tidy at e2
  simp only [Z.get_bind, Z.call_bind]
  cases hr : (encryptBuf P junk key salt inp inp.length o1).res with
  | ub =>
    rw [hr] at e1
    rw [← e1]
    exact ⟨rfl, fun _ => Tidy.of_ub rfl⟩
  | exc e =>
    rw [hr] at e1
    rw [← e1]
    refine ⟨rfl, fun hk => ?_⟩
    exfalso
    obtain ⟨k, rfl⟩ := Option.isSome_iff_exists.mp hk
    symm at e1
    unfold Cipher.encryptBuf at e1
    rw [h] at e1
    simp only [Res.bind_ok] at e1
    cases h1 : Cipher.slice o1 0 Cipher.nonceSize with
    | exc e => unfold Cipher.slice at h1; split_ifs at h1
    | ub => rw [h1] at e1; cases e1
    | ok s =>
      rw [h1] at e1
      simp only [Res.bind_ok] at e1
      cases h2 : Cipher.slice inp 0 inp.length with
      | exc e => unfold Cipher.slice at h2; split_ifs at h2
      | ub => rw [h2] at e1; cases e1
      | ok m =>
        rw [h2] at e1
        simp only [Res.bind_ok] at e1
        cases h3 : Cipher.slice o1 0 12 with
        | exc e => unfold Cipher.slice at h3; split_ifs at h3
        | ub => rw [h3] at e1; cases e1
        | ok nonce =>
          rw [h3] at e1
          simp only [Res.bind_ok] at e1
          rcases putAt_cases o1 Cipher.nonceSize (P.enc (P.kdf k s) nonce m) with h4 | ⟨o2, h4, l4⟩ <;> rw [h4] at e1 <;> cases e1
  | ok d =>
    rw [hr] at e1 e2
    rw [← e1]
    have hd := hlen d e1.symm
    simp only [Z.upd_bind, Z.get_bind, memzero_eq hd, Z.pure_run, Res.map_ok]
    refine ⟨trivial, fun _ => Tidy.of_ok rfl ?_⟩
    intro b hb
    simp only [List.append_nil, List.mem_append, List.mem_cons, List.not_mem_nil, or_false] at hb
    rcases hb with hb | rfl
    · exact e2 b hb
    · exact erased_replicate _

/-- The cipher: encryption and decryption of buffers and encryption of strings have the results of the model of C23, and the derived key and the
buffer of the ciphertext are erased, also when the decryption fails. -/
theorem c109_cipher (P : Cipher.Prims) (hP : ∀ k s, (P.kdf k s).length = 32) (junk : Nat → UInt8) (key : Option Bytes) (salt inp : Bytes)
    (len : Nat) (out : Bytes) :
    ((encryptBuf P junk key salt inp len out).res = Cipher.encryptBuf P key salt inp len out ∧
      Tidy junk (encryptBuf P junk key salt inp len out)) ∧
    ((decryptBuf P junk key inp len out).res = Cipher.decryptBuf P key inp len out ∧ Tidy junk (decryptBuf P junk key inp len out)) ∧
    ((encryptString P junk key salt inp).res = Cipher.encryptString P junk key salt inp ∧
      (key.isSome → Tidy junk (encryptString P junk key salt inp))) :=
  ⟨encryptBuf_exact P junk hP key salt inp len out, decryptBuf_exact P junk hP key inp len out, encryptString_exact P hP junk key salt inp⟩

/-- The toy cipher with derived keys of exactly 32 bytes. -/
def exCipher : Cipher.Prims := { Cipher.toy with kdf := fun k s => List.replicate 32 ((k ++ s).foldl (fun a b => a * 7 + b) 1) }

example : (∀ k s, (exCipher.kdf k s).length = 32) ∧
    (encryptString exCipher (fun _ => 5) (some [1, 2]) (List.replicate 16 3) [4, 5, 6]).left = [List.replicate 32 0, List.replicate 35 0] := by
  exact ⟨fun k s => List.length_replicate .., by decide +kernel⟩

/-- `Cipher::decrypt` of a string: the result is the one of the model of C23.  The vector with the plaintext is not erased: after every successful
decryption a copy of the plaintext stays in freed memory.  After a failing one the buffers are erased or never written. -/
theorem c109_decrypt_string_false (P : Cipher.Prims) (hP : ∀ k s, (P.kdf k s).length = 32) (junk : Nat → UInt8) (key : Option Bytes) (inp : Bytes) :
    (decryptString P junk key inp).res = Cipher.decryptString P key inp ∧
    (∀ m, (decryptString P junk key inp).res = .ok m → ∃ b ∈ (decryptString P junk key inp).left, b.take (Cipher.plaintextLength inp.length) = m) ∧
    (∀ e, (decryptString P junk key inp).res = .exc e → Tidy junk (decryptString P junk key inp)) := by
  unfold decryptString Cipher.decryptString
  by_cases hi : inp.length ≤ Cipher.nonceSize + Cipher.aBytes
  · rw [if_pos hi, if_pos hi]
    exact ⟨rfl, nofun, fun _ _ => nofun⟩
  rw [if_neg hi, if_neg hi]
  generalize Cipher.plaintextLength inp.length = pl
  simp only [Z.run, Z.get_bind, Z.call_bind]
  obtain ⟨e1, e2⟩ := decryptBuf_exact P junk hP key inp inp.length (List.replicate pl 0)
  unfold Tidy at e2
  cases hr : (decryptBuf P junk key inp inp.length (List.replicate pl 0)).res with
  | ub =>
    rw [hr] at e1
    rw [← e1]
    exact ⟨rfl, nofun, nofun⟩
  | exc e =>
    rw [hr] at e1 e2
    rw [← e1]
    refine ⟨rfl, nofun, fun _ _ => Tidy.of_exc rfl ?_⟩
    intro b hb
    simp only [List.mem_append, List.mem_cons, List.not_mem_nil, or_false] at hb
    rcases hb with hb | rfl
    · exact e2 b hb
    · exact .inl (erased_replicate _)
  | ok d =>
    rw [hr] at e1
    rw [← e1]
    simp only [Z.upd_bind, Z.get_bind, Z.pure_run, Res.map_ok]
    refine ⟨trivial, ?_, nofun⟩
    intro m hm
    injection hm with hm
    exact ⟨d, by simp, hm⟩

/-- A concrete run: the plaintext `[4, 5, 6]` is in the freed vector. -/
example : ∃ c, (encryptString exCipher (fun _ => 5) (some [1, 2]) (List.replicate 16 3) [4, 5, 6]).res = .ok c ∧
    (decryptString exCipher (fun _ => 5) (some [1, 2]) c).res = .ok [4, 5, 6] ∧
    (decryptString exCipher (fun _ => 5) (some [1, 2]) c).left = [List.replicate 32 0, [4, 5, 6]] := by
  refine ⟨_, rfl, ?_⟩
  decide +kernel

/-! ## The permutation -/

/-- `Prp::encrypt` and `Prp::decrypt` of strings: the result is the one of the model of C70.  The buffer `data` is not erased: a copy of the
result, for `decrypt` the plaintext, stays in freed memory. -/
theorem c109_prp_false (R : Aez.Block → Aez.Block) (avail : Bool) (ctx : Option Aez.Ctx) (junk : Nat → UInt8) (d : Bool) (inp : Bytes) :
    (prpString R avail ctx junk d inp).res = Aez.prpString R avail ctx junk d inp ∧
    (∀ m, (prpString R avail ctx junk d inp).res = .ok m → (prpString R avail ctx junk d inp).left = [m]) ∧
    (∀ e, (prpString R avail ctx junk d inp).res = .exc e → Tidy junk (prpString R avail ctx junk d inp)) := by
  unfold prpString Aez.prpString
  split_ifs with h1 h2
  · exact ⟨rfl, nofun, fun _ _ => nofun⟩
  · exact ⟨rfl, nofun, fun _ _ => nofun⟩
  · simp only [Z.run, Z.get_bind, Z.lift_bind]
    cases hr : Aez.prpBuf R avail ctx d false inp.length ⟨Aez.Buf.ofList inp, ⟨inp.length, junk⟩⟩ with
    | ub => exact ⟨rfl, nofun, nofun⟩
    | exc e =>
      refine ⟨rfl, nofun, fun _ _ => Tidy.of_exc rfl ?_⟩
      intro b hb
      simp only [List.nil_append, List.mem_cons, List.not_mem_nil, or_false] at hb
      rw [hb]
      exact .inr (untouched_raw junk inp.length)
    | ok m =>
      simp only [Z.upd_bind, Z.get_bind, Z.pure_run, Res.map_ok]
      refine ⟨trivial, ?_, nofun⟩
      intro x hx
      injection hx with hx
      simp [hx]

/-! ## The hash function -/

/-- `Hash::hash` with a shorter output, and the versions for strings: the results are those of the model of C19.  The local array is not erased:
the whole digest, also the part that is not given out, stays on the stack. -/
theorem c109_hash_false (H : Bytes → Bytes) (hH : ∀ m, (H m).length = 64) (junk : Nat → UInt8) (m : Bytes) (n : Nat) (hn : n ≤ 64) :
    ((hashTrunc H junk (some m) n false).res = Mac.hashTrunc H (some m) n false ∧ (hashTrunc H junk (some m) n false).left = [H m]) ∧
    ((hashString H junk m).res = Mac.hashString H m ∧ (hashString H junk m).left = [H m]) ∧
    ((hashStringTrunc H junk m n).res = Mac.hashStringTrunc H m n ∧ (hashStringTrunc H junk m n).left = [H m]) := by
  have e0 : putAt (rawBuf junk 64) 0 (H m) = .ok (H m) := putAt_all (by rw [hH, rawBuf_length])
  refine ⟨?_, ?_, ?_⟩
  · unfold hashTrunc Mac.hashTrunc
    rw [if_neg (by omega), if_neg (by omega)]
    simp only [Bool.false_eq_true, if_false, hashBuf, Z.run, Z.lift_bind, Z.upd_bind, e0, Z.get_bind, Z.pure_run, Res.map_ok]
    exact ⟨trivial, rfl⟩
  · unfold hashString Mac.hashString
    simp only [Bool.false_eq_true, if_false, hashBuf, Z.run, Z.lift_bind, Z.upd_bind, e0, Z.get_bind, Z.pure_run, Res.map_ok]
    exact ⟨trivial, rfl⟩
  · unfold hashStringTrunc Mac.hashStringTrunc
    rw [if_neg (by omega), if_neg (by omega)]
    simp only [Bool.false_eq_true, if_false, hashBuf, Z.run, Z.lift_bind, Z.upd_bind, e0, Z.get_bind, Z.pure_run, Res.map_ok]
    exact ⟨trivial, rfl⟩

example : (hashString toyH (fun _ => 0) [1]).left = [toyH [1]] := (c109_hash_false toyH toyH_length _ [1] 3 (by decide)).2.1.2

/-- `random_string`: a copy of the random string stays in freed memory. -/
theorem c109_random_string_false (junk : Nat → UInt8) (r : Bytes) :
    (randomString junk r.length r).res = .ok r ∧ (randomString junk r.length r).left = [r] := by
  have e0 : putAt (rawBuf junk r.length) 0 r = .ok r := putAt_all (by rw [rawBuf_length])
  unfold randomString
  simp only [Z.run, Z.upd_bind, e0, Z.get_bind, Z.pure_run, List.take_length]
  exact ⟨trivial, rfl⟩

end Verif.Scrub
