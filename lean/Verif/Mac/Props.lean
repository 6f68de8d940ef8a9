import Verif.Mac.Lemmas

/-!
# Properties C16 (HMAC), C17, C18 (PRF), C19 (hash wrappers)

`H` is the hash function; `64` is its digest length and `128` its block length.
`junk` is the arbitrary initial content of uninitialised buffers.
-/

namespace Verif.Mac

open Verif

/-- A toy 64-byte "hash" used by the examples. -/
def toyH (m : Bytes) : Bytes := (List.range 64).map fun i => UInt8.ofNat (i * 7 + leNat m + m.length)

theorem toyH_length : ∀ m, (toyH m).length = 64 := by intro m; simp [toyH]

def toyKey32 : Bytes := (List.range 32).map UInt8.ofNat

/-! ## C16 -/

/-- C16: for keys of at most one hash block the function computes RFC 2104 HMAC, truncated to the requested
length, whatever uninitialised memory contains.
Partial: `HMac` also accepts (`static_assert` only demands at least 16 bytes) keys longer than a block, for which
the claim is false, see `c16_long_key_truncated`, `c16_long_key_false`, `c16_very_long_key_undefined`. -/
theorem c16_hmac_partial {H : Bytes → Bytes} (hH : ∀ m, (H m).length = 64) (junk : Nat → UInt8) (k m : Bytes)
    (hk : k.length ≤ 128) (outLen : Nat) (ho : outLen ≤ 64) :
    hmac H junk k.length (some k) (some m) false outLen = .ok ((HMAC H k m).take outLen) :=
  hmac_eq hH junk k.length k m rfl hk outLen ho

example : hmac toyH (fun i => UInt8.ofNat (i * 3 + 1)) toyKey32.length (some toyKey32) (some [1, 2, 3]) false 12 =
    .ok ((HMAC toyH toyKey32 [1, 2, 3]).take 12) :=
  c16_hmac_partial toyH_length _ _ _ (by decide) 12 (by decide)

/-- C16: a shorter tag is a prefix of the full one. -/
theorem c16_truncation {H : Bytes → Bytes} (hH : ∀ m, (H m).length = 64) (junk : Nat → UInt8) (k m : Bytes)
    (hk : k.length ≤ 128) (outLen : Nat) (ho : outLen ≤ 64) :
    ∃ full, hmacArray H junk k.length (some k) (some m) = .ok full ∧ full.length = 64 ∧
      hmac H junk k.length (some k) (some m) false outLen = .ok (full.take outLen) := by
  have hl : (HMAC H k m).length = 64 := hH _
  refine ⟨HMAC H k m, ?_, hl, c16_hmac_partial hH junk k m hk outLen ho⟩
  have := c16_hmac_partial hH junk k m hk 64 (Nat.le_refl _)
  rwa [List.take_of_length_le (by omega)] at this

example : ∃ full, hmacArray toyH (fun _ => 0) 32 (some toyKey32) (some [5]) = .ok full ∧ full.length = 64 ∧
      hmac toyH (fun _ => 0) 32 (some toyKey32) (some [5]) false 7 = .ok (full.take 7) :=
  c16_truncation toyH_length _ toyKey32 _ (by decide) 7 (by decide)

/-- C16: bad arguments are refused with `invalid_argument`, for every key (also an empty one). -/
theorem c16_rejects (H : Bytes → Bytes) (junk : Nat → UInt8) (N : Nat) (key : Option Bytes) (inp : Option Bytes)
    (outNull : Bool) (outLen : Nat) (h : outLen > 64 ∨ inp = none ∨ outNull = true) :
    hmac H junk N key inp outNull outLen = .exc .invalidArgument := by
  unfold hmac
  by_cases h1 : outLen > digestSize
  · rw [if_pos h1]
  · rw [if_neg h1]
    cases inp with
    | none => rfl
    | some m =>
      have : outNull = true := by
        rcases h with h | h | h
        · exact absurd h h1
        · cases h
        · exact h
      subst this; rfl

example : hmac toyH (fun _ => 0) 32 (some toyKey32) (some [1]) false 65 = .exc .invalidArgument :=
  c16_rejects _ _ _ _ _ _ _ (Or.inl (by decide))

/-- C16: using a key that was moved away is refused (when the other arguments are good). -/
theorem c16_moved_key_throws (H : Bytes → Bytes) (junk : Nat → UInt8) (N : Nat) (m : Bytes) (outLen : Nat)
    (ho : outLen ≤ 64) : hmac H junk N none (some m) false outLen = .exc .runtimeError := by
  unfold hmac
  rw [if_neg (by unfold digestSize; omega)]
  rfl

example : hmac toyH (fun _ => 0) 32 none (some [1]) false 64 = .exc .runtimeError :=
  c16_moved_key_throws _ _ _ _ _ (by decide)

/-- C16: the string and array versions return the full tag of the same bytes. -/
theorem c16_overloads {H : Bytes → Bytes} (hH : ∀ m, (H m).length = 64) (junk junk' : Nat → UInt8) (k m : Bytes)
    (hk : k.length ≤ 128) :
    hmacString H junk k.length (some k) m = .ok (HMAC H k m) ∧
    hmacArray H junk' k.length (some k) (some m) = .ok (HMAC H k m) := by
  have hl : (HMAC H k m).length = 64 := hH _
  constructor
  · have := c16_hmac_partial hH junk k m hk 64 (Nat.le_refl _)
    rwa [List.take_of_length_le (by omega)] at this
  · have := c16_hmac_partial hH junk' k m hk 64 (Nat.le_refl _)
    rwa [List.take_of_length_le (by omega)] at this

example : hmacString toyH (fun _ => 9) 32 (some toyKey32) [1] = .ok (HMAC toyH toyKey32 [1]) :=
  (c16_overloads toyH_length (fun _ => 9) (fun _ => 9) toyKey32 [1] (by decide)).1

/-- C16 fails for long keys: with 129 to 192 key bytes and a message long enough, the code uses the first 128
key bytes only (RFC 2104 would hash the key). -/
theorem c16_long_key_truncated {H : Bytes → Bytes} (hH : ∀ m, (H m).length = 64) (junk : Nat → UInt8) (k m : Bytes)
    (hk : 128 < k.length) (hk2 : k.length ≤ 192) (hm : k.length ≤ 128 + m.length) (outLen : Nat) (ho : outLen ≤ 64) :
    hmac H junk k.length (some k) (some m) false outLen = .ok ((HMAC H (k.take 128) m).take outLen) := by
  have hp : ∀ c, pad (k.take 128) c = (k.take 128).map (· ^^^ c) := by
    intro c
    have : (k.take 128).length = 128 := by rw [List.length_take]; omega
    unfold pad
    rw [this]; simp
  have hpl : ∀ c, (pad (k.take 128) c).length = 128 := by
    intro c; rw [hp]; simp; omega
  unfold hmac
  rw [if_neg (by unfold digestSize; omega)]
  simp only [Bool.false_eq_true, if_false]
  have hbl : (if blockSize + m.length > digestSize then blockSize + m.length else digestSize) = 128 + m.length := by
    unfold blockSize digestSize
    rw [if_pos (by omega)]
  rw [hbl]
  have hr1 : (rawBuf junk (128 + m.length)).length = 128 + m.length := by simp [rawBuf]
  have hr2 : (rawBuf junk (blockSize + digestSize)).length = 192 := by simp [rawBuf, blockSize, digestSize]
  -- the key block of a buffer of at least `k.length` bytes
  have kb : ∀ (r : Bytes) (c : UInt8), k.length ≤ r.length →
      ∃ b1 x, putAt r 0 k = .ok b1 ∧ zeroTail k.length b1 = .ok b1 ∧
        xorFirst blockSize c b1 = .ok (pad (k.take 128) c ++ x) ∧ x.length = r.length - 128 := by
    intro r c hr
    refine ⟨k ++ r.drop k.length, k.drop 128 ++ r.drop k.length, ?_, ?_, ?_, ?_⟩
    · have := putAt_split (a := []) (b := r.take k.length) (c := r.drop k.length) (src := k)
        (by rw [List.length_take]; omega) (pos := 0) rfl
      simpa using this
    · unfold zeroTail blockSize; rw [if_neg (by omega)]
    · unfold xorFirst blockSize
      rw [if_neg (by rw [List.length_append]; omega), hp]
      rw [List.take_append_of_le_length (by omega), List.drop_append_of_le_length (by omega)]
    · rw [List.length_append, List.length_drop, List.length_drop]; omega
  generalize rawBuf junk (128 + m.length) = r1 at *
  generalize rawBuf junk (blockSize + digestSize) = r2 at *
  obtain ⟨b1, x1, hb1, hb2, hb3, hx1⟩ := kb r1 0x36 (by omega)
  obtain ⟨t1, x2, ht1, ht2, ht3, hx2⟩ := kb r2 0x5c (by omega)
  rw [hb1, Res.bind_ok, hb2, Res.bind_ok, hb3, Res.bind_ok]
  generalize hK : k.take 128 = K at *
  have e4 : putAt (pad K 0x36 ++ x1) blockSize m = .ok (pad K 0x36 ++ m) := by
    have := putAt_split (a := pad K 0x36) (b := x1) (c := []) (src := m)
      (by omega) (pos := blockSize) (by rw [hpl]; rfl)
    simpa using this
  rw [e4, Res.bind_ok]
  have hl : (pad K 0x36 ++ m).length = 128 + m.length := by rw [List.length_append, hpl]
  have e5 : (pad K 0x36 ++ m).take (blockSize + m.length) = pad K 0x36 ++ m := by
    rw [List.take_of_length_le]; rw [hl]; unfold blockSize; omega
  rw [e5]
  have e6 : putAt (pad K 0x36 ++ m) 0 (H (pad K 0x36 ++ m)) =
      .ok (H (pad K 0x36 ++ m) ++ (pad K 0x36 ++ m).drop 64) := by
    have := putAt_split (a := []) (b := (pad K 0x36 ++ m).take 64) (c := (pad K 0x36 ++ m).drop 64)
      (src := H (pad K 0x36 ++ m)) (by rw [List.length_take, hl, hH]; omega) (pos := 0) rfl
    simpa using this
  rw [e6, Res.bind_ok, ht1, Res.bind_ok, ht2, Res.bind_ok, ht3, Res.bind_ok]
  have e7 : (H (pad K 0x36 ++ m) ++ (pad K 0x36 ++ m).drop 64).take digestSize = H (pad K 0x36 ++ m) :=
    List.take_left' (hH _)
  rw [e7]
  have e8 : putAt (pad K 0x5c ++ x2) blockSize (H (pad K 0x36 ++ m)) =
      .ok (pad K 0x5c ++ H (pad K 0x36 ++ m)) := by
    have := putAt_split (a := pad K 0x5c) (b := x2) (c := []) (src := H (pad K 0x36 ++ m))
      (by rw [hH]; omega) (pos := blockSize) (by rw [hpl]; rfl)
    simpa using this
  rw [e8, Res.bind_ok]
  have e9 : (pad K 0x5c ++ H (pad K 0x36 ++ m)).take (blockSize + digestSize) = pad K 0x5c ++ H (pad K 0x36 ++ m) := by
    rw [List.take_of_length_le]
    rw [List.length_append, hpl, hH]; decide
  rw [e9]
  have e11 : H (pad K 0x5c ++ H (pad K 0x36 ++ m)) = HMAC H K m := rfl
  have e10 : putAt (H (pad K 0x36 ++ m) ++ (pad K 0x36 ++ m).drop 64) 0 (HMAC H K m) =
      .ok (HMAC H K m ++ (pad K 0x36 ++ m).drop 64) := by
    have := putAt_split (a := []) (b := H (pad K 0x36 ++ m)) (c := (pad K 0x36 ++ m).drop 64)
      (src := HMAC H K m) (by rw [hH]; unfold HMAC; rw [hH]) (pos := 0) rfl
    simpa using this
  rw [e11, e10, Res.bind_ok]
  have hl2 : (HMAC H K m).length = 64 := hH _
  rw [List.take_append_of_le_length (by omega)]

/-- C16 is false for keys of more than 128 bytes: for every hash function two different keys give the same tag. -/
theorem c16_long_key_false {H : Bytes → Bytes} (hH : ∀ m, (H m).length = 64) (junk : Nat → UInt8) :
    ∃ k k' m, k.length = 129 ∧ k'.length = 129 ∧ k ≠ k' ∧
      hmac H junk 129 (some k) (some m) false 64 = hmac H junk 129 (some k') (some m) false 64 := by
  have key : ∀ x : UInt8, hmac H junk 129 (some (List.replicate 128 0 ++ [x])) (some [0]) false 64 =
      .ok ((HMAC H (List.replicate 128 0) [0]).take 64) := by
    intro x
    have hl : (List.replicate 128 (0 : UInt8) ++ [x]).length = 129 := by simp
    have h := c16_long_key_truncated hH junk (List.replicate 128 0 ++ [x]) [0] (by omega) (by omega)
      (by rw [hl]; simp) 64 (by omega)
    rwa [hl, List.take_left' (by simp)] at h
  refine ⟨List.replicate 128 0 ++ [0], List.replicate 128 0 ++ [1], [0], by simp, by simp, ?_, ?_⟩
  · intro h
    have := List.append_cancel_left h
    simp at this
  · rw [key, key]

/-- C16 fails: keys of more than 192 bytes always overflow a stack buffer, and keys of more than 128 bytes overflow
the heap buffer when the message is short. -/
theorem c16_very_long_key_undefined (H : Bytes → Bytes) (hH : ∀ m, (H m).length = 64) (junk : Nat → UInt8) (k m : Bytes)
    (outLen : Nat) (ho : outLen ≤ 64) (hk : 192 < k.length ∨ 128 + m.length < k.length) :
    hmac H junk k.length (some k) (some m) false outLen = .ub := by
  unfold hmac
  rw [if_neg (by unfold digestSize; omega)]
  simp only [Bool.false_eq_true, if_false]
  have hbl : (if blockSize + m.length > digestSize then blockSize + m.length else digestSize) = 128 + m.length := by
    unfold blockSize digestSize
    rw [if_pos (by omega)]
  rw [hbl]
  have hr1 : (rawBuf junk (128 + m.length)).length = 128 + m.length := by simp [rawBuf]
  have hr2 : (rawBuf junk (blockSize + digestSize)).length = 192 := by simp [rawBuf, blockSize, digestSize]
  generalize rawBuf junk (128 + m.length) = r1 at *
  generalize rawBuf junk (blockSize + digestSize) = r2 at *
  have hput : ∀ (b : Bytes) p s b', putAt b p s = .ok b' → b'.length = b.length := by
    intro b p s b' h
    unfold putAt at h
    split at h
    · cases h
    · injection h with h; subst h
      simp only [List.length_append, List.length_take, List.length_drop]; omega
  have hzt : ∀ (b : Bytes) b', zeroTail k.length b = .ok b' → b'.length = b.length := by
    intro b b' h
    unfold zeroTail at h
    split at h
    · exact hput _ _ _ _ h
    · injection h with h; subst h; rfl
  have hxf : ∀ (b : Bytes) n c b', xorFirst n c b = .ok b' → b'.length = b.length := by
    intro b n c b' h
    unfold xorFirst at h
    split at h
    · cases h
    · injection h with h; subst h
      simp only [List.length_append, List.length_map, List.length_take, List.length_drop]; omega
  by_cases h1 : 128 + m.length < k.length
  · have : putAt r1 0 k = .ub := by unfold putAt; rw [if_pos (by omega)]
    rw [this]; rfl
  · have hk1 : 192 < k.length := by omega
    have p1 : ∃ b1, putAt r1 0 k = .ok b1 := by unfold putAt; rw [if_neg (by omega)]; exact ⟨_, rfl⟩
    obtain ⟨b1, hb1⟩ := p1
    have l1 := hput _ _ _ _ hb1
    have p2 : ∃ b2, zeroTail k.length b1 = .ok b2 := by
      unfold zeroTail blockSize; rw [if_neg (by omega)]; exact ⟨_, rfl⟩
    obtain ⟨b2, hb2⟩ := p2
    have l2 := hzt _ _ hb2
    have p3 : ∃ b3, xorFirst blockSize 0x36 b2 = .ok b3 := by
      unfold xorFirst blockSize; rw [if_neg (by omega)]; exact ⟨_, rfl⟩
    obtain ⟨b3, hb3⟩ := p3
    have l3 := hxf _ _ _ _ hb3
    have p4 : ∃ b4, putAt b3 blockSize m = .ok b4 := by
      unfold putAt blockSize; rw [if_neg (by omega)]; exact ⟨_, rfl⟩
    obtain ⟨b4, hb4⟩ := p4
    have l4 := hput _ _ _ _ hb4
    have p5 : ∃ b5, putAt b4 0 (H (b4.take (blockSize + m.length))) = .ok b5 := by
      unfold putAt; rw [if_neg (by rw [hH]; omega)]; exact ⟨_, rfl⟩
    obtain ⟨b5, hb5⟩ := p5
    have p6 : putAt r2 0 k = .ub := by unfold putAt; rw [if_pos (by omega)]
    rw [hb1, Res.bind_ok, hb2, Res.bind_ok, hb3, Res.bind_ok, hb4, Res.bind_ok, hb5, Res.bind_ok, p6]
    rfl

example : hmac toyH (fun _ => 0) 200 (some (List.replicate 200 1)) (some [1, 2]) false 64 = .ub := by
  have hl : (List.replicate 200 (1 : UInt8)).length = 200 := List.length_replicate
  have := c16_very_long_key_undefined toyH toyH_length (fun _ => 0) (List.replicate 200 1) [1, 2] 64 (by omega)
    (Or.inl (by omega))
  rwa [hl] at this

/-! ## C17 -/

/-- C17 specification: what `prf(m)` must return. -/
def prfSpec (H : Bytes → Bytes) (k m : Bytes) (nb : Nat) : Bytes :=
  if nb ≤ 64 then (HMAC H k m).take nb else (prfBlocks H k m ((nb + 63) / 64)).take nb

/-- C17: for every output length for which the loop ends (1 to 65472 bytes) the PRF is the specified expansion. -/
theorem c17_prf {H : Bytes → Bytes} (hH : ∀ m, (H m).length = 64) (junk : Nat → UInt8) (k m : Bytes)
    (hk : k.length = 32) (nb : Nat) (hnb : nb ≤ 65472) (fuel : Nat) (hf : 1024 ≤ fuel) :
    prf H junk (some k) nb fuel (some m) = some (.ok (prfSpec H k m nb)) := by
  unfold prf prfSpec
  by_cases h : nb ≤ 64
  · simp only
    rw [if_neg (by unfold digestSize; omega), if_pos h, hmac_eq hH junk 32 k m hk (by omega) nb h]
  · simp only
    rw [if_pos (by unfold digestSize; omega), if_neg h]
    have := prfLoop_eq hH junk k m hk nb hnb ((nb + 63) / 64) 0 fuel (rawBuf junk nb)
      (by simp [prfBlocks, rawBuf]) (by omega) (by omega)
    simpa [prfBlocks] using this

example : prf toyH (fun _ => 3) (some toyKey32) 200 1024 (some [1, 2]) = some (.ok (prfSpec toyH toyKey32 [1, 2] 200)) :=
  c17_prf toyH_length _ _ _ (by decide) 200 (by decide) _ (by decide)

/-- C17: the output has exactly `nb` bytes. -/
theorem c17_length {H : Bytes → Bytes} (hH : ∀ m, (H m).length = 64) (k m : Bytes) (nb : Nat) :
    (prfSpec H k m nb).length = nb := by
  unfold prfSpec
  split
  · have : (HMAC H k m).length = 64 := hH _
    rw [List.length_take]; omega
  · rw [List.length_take, prfBlocks_length hH]; omega

theorem prfBlocks_get {H : Bytes → Bytes} (hH : ∀ m, (H m).length = 64) (k m : Bytes) (c j : Nat) (hj : j < 64 * c) :
    (prfBlocks H k m c)[j]? = (prfBlock H k m (j / 64))[j % 64]? := by
  induction c with
  | zero => omega
  | succ c ih =>
    have hl := prfBlocks_length hH k m c
    rw [prfBlocks_succ]
    by_cases h : j < 64 * c
    · rw [List.getElem?_append_left (by omega), ih h]
    · rw [List.getElem?_append_right (by omega), hl]
      have h1 : j / 64 = c := by omega
      have h2 : j % 64 = j - 64 * c := by omega
      rw [h1, h2]

/-- C17: byte `j` of a long output is byte `j mod 64` of `HMAC(m ‖ byte(j / 64))`. -/
theorem c17_bytes {H : Bytes → Bytes} (hH : ∀ m, (H m).length = 64) (k m : Bytes) (nb : Nat) (hnb : 64 < nb)
    (j : Nat) (hj : j < nb) :
    (prfSpec H k m nb)[j]? = (HMAC H k (m ++ [UInt8.ofNat (j / 64)]))[j % 64]? := by
  unfold prfSpec
  rw [if_neg (by omega), List.getElem?_take_of_lt hj, prfBlocks_get hH _ _ _ _ (by omega)]
  rfl

example : (prfSpec toyH toyKey32 [1] 100)[70]? = (HMAC toyH toyKey32 ([1] ++ [UInt8.ofNat (70 / 64)]))[70 % 64]? :=
  c17_bytes toyH_length _ _ 100 (by decide) 70 (by decide)

/-- C17: the string/array overloads agree, and `derive_key` returns a key holding exactly these bytes. -/
theorem c17_overloads {H : Bytes → Bytes} (hH : ∀ m, (H m).length = 64) (junk : Nat → UInt8) (k m : Bytes)
    (hk : k.length = 32) (nb : Nat) (hnb : nb ≤ 65472) (fuel : Nat) (hf : 1024 ≤ fuel) :
    prfString H junk (some k) nb fuel m = some (.ok (prfSpec H k m nb)) ∧
    deriveKey H junk (some k) nb fuel (some m) = some (.ok (prfSpec H k m nb)) := by
  refine ⟨c17_prf hH junk k m hk nb hnb fuel hf, ?_⟩
  unfold deriveKey
  rw [c17_prf hH junk k m hk nb hnb fuel hf]
  simp only [Option.map_some, Res.map_ok]
  rw [List.take_of_length_le (Nat.le_of_eq (c17_length hH k m nb))]

/-- C17: a null input is refused. -/
theorem c17_null (H : Bytes → Bytes) (junk : Nat → UInt8) (key : Option Bytes) (nb fuel : Nat) :
    prf H junk key nb fuel none = some (.exc .invalidArgument) := rfl

/-! ## C18 -/

/-- C18: the PRF computes each block from a different counter.
Partial: only up to 16384 output bytes.  Beyond that the counters repeat (`c18_repeat_false`), and beyond 65472 bytes
the loop never ends (`c18_no_termination_false`). -/
theorem c18_counters_partial {H : Bytes → Bytes} (hH : ∀ m, (H m).length = 64) (junk : Nat → UInt8) (k m : Bytes)
    (hk : k.length = 32) (nb : Nat) (h64 : 64 < nb) (hnb : nb ≤ 16384) (fuel : Nat) (hf : 1024 ≤ fuel) :
    ∃ inputs : List Bytes, inputs.Nodup ∧ inputs.length = (nb + 63) / 64 ∧
      prf H junk (some k) nb fuel (some m) = some (.ok ((inputs.flatMap (HMAC H k)).take nb)) := by
  refine ⟨(List.range ((nb + 63) / 64)).map fun i => m ++ [UInt8.ofNat i], ?_, by simp, ?_⟩
  · rw [List.Nodup, List.pairwise_map]
    refine List.Pairwise.imp_of_mem ?_ List.nodup_range
    intro x y hx hy hne hxy
    apply hne
    rw [List.mem_range] at hx hy
    have h1 := List.append_cancel_left hxy
    simp only [List.cons.injEq, and_true] at h1
    have h2 := congrArg UInt8.toNat h1
    simp only [UInt8.toNat_ofNat'] at h2
    omega
  · rw [c17_prf hH junk k m hk nb (by omega) fuel hf]
    unfold prfSpec prfBlocks
    rw [if_neg (by omega), List.flatMap_map]
    rfl

example : ∃ inputs : List Bytes, inputs.Nodup ∧ inputs.length = 3 ∧
    prf toyH (fun _ => 0) (some toyKey32) 130 1024 (some [1]) = some (.ok ((inputs.flatMap (HMAC toyH toyKey32)).take 130)) :=
  c18_counters_partial toyH_length _ _ _ (by decide) 130 (by decide) (by decide) _ (by decide)

/-- C18 is false: every PRF output of more than 16384 bytes repeats itself with period 16384, for every hash
function, key and message. -/
theorem c18_repeat_false {H : Bytes → Bytes} (hH : ∀ m, (H m).length = 64) (junk : Nat → UInt8) (k m : Bytes)
    (hk : k.length = 32) (nb : Nat) (hnb : nb ≤ 65472) (fuel : Nat) (hf : 1024 ≤ fuel) :
    ∃ out, prf H junk (some k) nb fuel (some m) = some (.ok out) ∧
      ∀ j, j + 16384 < nb → out[j + 16384]? = out[j]? := by
  refine ⟨_, c17_prf hH junk k m hk nb hnb fuel hf, ?_⟩
  intro j hj
  rw [c17_bytes hH k m nb (by omega) _ hj, c17_bytes hH k m nb (by omega) _ (by omega)]
  have h1 : (j + 16384) % 64 = j % 64 := by omega
  have h2 : UInt8.ofNat ((j + 16384) / 64) = UInt8.ofNat (j / 64) := by
    rw [← ofNat_mod ((j + 16384) / 64), ← ofNat_mod (j / 64)]
    congr 1; omega
  rw [h1, h2]

/-- C18 is false: for 65473 to 65535 output bytes the loop never ends (the `uint16_t` position wraps to 0). -/
theorem c18_no_termination_false {H : Bytes → Bytes} (hH : ∀ m, (H m).length = 64) (junk : Nat → UInt8) (k m : Bytes)
    (hk : k.length = 32) (nb : Nat) (hnb : 65472 < nb) (fuel : Nat) :
    prf H junk (some k) nb fuel (some m) = none := by
  have key : ∀ (fuel c i : Nat) (r : Bytes), c < 1024 → r.length = nb →
      prfLoop H junk (some k) m nb fuel (64 * c) i r = none := by
    intro fuel
    induction fuel with
    | zero => intros; rfl
    | succ f ih =>
      intro c i r hc hr
      rw [prfLoop, if_pos (by omega)]
      simp only
      rw [hmac_eq hH junk 32 k _ hk (by omega) _ (by unfold digestSize; split <;> omega)]
      rw [Res.bind_ok]
      have hl : (HMAC H k (m ++ [UInt8.ofNat i])).length = 64 := hH _
      generalize HMAC H k (m ++ [UInt8.ofNat i]) = d at *
      have hw : (d.take (if nb - 64 * c ≥ digestSize then digestSize else nb - 64 * c)).length ≤ nb - 64 * c := by
        rw [List.length_take]; unfold digestSize; split <;> omega
      generalize d.take (if nb - 64 * c ≥ digestSize then digestSize else nb - 64 * c) = w at *
      unfold putAt
      rw [if_neg (by omega)]
      simp only
      have : (64 * c + digestSize) % 65536 = 64 * ((c + 1) % 1024) := by unfold digestSize; omega
      rw [this]
      apply ih _ _ _ (Nat.mod_lt _ (by decide))
      simp only [List.length_append, List.length_take, List.length_drop]; omega
  unfold prf
  simp only
  rw [if_pos (by unfold digestSize; omega)]
  exact key fuel 0 0 _ (by omega) (by simp [rawBuf])

example : prf toyH (fun _ => 0) (some toyKey32) 65535 1000000000 (some []) = none :=
  c18_no_termination_false toyH_length _ _ _ (by decide) 65535 (by decide) _

/-! ## C19 -/

/-- C19: the truncating hash returns the first bytes of the digest of exactly the input bytes. -/
theorem c19_prefix {H : Bytes → Bytes} (m : Bytes) (outLen : Nat) (ho : outLen ≤ 64) :
    hashBuf H (some m) false = .ok (H m) ∧
    hashTrunc H (some m) outLen false = .ok ((H m).take outLen) ∧
    hashStringTrunc H m outLen = .ok ((H m).take outLen) := by
  refine ⟨rfl, ?_, ?_⟩
  · unfold hashTrunc; rw [if_neg (by omega)]; rfl
  · unfold hashStringTrunc; rw [if_neg (by omega)]; rfl

example : hashTrunc toyH (some [1, 2]) 20 false = .ok ((toyH [1, 2]).take 20) :=
  (c19_prefix [1, 2] 20 (by decide)).2.1

/-- C19: the string version returns the whole digest. -/
theorem c19_string {H : Bytes → Bytes} (hH : ∀ m, (H m).length = 64) (m : Bytes) :
    hashString H m = .ok (H m) := by
  unfold hashString hashBuf
  simp only [Bool.false_eq_true, if_false, Res.map_ok]
  rw [List.take_of_length_le (Nat.le_of_eq (hH m))]

example : hashString toyH [1, 2] = .ok (toyH [1, 2]) := c19_string toyH_length _

/-- C19: bad arguments throw `invalid_argument`. -/
theorem c19_rejects (H : Bytes → Bytes) (inp : Option Bytes) (outLen : Nat) (outNull : Bool) :
    (inp = none ∨ outNull = true → hashBuf H inp outNull = .exc .invalidArgument) ∧
    (outLen > 64 ∨ inp = none ∨ outNull = true → hashTrunc H inp outLen outNull = .exc .invalidArgument) ∧
    (outLen > 64 → ∀ s, hashStringTrunc H s outLen = .exc .invalidArgument) := by
  refine ⟨?_, ?_, ?_⟩
  · rintro (h | h)
    · subst h; rfl
    · subst h; cases inp <;> rfl
  · intro h
    unfold hashTrunc
    by_cases h1 : outLen > 64
    · rw [if_pos h1]
    · rw [if_neg h1]
      rcases h with h | h | h
      · exact absurd h h1
      · subst h; rfl
      · subst h; cases inp <;> rfl
  · intro h s
    unfold hashStringTrunc
    rw [if_pos h]

example : hashTrunc toyH (some [1]) 65 false = .exc .invalidArgument :=
  (c19_rejects toyH (some [1]) 65 false).2.1 (Or.inl (by decide))

end Verif.Mac
