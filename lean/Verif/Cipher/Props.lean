import Verif.Cipher.Model

/-!
# Properties C23, C24, C25 (Cipher) and C53 (serialization of the symmetric objects)
-/

namespace Verif.Cipher

open Verif Verif.Mac

/-- What is assumed of ChaCha20-Poly1305: decryption inverts encryption, 16 bytes of expansion, and only outputs of
encryption are accepted (the tag is a function of the ciphertext and the encryption is a xor). -/
structure Prims.Ok (P : Prims) : Prop where
  dec_enc : ∀ k n m, P.dec k n (P.enc k n m) = some m
  enc_length : ∀ k n m, (P.enc k n m).length = m.length + 16
  dec_sound : ∀ k n c m, P.dec k n c = some m → c = P.enc k n m

/-- A toy instance (xor with a key byte, and a tag of 16 bytes that depends on everything), for the examples. -/
def toyTag (k n m : Bytes) : Bytes := List.replicate 16 ((k ++ n ++ m).foldl (fun a b => a * 3 + b + 1) 7)
def toyXor (k n m : Bytes) : Bytes := m.map (· ^^^ ((k ++ n).foldl (fun a b => a * 5 + b) 9))
def toy : Prims where
  kdf k s := (k ++ s).reverse.take 32
  enc k n m := toyXor k n m ++ toyTag k n m
  dec k n c :=
    let m := toyXor k n (c.take (c.length - 16))
    if c.length ≥ 16 ∧ c.drop (c.length - 16) = toyTag k n m then some m else none

theorem toyXor_toyXor (k n m : Bytes) : toyXor k n (toyXor k n m) = m := by
  simp only [toyXor, List.map_map]
  have : ((fun x : UInt8 => x ^^^ List.foldl (fun a b => a * 5 + b) 9 (k ++ n)) ∘
      fun x => x ^^^ List.foldl (fun a b => a * 5 + b) 9 (k ++ n)) = id := by
    funext x
    simp [UInt8.xor_assoc]
  rw [this, List.map_id]

theorem toy_ok : toy.Ok where
  dec_enc k n m := by
    have hx : (toyXor k n m).length = m.length := by simp [toyXor]
    have ht : (toyTag k n m).length = 16 := by simp [toyTag]
    have h1 : (toyXor k n m ++ toyTag k n m).length - 16 = m.length := by simp [hx, ht]
    simp only [toy, h1]
    rw [List.take_left' hx, List.drop_left' hx, toyXor_toyXor, if_pos ⟨by simp [ht], rfl⟩]
  enc_length k n m := by simp [toy, toyXor, toyTag]
  dec_sound k n c m h := by
    simp only [toy] at h ⊢
    split at h
    · rename_i hc
      injection h with h
      rw [← h, toyXor_toyXor, ← hc.2, List.take_append_drop]
    · cases h

/-! ## Helper lemmas -/

theorem putAt_ok {buf src : Bytes} {pos : Nat} (h : pos + src.length ≤ buf.length) :
    putAt buf pos src = .ok (buf.take pos ++ src ++ buf.drop (pos + src.length)) := by
  unfold putAt; rw [if_neg (by omega)]

theorem slice_ok {mem : Bytes} {off n : Nat} (h : off + n ≤ mem.length) :
    slice mem off n = .ok ((mem.drop off).take n) := by
  unfold slice; rw [if_neg (by omega)]

/-- What encryption stores. -/
theorem encryptBuf_eq {P : Prims} (hP : P.Ok) (k salt inp out : Bytes) (len : Nat) (hs : salt.length = 16)
    (hin : len ≤ inp.length) (hout : len + 32 ≤ out.length) :
    encryptBuf P (some k) salt inp len out =
      .ok (salt ++ P.enc (P.kdf k salt) (salt.take 12) (inp.take len) ++ out.drop (len + 32)) := by
  unfold encryptBuf
  rw [putAt_ok (by omega)]
  simp only [List.take_zero, List.nil_append, Nat.zero_add, Res.bind_ok]
  have hl : (salt ++ out.drop salt.length).length = out.length := by simp; omega
  have e1 : (salt ++ out.drop salt.length).take nonceSize = salt := by
    rw [List.take_left' (by rw [hs]; rfl)]
  have e2 : (salt ++ out.drop salt.length).take 12 = salt.take 12 := by
    rw [List.take_append_of_le_length (by omega)]
  rw [slice_ok (by rw [hl]; unfold nonceSize; omega)]
  simp only [List.drop_zero, e1, Res.bind_ok]
  rw [slice_ok (by omega)]
  simp only [List.drop_zero, Res.bind_ok]
  rw [slice_ok (by rw [hl]; omega)]
  simp only [List.drop_zero, e2, Res.bind_ok]
  have hel := hP.enc_length (P.kdf k salt) (salt.take 12) (inp.take len)
  have hml : (inp.take len).length = len := by rw [List.length_take]; omega
  rw [hml] at hel
  rw [putAt_ok (by rw [hl, hel]; unfold nonceSize; omega), e1, hel]
  have : (salt ++ out.drop salt.length).drop (nonceSize + (len + 16)) = out.drop (len + 32) := by
    rw [List.drop_append, hs, List.drop_eq_nil_of_le (by rw [hs]; unfold nonceSize; omega), List.nil_append, List.drop_drop]
    congr 1; unfold nonceSize; omega
  rw [this]

theorem decryptBuf_eq (P : Prims) (k inp out : Bytes) (len : Nat) (h32 : 32 ≤ len) (hin : len ≤ inp.length) :
    decryptBuf P (some k) inp len out =
      match P.dec (P.kdf k (inp.take 16)) (inp.take 12) ((inp.drop 16).take (len - 16)) with
      | none => .exc .runtimeError
      | some m => putAt out 0 m := by
  unfold decryptBuf
  rw [if_neg (by unfold ciphertextLength; omega)]
  simp only
  rw [slice_ok (by unfold nonceSize; omega)]
  simp only [Res.bind_ok]
  rw [slice_ok (by unfold nonceSize; omega)]
  simp only [Res.bind_ok]
  rw [slice_ok (by omega)]
  simp only [Res.bind_ok, List.drop_zero]
  rfl

/-- Encryption of a string. -/
theorem encryptString_eq {P : Prims} (hP : P.Ok) (junk : Nat → UInt8) (k salt m : Bytes) (hs : salt.length = 16)
    (hm : m ≠ []) :
    encryptString P junk (some k) salt m = .ok (salt ++ P.enc (P.kdf k salt) (salt.take 12) m) := by
  unfold encryptString
  rw [if_neg (by cases m with | nil => exact absurd rfl hm | cons => simp)]
  have hr : (rawBuf junk (ciphertextLength m.length)).length = m.length + 32 := by
    unfold rawBuf ciphertextLength; simp
  rw [encryptBuf_eq hP k salt m _ m.length hs (Nat.le_refl _) (by omega)]
  simp only [Res.map_ok, List.take_length]
  have hel := hP.enc_length (P.kdf k salt) (salt.take 12) m
  rw [List.drop_eq_nil_of_le (by omega), List.append_nil, List.take_of_length_le]
  rw [List.length_append, hs, hel]; unfold ciphertextLength; omega

/-! ## C23 -/

/-- C23, strings: decrypting an encryption returns the message, and the ciphertext is 32 bytes longer. -/
theorem c23_roundtrip {P : Prims} (hP : P.Ok) (junk : Nat → UInt8) (k salt m : Bytes) (hs : salt.length = 16)
    (hm : m ≠ []) :
    ∃ c, encryptString P junk (some k) salt m = .ok c ∧ c.length = m.length + 32 ∧
      decryptString P (some k) c = .ok m := by
  refine ⟨_, encryptString_eq hP junk k salt m hs hm, ?_, ?_⟩
  · have := hP.enc_length (P.kdf k salt) (salt.take 12) m
    rw [List.length_append, hs, this]; omega
  · have hel := hP.enc_length (P.kdf k salt) (salt.take 12) m
    generalize he : P.enc (P.kdf k salt) (salt.take 12) m = e at *
    have hl : (salt ++ e).length = m.length + 32 := by rw [List.length_append, hs, hel]; omega
    have hmp : 0 < m.length := List.length_pos_iff.2 hm
    unfold decryptString
    rw [if_neg (by rw [hl]; unfold nonceSize aBytes; omega)]
    rw [decryptBuf_eq P k _ _ _ (by omega) (Nat.le_refl _)]
    rw [List.take_left' hs, List.take_append_of_le_length (by omega), List.drop_left' hs,
      List.take_of_length_le (l := e) (by omega), ← he, hP.dec_enc]
    have hpl : plaintextLength (salt ++ P.enc (P.kdf k salt) (salt.take 12) m).length = m.length := by
      rw [he, hl]; unfold plaintextLength; rw [if_pos (by omega)]; omega
    simp only [hpl]
    rw [putAt_ok (by simp)]
    simp

example : ∃ c, encryptString toy (fun _ => 77) (some [1, 2, 3]) (List.replicate 16 5) [10, 20] = .ok c ∧ c.length = 34 ∧
    decryptString toy (some [1, 2, 3]) c = .ok [10, 20] :=
  c23_roundtrip toy_ok _ _ _ _ (by simp) (by simp)

/-- C23, buffers (any length, also 0): with buffers large enough, decrypting restores the message, bytes behind the
result are not touched. -/
theorem c23_roundtrip_buf {P : Prims} (hP : P.Ok) (k salt inp out out2 : Bytes) (len : Nat) (hs : salt.length = 16)
    (hin : len ≤ inp.length) (hout : len + 32 ≤ out.length) (hout2 : len ≤ out2.length) :
    ∃ c, encryptBuf P (some k) salt inp len out = .ok c ∧ c.length = out.length ∧
      c.drop (len + 32) = out.drop (len + 32) ∧
      decryptBuf P (some k) c (len + 32) out2 = .ok (inp.take len ++ out2.drop len) := by
  refine ⟨_, encryptBuf_eq hP k salt inp out len hs hin hout, ?_, ?_, ?_⟩
  all_goals
    have hel := hP.enc_length (P.kdf k salt) (salt.take 12) (inp.take len)
    have hml : (inp.take len).length = len := by rw [List.length_take]; omega
    rw [hml] at hel
  · simp only [List.length_append, hs, hel, List.length_drop]; omega
  · rw [List.drop_left' (by rw [List.length_append, hs, hel]; omega)]
  · generalize he : P.enc (P.kdf k salt) (salt.take 12) (inp.take len) = e at *
    rw [decryptBuf_eq P k _ _ _ (by omega) (by simp only [List.length_append, hs, hel]; omega)]
    rw [List.append_assoc, List.take_left' hs, List.take_append_of_le_length (by omega), List.drop_left' hs,
      List.take_left' (by omega), ← he, hP.dec_enc]
    simp only
    rw [putAt_ok (by omega)]
    simp [hml]

example : ∃ c, encryptBuf toy (some [1, 2, 3]) (List.replicate 16 5) [] 0 (List.replicate 40 1) = .ok c ∧ c.length = 40 ∧
    c.drop 32 = List.replicate 8 1 ∧ decryptBuf toy (some [1, 2, 3]) c 32 [9] = .ok [9] :=
  c23_roundtrip_buf toy_ok [1, 2, 3] (List.replicate 16 5) [] (List.replicate 40 1) [9] 0 (by simp) (by simp) (by simp)
    (by simp)

/-- Remark to C23: encryption in place (output pointer equal to input pointer) does not encrypt the message: its first
16 bytes are replaced by the nonce before they are read. -/
theorem c23_in_place_false {P : Prims} (hP : P.Ok) (k salt m rest : Bytes) (hs : salt.length = 16) (hm : 16 ≤ m.length)
    (hr : rest.length = 32) (hne : m.take 16 ≠ salt) (out2 : Bytes) (ho : out2.length = m.length) :
    ∃ c p, encryptInPlace P (some k) salt (m ++ rest) m.length = .ok c ∧
      decryptBuf P (some k) c (m.length + 32) out2 = .ok p ∧ p ≠ m := by
  have e : encryptInPlace P (some k) salt (m ++ rest) m.length =
      encryptBuf P (some k) salt (salt ++ m.drop 16) m.length (m ++ rest) := by
    unfold encryptInPlace encryptBuf
    have hp : putAt (m ++ rest) 0 salt = .ok (salt ++ (m ++ rest).drop 16) := by
      rw [putAt_ok (by rw [List.length_append]; omega)]; simp [hs]
    rw [hp]
    simp only [Res.bind_ok]
    have : slice (salt ++ (m ++ rest).drop 16) 0 m.length = slice (salt ++ m.drop 16) 0 m.length := by
      rw [slice_ok (by simp; omega), slice_ok (by simp; omega)]
      simp only [List.drop_zero]
      rw [List.drop_append_of_le_length hm, ← List.append_assoc, List.take_append_of_le_length (by simp; omega)]
    rw [this]
  rw [e]
  obtain ⟨c, h1, _, _, h4⟩ := c23_roundtrip_buf hP k salt (salt ++ m.drop 16) (m ++ rest) out2 m.length hs (by simp; omega)
    (by simp; omega) (by omega)
  refine ⟨c, _, h1, h4, ?_⟩
  intro h
  apply hne
  rw [← h, List.take_of_length_le (l := salt ++ m.drop 16) (by simp; omega), List.append_assoc, List.take_left' hs]

example : ∃ c p, encryptInPlace toy (some [1]) (List.replicate 16 5) (List.replicate 20 7 ++ List.replicate 32 0) 20 = .ok c ∧
    decryptBuf toy (some [1]) c 52 (List.replicate 20 0) = .ok p ∧ p ≠ List.replicate 20 7 :=
  c23_in_place_false toy_ok [1] (List.replicate 16 5) (List.replicate 20 7) (List.replicate 32 0) (by simp) (by simp)
    (by simp) (by decide) (List.replicate 20 0) (by simp)

/-! ## C24 -/

/-- C24, string decryption of arbitrary bytes: too short is `invalid_argument`; otherwise, with key `k`, either
`runtime_error`, exactly when the AEAD refuses, or a message whose encryption under the nonce found in the ciphertext is
the given ciphertext. Nothing outside the input is read, nothing outside the output buffer is written. -/
theorem c24_decrypt {P : Prims} (hP : P.Ok) (k c : Bytes) :
    (c.length ≤ 32 → decryptString P (some k) c = .exc .invalidArgument) ∧
    (32 < c.length →
      (decryptString P (some k) c = .exc .runtimeError ∧
        ∀ m, c ≠ c.take 16 ++ P.enc (P.kdf k (c.take 16)) (c.take 12) m) ∨
      ∃ m, decryptString P (some k) c = .ok m ∧ m.length + 32 = c.length ∧
        c = c.take 16 ++ P.enc (P.kdf k (c.take 16)) (c.take 12) m) := by
  constructor
  · intro h; unfold decryptString; rw [if_pos (by unfold nonceSize aBytes; omega)]
  · intro h
    unfold decryptString
    rw [if_neg (by unfold nonceSize aBytes; omega), decryptBuf_eq P k _ _ _ (by omega) (Nat.le_refl _)]
    have ht : (c.drop 16).take (c.length - 16) = c.drop 16 := List.take_of_length_le (by simp)
    rw [ht]
    cases hd : P.dec (P.kdf k (c.take 16)) (c.take 12) (c.drop 16) with
    | none =>
      refine .inl ⟨rfl, ?_⟩
      intro m hm
      have : c.drop 16 = P.enc (P.kdf k (c.take 16)) (c.take 12) m := by
        have h2 := congrArg (List.drop 16) hm
        rwa [List.drop_left' (by rw [List.length_take]; omega)] at h2
      rw [this, hP.dec_enc] at hd
      cases hd
    | some m =>
      have hs := hP.dec_sound _ _ _ _ hd
      have hl : m.length + 32 = c.length := by
        have := hP.enc_length (P.kdf k (c.take 16)) (c.take 12) m
        rw [← hs, List.length_drop] at this; omega
      refine .inr ⟨m, ?_, hl, ?_⟩
      · simp only
        have hpl : plaintextLength c.length = m.length := by
          unfold plaintextLength; rw [if_pos (by omega)]; omega
        rw [hpl, putAt_ok (by simp)]
        simp
      · rw [← hs, List.take_append_drop]

example : decryptString toy (some [1]) (List.replicate 40 0) = .exc .runtimeError := by decide +kernel

/-- C24, raw buffers: the result depends only on the `len` bytes given, no byte outside is read, and if the output buffer
has room for `plaintext_length(len)` bytes nothing is written outside it. -/
theorem c24_bounds {P : Prims} (hP : P.Ok) (key : Option Bytes) (inp out : Bytes) (len : Nat) (hin : len ≤ inp.length)
    (hout : plaintextLength len ≤ out.length) :
    decryptBuf P key inp len out ≠ .ub ∧ decryptBuf P key inp len out = decryptBuf P key (inp.take len) len out ∧
    ∀ r, decryptBuf P key inp len out = .ok r → r.length = out.length ∧ r.drop (len - 32) = out.drop (len - 32) := by
  by_cases h32 : len < 32
  · have : ∀ i, decryptBuf P key i len out = .exc .invalidArgument := by
      intro i; unfold decryptBuf; rw [if_pos (by unfold ciphertextLength; omega)]
    rw [this, this]
    exact ⟨by simp, rfl, by intro r h; cases h⟩
  · cases key with
    | none =>
      have : ∀ i, decryptBuf P none i len out = .exc .runtimeError := by
        intro i; unfold decryptBuf; rw [if_neg (by unfold ciphertextLength; omega)]
      rw [this, this]
      exact ⟨by simp, rfl, by intro r h; cases h⟩
    | some k =>
      rw [decryptBuf_eq P k inp out len (by omega) hin,
        decryptBuf_eq P k (inp.take len) out len (by omega) (by rw [List.length_take]; omega)]
      have e1 : (inp.take len).take 16 = inp.take 16 := by rw [List.take_take, Nat.min_eq_left (by omega)]
      have e2 : (inp.take len).take 12 = inp.take 12 := by rw [List.take_take, Nat.min_eq_left (by omega)]
      have e3 : ((inp.take len).drop 16).take (len - 16) = (inp.drop 16).take (len - 16) := by
        rw [List.drop_take, List.take_take, Nat.min_self]
      rw [e1, e2, e3]
      cases hd : P.dec (P.kdf k (inp.take 16)) (inp.take 12) ((inp.drop 16).take (len - 16)) with
      | none => exact ⟨by simp, rfl, by intro r h; cases h⟩
      | some m =>
        have hl : m.length = len - 32 := by
          have := hP.enc_length (P.kdf k (inp.take 16)) (inp.take 12) m
          rw [← hP.dec_sound _ _ _ _ hd, List.length_take, List.length_drop] at this; omega
        have hpl : plaintextLength len = m.length := by
          unfold plaintextLength; split <;> omega
        simp only
        rw [putAt_ok (by omega)]
        refine ⟨by simp, trivial, ?_⟩
        intro r h
        injection h with h
        subst h
        constructor
        · simp; omega
        · simp [hl]

example : decryptBuf toy (some [1]) (List.replicate 50 3) 40 (List.replicate 9 0) ≠ .ub :=
  (c24_bounds toy_ok (some [1]) (List.replicate 50 3) (List.replicate 9 0) 40 (by simp) (by simp [plaintextLength])).1

/-- C24: the string interface rejects the empty message, and a moved-from key throws. -/
theorem c24_rejects (P : Prims) (junk : Nat → UInt8) (key : Option Bytes) (salt : Bytes) :
    encryptString P junk key salt [] = .exc .invalidArgument ∧
    (∀ m, m ≠ [] → salt.length = 16 → encryptString P junk none salt m = .exc .runtimeError) ∧
    ∀ c : Bytes, 32 < c.length → decryptString P none c = .exc .runtimeError := by
  refine ⟨rfl, ?_, ?_⟩
  · intro m hm hs
    unfold encryptString
    rw [if_neg (by cases m with | nil => exact absurd rfl hm | cons => simp)]
    unfold encryptBuf
    have hr : (rawBuf junk (ciphertextLength m.length)).length = m.length + 32 := by
      unfold rawBuf ciphertextLength; simp
    rw [putAt_ok (by omega)]
    rfl
  · intro c hc
    unfold decryptString decryptBuf
    rw [if_neg (by unfold nonceSize aBytes; omega), if_neg (by unfold ciphertextLength; omega)]
    rfl

example : encryptString toy (fun _ => 0) none (List.replicate 16 1) [3] = .exc .runtimeError :=
  (c24_rejects toy (fun _ => 0) none (List.replicate 16 1)).2.1 [3] (by simp) (by simp)

/-! ## C25 -/

/-- C25: the ciphertext starts with the salt, unmodified, followed by the AEAD encryption under the key derived from the
master key and this salt, with the first 12 bytes of the salt as nonce; nothing else (no state, no buffer content) enters. -/
theorem c25_ciphertext {P : Prims} (hP : P.Ok) (junk : Nat → UInt8) (k salt m : Bytes) (hs : salt.length = 16) (hm : m ≠ []) :
    ∃ c, encryptString P junk (some k) salt m = .ok c ∧ c.take 16 = salt ∧
      c.drop 16 = P.enc (P.kdf k salt) (salt.take 12) m :=
  ⟨_, encryptString_eq hP junk k salt m hs hm, List.take_left' hs, List.drop_left' hs⟩

example : ∃ c, encryptString toy (fun _ => 0) (some [1]) (List.replicate 16 1) [3] = .ok c ∧ c.take 16 = List.replicate 16 1 ∧
    c.drop 16 = toy.enc (toy.kdf [1] (List.replicate 16 1)) (List.replicate 12 1) [3] :=
  c25_ciphertext toy_ok _ _ _ _ (by simp) (by simp)

/-- The (key, nonce) pair with which a ciphertext was made, as the decryptor sees it. -/
def usedPair (P : Prims) (k c : Bytes) : Bytes × Bytes := (P.kdf k (c.take 16), c.take 12)

/-- C25: two encryptions under one key use the same (derived key, nonce) pair only if the salts are equal or the key
derivation collides on two different salts with the same first 12 bytes. -/
theorem c25_pairs {P : Prims} (hP : P.Ok) (junk junk' : Nat → UInt8) (k s1 s2 m1 m2 c1 c2 : Bytes) (h1 : s1.length = 16)
    (h2 : s2.length = 16) (hm1 : m1 ≠ []) (hm2 : m2 ≠ [])
    (e1 : encryptString P junk (some k) s1 m1 = .ok c1) (e2 : encryptString P junk' (some k) s2 m2 = .ok c2) :
    usedPair P k c1 = (P.kdf k s1, s1.take 12) ∧ usedPair P k c2 = (P.kdf k s2, s2.take 12) ∧
    (usedPair P k c1 = usedPair P k c2 → s1 = s2 ∨ (s1 ≠ s2 ∧ s1.take 12 = s2.take 12 ∧ P.kdf k s1 = P.kdf k s2)) := by
  have a1 : usedPair P k c1 = (P.kdf k s1, s1.take 12) := by
    rw [encryptString_eq hP junk k s1 m1 h1 hm1] at e1
    injection e1 with e1; subst e1
    unfold usedPair
    rw [List.take_left' h1, List.take_append_of_le_length (by omega)]
  have a2 : usedPair P k c2 = (P.kdf k s2, s2.take 12) := by
    rw [encryptString_eq hP junk' k s2 m2 h2 hm2] at e2
    injection e2 with e2; subst e2
    unfold usedPair
    rw [List.take_left' h2, List.take_append_of_le_length (by omega)]
  refine ⟨a1, a2, ?_⟩
  intro h
  rw [a1, a2] at h
  simp only [Prod.mk.injEq] at h
  by_cases hs : s1 = s2
  · exact .inl hs
  · exact .inr ⟨hs, h.2, h.1⟩

example : ∃ c1 c2, encryptString toy (fun _ => 0) (some [1]) (List.replicate 16 1) [3] = .ok c1 ∧
    encryptString toy (fun _ => 0) (some [1]) (List.replicate 16 2) [3] = .ok c2 ∧ usedPair toy [1] c1 ≠ usedPair toy [1] c2 :=
  ⟨_, _, rfl, rfl, by decide +kernel⟩

/-! ## C53 -/

theorem keyFromBuf_ok {size : Nat} {mem : Bytes} (h : size ≤ mem.length) :
    keyFromBuf size mem = .ok (mem.take size, List.replicate size 0 ++ mem.drop size) := by
  unfold keyFromBuf
  rw [slice_ok (by omega)]
  simp only [List.drop_zero, Res.bind_ok]
  rw [putAt_ok (by simpa using h)]
  simp

/-- C53: on every input, the four deserializations throw `invalid_argument` exactly when the stated size is too small,
otherwise they take the first 32 (112) bytes as key, report this number, erase these bytes and leave the others alone.
The count of `Cipher` is stated for a counter that starts at 0, see `c53_cipher_count_false`. -/
theorem c53_deserialize_partial (mem : Bytes) (inSize n0 : Nat) (h : inSize ≤ mem.length) :
    (prfDeserialize mem inSize n0 = if inSize < 32 then .exc .invalidArgument
      else .ok ⟨mem.take 32, 32, List.replicate 32 0 ++ mem.drop 32⟩) ∧
    (prgDeserialize mem inSize n0 = if inSize < 32 then .exc .invalidArgument
      else .ok ⟨mem.take 32, 32, List.replicate 32 0 ++ mem.drop 32⟩) ∧
    (cipherDeserialize mem inSize 0 = if inSize < 32 then .exc .invalidArgument
      else .ok ⟨mem.take 32, 32, List.replicate 32 0 ++ mem.drop 32⟩) ∧
    (prpDeserialize true mem inSize n0 = if inSize < 112 then .exc .invalidArgument
      else .ok ⟨mem.take 112, 112, List.replicate 112 0 ++ mem.drop 112⟩) := by
  unfold prfDeserialize prgDeserialize cipherDeserialize prpDeserialize
  by_cases h1 : inSize < 32
  · have h2 : inSize < 112 := by omega
    simp [h1, h2]
  · simp only [if_neg h1]
    rw [keyFromBuf_ok (by omega)]
    by_cases h2 : inSize < 112
    · simp [h2]
    · simp only [if_neg h2]
      rw [keyFromBuf_ok (by omega)]
      simp

example : prgDeserialize (List.replicate 40 7) 33 5 = .ok ⟨List.replicate 32 7, 32, List.replicate 32 0 ++ List.replicate 8 7⟩ := by
  decide +kernel

/-- C53: serialization followed by deserialization restores the key, for each of the four classes; what follows the
serialized key in the buffer is not read. -/
theorem c53_roundtrip (k out : Bytes) (size : Nat) (hk : k.length = size) (hout : size ≤ out.length) (inSize n0 : Nat)
    (h1 : size ≤ inSize) (h2 : inSize ≤ out.length) :
    ∃ mem, serializeKey (some k) out = .ok mem ∧ mem.drop size = out.drop size ∧
      (size = 32 → ∃ mem', prfDeserialize mem inSize n0 = .ok ⟨k, 32, mem'⟩ ∧ prgDeserialize mem inSize n0 = .ok ⟨k, 32, mem'⟩ ∧
        cipherDeserialize mem inSize 0 = .ok ⟨k, 32, mem'⟩) ∧
      (size = 112 → ∃ mem', prpDeserialize true mem inSize n0 = .ok ⟨k, 112, mem'⟩) := by
  subst hk
  have hm : serializeKey (some k) out = .ok (k ++ out.drop k.length) := by
    unfold serializeKey
    simp only
    rw [putAt_ok (by omega)]
    simp
  refine ⟨_, hm, List.drop_left, ?_, ?_⟩
  · intro h
    obtain ⟨a, b, c, _⟩ := c53_deserialize_partial (k ++ out.drop k.length) inSize n0 (by simp; omega)
    rw [if_neg (by omega)] at a b c
    rw [List.take_left' h] at a b c
    exact ⟨_, a, b, c⟩
  · intro h
    obtain ⟨_, _, _, d⟩ := c53_deserialize_partial (k ++ out.drop k.length) inSize n0 (by simp; omega)
    rw [if_neg (by omega), List.take_left' h] at d
    exact ⟨_, d⟩

example : ∃ mem, serializeKey (some (List.replicate 32 5)) (List.replicate 35 1) = .ok mem ∧ mem.drop 32 = [1, 1, 1] ∧
    ∃ mem', prfDeserialize mem 35 9 = .ok ⟨List.replicate 32 5, 32, mem'⟩ := by
  obtain ⟨mem, h1, h2, h3, _⟩ := c53_roundtrip (List.replicate 32 5) (List.replicate 35 1) 32 (by simp) (by simp) 35 9 (by omega) (by simp)
  obtain ⟨m', h4, _⟩ := h3 rfl
  exact ⟨mem, h1, by simpa using h2, m', h4⟩

/-- C53 is false for the count reported by `Cipher::deserialize`: it adds to what the caller passed instead of storing. -/
theorem c53_cipher_count_false (mem : Bytes) (h : 32 ≤ mem.length) :
    ∃ d, cipherDeserialize mem 32 7 = .ok d ∧ d.nRead = 39 := by
  unfold cipherDeserialize
  rw [if_neg (by omega), keyFromBuf_ok h]
  exact ⟨_, rfl, rfl⟩

example : ∃ d, cipherDeserialize (List.replicate 32 1) 32 7 = .ok d ∧ d.nRead = 39 := c53_cipher_count_false _ (by simp)

/-- C53: a moved-from object cannot be serialized, and PRPs need the CPU support. -/
theorem c53_unavailable (out mem : Bytes) (inSize n0 : Nat) :
    serializeKey none out = .exc .runtimeError ∧ prpDeserialize false mem inSize n0 = .exc .runtimeError := ⟨rfl, rfl⟩

end Verif.Cipher
