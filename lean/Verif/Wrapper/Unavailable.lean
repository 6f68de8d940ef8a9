import Verif.Wrapper.Props
import Verif.Prg.Model

/-!
# Objects without a key (C61)

A moved-from object holds an empty `Key`; with memory locking enabled, reading it throws.
-/

namespace Verif.Wrapper

open Verif Verif.Mac Verif.Cipher

/-- The call threw: it neither returned anything nor had undefined behaviour. -/
def Throws {α : Type} (r : Res α) : Prop := ∃ e, r = .exc e

/-- **C61**, Prg: every member derivation of at least one byte and duplication throw on a moved-from generator; every static derivation
throws on a moved-from key, which stays moved-from. -/
theorem c61_prg (B : Bytes → Nat → Nat → UInt8) (K off len n : Nat) (outNull : Bool) :
    (0 < len → Throws (Prg.derive B none off len outNull) ∧ Throws (Prg.deriveString B none off len) ∧ Throws (Prg.deriveString0 B none len)) ∧
    (0 < K → Throws (Prg.deriveKey B K none off)) ∧
    (0 < K → 0 < n → Throws (Prg.deriveKeys B K none n off)) ∧
    Throws (Prg.duplicate none) ∧
    (Throws (Prg.sDerive B none off len outNull).1 ∧ (Prg.sDerive B none off len outNull).2 = none) ∧
    (Throws (Prg.sDeriveString B none off len).1 ∧ (Prg.sDeriveString B none off len).2 = none) ∧
    (Throws (Prg.sDeriveString0 B none len).1 ∧ (Prg.sDeriveString0 B none len).2 = none) ∧
    (Throws (Prg.sDeriveKey B K none off).1 ∧ (Prg.sDeriveKey B K none off).2 = none) ∧
    (Throws (Prg.sDeriveKeys B K none n off).1 ∧ (Prg.sDeriveKeys B K none n off).2 = none) := by
  have hd : ∀ o l b, 0 < l → Prg.derive B none o l b = .exc .runtimeError := by
    intro o l b hl
    rw [Prg.derive, if_neg (by omega)]
  refine ⟨fun hl => ⟨⟨_, hd off len outNull hl⟩, ⟨_, hd off len false hl⟩, ⟨_, hd 0 len false hl⟩⟩, ?_, ?_, ⟨_, rfl⟩, ⟨⟨_, rfl⟩, rfl⟩, ⟨⟨_, rfl⟩, rfl⟩, ⟨⟨_, rfl⟩, rfl⟩, ?_, ?_⟩
  · intro hK
    unfold Prg.deriveKey
    split
    · exact ⟨_, rfl⟩
    · exact ⟨_, hd _ _ _ hK⟩
  · intro hK hn
    unfold Prg.deriveKeys
    by_cases ht : Prg.tooLarge K n = true
    · rw [if_pos ht]; exact ⟨_, rfl⟩
    · rw [if_neg ht]
      split
      · exact ⟨_, rfl⟩
      · rw [if_neg (by omega), hd]
        · exact ⟨_, rfl⟩
        · have h1 : K < (W64 - 1) / n := by
            simpa [Prg.tooLarge, hn] using ht
          have h2 : (K + 1) * n ≤ W64 - 1 := (Nat.le_div_iff_mul_le hn).1 h1
          have h3 : 0 < n * K := Nat.mul_pos hn hK
          rw [Nat.add_mul, Nat.mul_comm K n] at h2
          rw [Nat.mod_eq_of_lt (by omega)]
          exact h3
  · unfold Prg.sDeriveKey
    split
    · exact ⟨⟨_, rfl⟩, rfl⟩
    · exact ⟨⟨_, rfl⟩, rfl⟩
  · rw [Prg.sDeriveKeys, if_pos rfl]
    exact ⟨⟨_, rfl⟩, rfl⟩

/-- **C61**, HMac and Prf (of any output length, also longer than the digest, as soon as one loop test is made). -/
theorem c61_mac (H : Bytes → Bytes) (junk : Nat → UInt8) (N nb fuel : Nat) (inp : Option Bytes) (outNull : Bool) (outLen : Nat)
    (hf : 0 < fuel) :
    Throws (hmac H junk N none inp outNull outLen) ∧ Throws (hmacArray H junk N none inp) ∧
    (∃ r, prf H junk none nb fuel inp = some r ∧ Throws r) ∧ (∃ r, deriveKey H junk none nb fuel inp = some r ∧ Throws r) := by
  have h : ∀ i b l, Throws (hmac H junk N none i b l) := by
    intro i b l
    unfold hmac
    split
    · exact ⟨_, rfl⟩
    · cases i with
      | none => exact ⟨_, rfl⟩
      | some m => simp only; split <;> exact ⟨_, rfl⟩
  have h32 : ∀ i b l, Throws (hmac H junk 32 none i b l) := by
    intro i b l
    unfold hmac
    split
    · exact ⟨_, rfl⟩
    · cases i with
      | none => exact ⟨_, rfl⟩
      | some m => simp only; split <;> exact ⟨_, rfl⟩
  have hp : ∃ r, prf H junk none nb fuel inp = some r ∧ Throws r := by
    unfold prf
    cases inp with
    | none => exact ⟨_, rfl, _, rfl⟩
    | some m =>
      simp only
      by_cases hn : nb > digestSize
      · rw [if_pos hn]
        cases fuel with
        | zero => omega
        | succ fuel =>
          obtain ⟨e, he⟩ := h32 (some (m ++ [UInt8.ofNat 0])) false (if nb - 0 ≥ digestSize then digestSize else nb - 0)
          have hn' : 0 < nb := by omega
          rw [prfLoop, if_pos hn']
          simp only [he, Res.bind_exc]
          exact ⟨_, rfl, _, rfl⟩
      · rw [if_neg hn]
        exact ⟨_, rfl, h32 _ _ _⟩
  refine ⟨h _ _ _, h _ _ _, hp, ?_⟩
  obtain ⟨r, h1, e, rfl⟩ := hp
  exact ⟨.exc e, by rw [deriveKey, h1]; rfl, _, rfl⟩

/-- **C61**, Cipher: encryption and decryption throw on a moved-from object (the output buffer has room for the nonce). -/
theorem c61_cipher (P : Prims) (junk : Nat → UInt8) (salt inp out : Bytes) (len : Nat) (hsalt : salt.length = 16)
    (hout : 16 ≤ out.length) :
    Throws (encryptBuf P none salt inp len out) ∧ Throws (encryptString P junk none salt inp) ∧
    Throws (decryptBuf P none inp len out) ∧ Throws (decryptString P none inp) := by
  have he : ∀ i l o, 16 ≤ List.length o → Throws (encryptBuf P none salt i l o) := by
    intro i l o ho
    unfold encryptBuf
    rw [putAt_ok (by omega)]
    exact ⟨_, rfl⟩
  have hd : ∀ i l o, Throws (decryptBuf P none i l o) := by
    intro i l o
    unfold decryptBuf
    split <;> exact ⟨_, rfl⟩
  refine ⟨he _ _ _ hout, ?_, hd _ _ _, ?_⟩
  · unfold encryptString
    split
    · exact ⟨_, rfl⟩
    · obtain ⟨e, h⟩ := he inp inp.length (rawBuf junk (ciphertextLength inp.length)) (by simp [rawBuf, ciphertextLength])
      rw [h]; exact ⟨_, rfl⟩
  · unfold decryptString
    split
    · exact ⟨_, rfl⟩
    · obtain ⟨e, h⟩ := hd inp inp.length (List.replicate (plaintextLength inp.length) 0)
      rw [h]; exact ⟨_, rfl⟩

/-- **C61**, Wrapper: wrapping an object that serializes, and unwrapping anything, throw on a moved-from wrapper. -/
theorem c61_wrapper (H : Bytes → Bytes) (S : Bytes → Bytes → Nat → UInt8) (junk : Nat → UInt8) (C : Class) (x : C.σ) (ser iv c : Bytes)
    (hiv : iv.length = 16) (hser : C.serialize x = .ok ser) (hsize : ser.length = C.size x) :
    Throws (wrap H S junk ⟨none, none⟩ C x iv).res ∧ Throws (unwrap H S junk ⟨none, none⟩ C c).res ∧ Throws (mkWrapper H junk none) := by
  have hp : ∀ nb m, Throws (prf1 H junk none nb m) := by
    intro nb m
    obtain ⟨r, h1, h2⟩ := (c61_mac H junk 32 nb 1 (some m) false 0 (by omega)).2.2.1
    unfold prf1
    rw [h1]; exact h2
  refine ⟨?_, ?_, ?_⟩
  · unfold wrap
    simp only [hser, Res.bind_ok]
    rw [buffer_bind junk iv C.ctx ser C.typeByte (C.size x) hiv hsize]
    obtain ⟨e, he⟩ := hp 12 (iv ++ C.typeByte :: C.ctx ++ ser)
    rw [he]; exact ⟨_, rfl⟩
  · unfold unwrap
    by_cases hc : c.length ≤ 28
    · rw [if_pos hc]; exact ⟨_, rfl⟩
    · rw [if_neg hc]
      have hb := buffer_eq junk (c.take 16) C.ctx (List.replicate (c.length - 28) 0) C.typeByte (c.length - 28) (by simp; omega) (by simp)
      simp only [Res.bind_eq_ok] at hb
      obtain ⟨b1, e1, b2, e2, b3, e3, _⟩ := hb
      simp only [e1, e2, e3, Res.bind_ok]
      exact ⟨_, rfl⟩
  · obtain ⟨e, he⟩ := hp 32 [0x01]
    unfold mkWrapper
    rw [he]; exact ⟨_, rfl⟩

example : Throws (wrap toyH' toyS (fun _ => 0) ⟨none, none⟩ (prfC 16) (some toyKey32) (List.replicate 16 9)).res :=
  (c61_wrapper toyH' toyS _ (prfC 16) (some toyKey32) toyKey32 _ [] (by simp) rfl (by simp [toyKey32, prfC])).1

example : Throws (Prg.deriveKeys (fun _ _ _ => 7) 16 none 3 5) := (c61_prg _ 16 5 1 3 false).2.2.1 (by omega) (by omega)

end Verif.Wrapper
