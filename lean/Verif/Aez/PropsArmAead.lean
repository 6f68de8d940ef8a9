import Verif.Aez.ModelArmAead
import Verif.Aez.ModelSetup
import Verif.Aez.PropsArm
import Verif.Aez.PropsAead

/-!
# `aez_setup`, `aez_encrypt` and `aez_decrypt` on both processors, with keys of any length, a nonce and authentication bytes (C79, C84)
-/

namespace Verif.Aez.Arm.Aead

open Verif Verif.Aez
open Verif.Aez.Aead (firstBytes)

theorem isZero_eq (x : Block) : Arm.isZero x = Aez.Aead.isZero x := by
  rw [Bool.eq_iff_iff, c79_is_zero, Aez.Aead.isZero, decide_eq_true_iff]

theorem bandnot_eq : bandnot = Aez.Aead.bandnot := by
  funext x y i
  simp only [bandnot, vbic, Aez.Aead.bandnot, UInt8.and_comm]

section
variable (S M : Block → Block)

theorem hashN_eq : hashN S M = Aez.Aead.hashN (fun x => M (S x)) := by
  funext c nonce nbytes abytes
  simp only [hashN, Aez.Aead.hashN, Arm.bswap, dbl_eq, bswap_bswap, aes4_eq]

theorem tagOk_eq : tagOk = Aez.Aead.tagOk := by
  funext d abytes f
  simp only [tagOk, Aez.Aead.tagOk, isZero_eq, bandnot_eq]

theorem coreA_eq : coreA S M = Aez.Aead.coreA (fun x => M (S x)) := by
  funext c t d al bytes abytes m
  simp only [coreA, Aez.Aead.coreA, passOne_eq, passTwo_eq, coreFrag_eq, coreFragOut_eq, aes4_eq, aes_eq, tagOk_eq]

theorem tinyA_eq (c : Ctx) (t : Block) (d al : Bool) {bytes abytes : Nat}
    (h : (if d then bytes else (bytes + abytes) % 4294967296) < 32) (m : Mem) :
    tinyA S M c t d al bytes abytes m = Aez.Aead.tinyA (fun x => M (S x)) c t d al bytes abytes m := by
  simp only [tinyA, Aez.Aead.tinyA, tinyMasks_eq h, tinyRight_eq, tinyJoin_eq, feistel_eq, tinyLeft_eq, tinyFinish_eq, isZero_eq]

theorem enc_eq : enc S M = Aez.Aead.enc (fun x => M (S x)) := by
  funext c nonce nbytes abytes al bytes m
  simp only [enc, Aez.Aead.enc, hashN_eq, coreA_eq, emptyTag, Aez.Aead.emptyTag, aes_eq]
  by_cases h : (bytes + abytes) % 4294967296 < 32
  · simp only [tinyA_eq S M _ _ false al (by rw [if_neg Bool.false_ne_true]; exact h)]
  · simp only [if_neg h]

theorem dec_eq : dec S M = Aez.Aead.dec (fun x => M (S x)) := by
  funext c nonce nbytes abytes al bytes m
  simp only [dec, Aez.Aead.dec, hashN_eq, coreA_eq, emptyTag, Aez.Aead.emptyTag, aes_eq, isZero_eq, bandnot_eq]
  by_cases h : bytes < 32
  · simp only [tinyA_eq S M _ _ true al (show (if true then bytes else (bytes + abytes) % 4294967296) < 32 from by rw [if_pos rfl]; exact h)]
  · simp only [if_neg h]

end

end Verif.Aez.Arm.Aead

namespace Verif.Aez

open Verif
open Verif.Aez.Aead (firstBytes)

section
variable {R S M : Block → Block} (hR : ∀ x, R x = M (S x))
include hR

/-- Encryption with a nonce and authentication bytes: for all arguments the same memory afterwards, and undefined behaviour for the same arguments. -/
theorem c79_aead_encrypt (c : Ctx) (nonce : Buf) (nb a : Nat) (al : Bool) (b : Nat) (m : Mem) :
    Arm.Aead.enc S M c nonce nb a al b m = Aead.enc R c nonce nb a al b m := by
  rw [Arm.Aead.enc_eq, round_eq hR]

/-- Decryption: the same memory and the same result. -/
theorem c79_aead_decrypt (c : Ctx) (nonce : Buf) (nb a : Nat) (al : Bool) (n : Nat) (m : Mem) :
    Arm.Aead.dec S M c nonce nb a al n m = Aead.dec R c nonce nb a al n m := by
  rw [Arm.Aead.dec_eq, round_eq hR]

/-- A message encrypted on an ARMv8 machine is accepted and decrypted on an x86-64 machine, and the other way round, with contexts made from the same key. -/
theorem c79_aead_exchange {key : Bytes} (hk : key.length = 48) (nonce : Buf) (nb a : Nat) (hnb : nb ≤ 16) (hns : nb ≤ nonce.size) (ha : a ≤ 16)
    (al al2 : Bool) (b : Nat) (m m2 : Mem) (hlt : b + a < 4294967296) (hS : b + a ≤ ssize al m) (hD : b + a ≤ m.dst.size)
    (hS2 : b + a ≤ ssize al2 m2) (hD2 : b ≤ m2.dst.size) :
    ∃ m', Arm.Aead.enc S M (Arm.setup (fn key)) nonce nb a al b m = .ok m' ∧ Aead.enc R (setup (fn key)) nonce nb a al b m = .ok m' ∧
      ((∀ i, i < b + a → sdat al2 m2 i = m'.dst.data i) →
        ∃ m2', Aead.dec R (setup (fn key)) nonce nb a al2 (b + a) m2 = .ok (m2', true) ∧
          Arm.Aead.dec S M (Arm.setup (fn key)) nonce nb a al2 (b + a) m2 = .ok (m2', true) ∧
          firstBytes m2'.dst.data b = firstBytes (sdat al m) b) := by
  obtain ⟨m', h1, h2⟩ := Aead.c84_roundtrip (roundNat_eq R) hk nonce nb a hnb hns ha al al2 b m m2 hlt hS hD hS2 hD2
  refine ⟨m', by rw [c79_aead_encrypt hR, Arm.setup_eq]; exact h1, h1, fun hc => ?_⟩
  obtain ⟨m2', h3, h4⟩ := h2 hc
  exact ⟨m2', h3, by rw [c79_aead_decrypt hR, Arm.setup_eq]; exact h3, h4⟩

end

/-- With AES on the processor: on ARMv8 `aez_encrypt` writes the encryption of AEZ as published, over AES, under the same condition as on x86-64. -/
theorem c79_aead_aes_partial {key : Bytes} (hk : key.length = 48) (nonce : Buf) (nb a : Nat) (hnb : nb ≤ 16) (hns : nb ≤ nonce.size) (ha : a ≤ 16) (al : Bool)
    (b : Nat) (m : Mem) (hlt : b + a < 4294967296) (hS : (if b + a < 32 then b else b + a) ≤ ssize al m) (hD : b + a ≤ m.dst.size) :
    ∃ m', Arm.Aead.enc AesSpec.subShift AesSpec.mixCols (Arm.setup (fn key)) nonce nb a al b m = .ok m' ∧
      firstBytes m'.dst.data (b + a) =
        AezSpec.encrypt (roundNat AesSpec.round) (AezSpec.key key) a (firstBytes nonce.data nb) (firstBytes (sdat al m) b) ∧
      (∀ i, b + a ≤ i → m'.dst.data i = m.dst.data i) := by
  obtain ⟨m', h1, -, -, h2, h3⟩ := Aead.c84_encrypt_partial (roundNat_eq AesSpec.round) hk nonce nb a hnb hns ha al b m hlt hS hD
  exact ⟨m', by rw [c79_aead_encrypt aes_split, Arm.setup_eq]; exact h1, h2, h3⟩

/-! ## Keys of other lengths -/

namespace AezSpec

/-- `Extract` of AEZ: a key of 384 bits is used as it is, any other is hashed to 384 bits. -/
def extract (B : Bytes → Bytes) (key : Bytes) : Bytes := if key.length = 48 then key else B key

end AezSpec

theorem setupFill_eq (c : Ctx) : Arm.setupFill c = setupFill c := by
  simp only [Arm.setupFill, setupFill, Arm.bswap, Arm.dbl_eq, bswap_bswap]

/-- `aez_setup` on both processors: the same context, and undefined behaviour for the same arguments. -/
theorem c79_setup (B : Bytes → Nat → UInt8) (key : Buf) (keylen : Nat) (c : Ctx) : Arm.setupAny B key keylen c = setupAny B key keylen c := by
  rw [Arm.setupAny, setupAny, show Arm.setupFill = setupFill from funext setupFill_eq]

/-- `aez_setup`: for a key of any length, and whatever the context contained, the context is the one of the extracted key. -/
theorem c84_setup (B : Bytes → Bytes) (key : Bytes) (c : Ctx) :
    setupAny (fun k => fn (B k)) (Buf.ofList key) key.length c = .ok (setup (fn (AezSpec.extract B key))) := by
  rw [setupAny, setupLoad, AezSpec.extract]
  by_cases h : key.length = 48
  · rw [if_pos h, if_pos h]
    have hl : ∀ o, o + 16 ≤ 48 → ld (Buf.ofList key) o = .ok (blk (fn key) o) := by
      intro o ho
      rw [ld, if_pos (show o + 16 ≤ (Buf.ofList key).size from (by omega : o + 16 ≤ key.length))]; rfl
    rw [hl 0 (by decide), hl 16 (by decide), hl 32 (by decide)]
    rfl
  · rw [if_neg h, if_neg h, if_pos (show key.length ≤ (Buf.ofList key).size from Nat.le_refl _)]
    have e : (List.range key.length).map (Buf.ofList key).data = key := Aead.firstBytes_fn key
    rw [e]
    rfl

/-- A key shorter than `keylen` is read past its end. -/
theorem c84_setup_bounds (B : Bytes → Nat → UInt8) (key : Buf) (keylen : Nat) (c : Ctx) :
    setupAny B key keylen c = .ub ↔ key.size < keylen := by
  rw [setupAny, setupLoad]
  by_cases h : keylen = 48
  · rw [if_pos h]
    simp only [ld]
    subst h
    by_cases h1 : 0 + 16 ≤ key.size <;> by_cases h2 : 16 + 16 ≤ key.size <;> by_cases h3 : 32 + 16 ≤ key.size <;>
      simp [h1, h2, h3] <;> omega
  · rw [if_neg h]
    by_cases h' : keylen ≤ key.size
    · rw [if_pos h']
      simp; omega
    · rw [if_neg h']
      simp; omega

/-! ## Concrete cases -/

example (c : Ctx) (nonce : Buf) (m : Mem) : Arm.Aead.dec AesSpec.subShift AesSpec.mixCols c nonce 12 16 true 50 m = Aead.dec AesSpec.round c nonce 12 16 true 50 m :=
  c79_aead_decrypt aes_split c nonce 12 16 true 50 m

example (m2 : Mem) (h1 : 56 ≤ m2.src.size) (h2 : 40 ≤ m2.dst.size) :
    ∃ m', Arm.Aead.enc AesSpec.subShift AesSpec.mixCols (Arm.setup (fn exKey48)) ⟨16, fun _ => 3⟩ 16 16 true 40 ⟨⟨0, fun _ => 7⟩, ⟨56, fun i => UInt8.ofNat i⟩⟩ = .ok m' ∧
      Aead.enc AesSpec.round (setup (fn exKey48)) ⟨16, fun _ => 3⟩ 16 16 true 40 ⟨⟨0, fun _ => 7⟩, ⟨56, fun i => UInt8.ofNat i⟩⟩ = .ok m' ∧
      ((∀ i, i < 56 → m2.src.data i = m'.dst.data i) →
        ∃ m2', Aead.dec AesSpec.round (setup (fn exKey48)) ⟨16, fun _ => 3⟩ 16 16 false 56 m2 = .ok (m2', true) ∧
          Arm.Aead.dec AesSpec.subShift AesSpec.mixCols (Arm.setup (fn exKey48)) ⟨16, fun _ => 3⟩ 16 16 false 56 m2 = .ok (m2', true) ∧
          firstBytes m2'.dst.data 40 = firstBytes (fun i => UInt8.ofNat i) 40) :=
  c79_aead_exchange aes_split (key := exKey48) (by decide) ⟨16, fun _ => 3⟩ 16 16 (by decide) (by decide) (by decide) true false 40
    ⟨⟨0, fun _ => 7⟩, ⟨56, fun i => UInt8.ofNat i⟩⟩ m2 (by decide) (by decide) (by decide) h1 h2

example : ∃ m', Arm.Aead.enc AesSpec.subShift AesSpec.mixCols (Arm.setup (fn exKey48)) ⟨12, fun i => UInt8.ofNat i⟩ 12 16 true 100
      ⟨⟨0, fun _ => 0⟩, ⟨120, fun i => UInt8.ofNat i⟩⟩ = .ok m' ∧ m'.dst.data 118 = 118 := by
  obtain ⟨m', h1, -, h3⟩ := c79_aead_aes_partial (key := exKey48) (by decide) ⟨12, fun i => UInt8.ofNat i⟩ 12 16 (by decide)
    (by decide) (by decide) true 100 ⟨⟨0, fun _ => 0⟩, ⟨120, fun i => UInt8.ofNat i⟩⟩ (by decide) (by decide) (by decide)
  exact ⟨m', h1, h3 118 (by decide)⟩

/-- A hash of 48 bytes, for the examples. -/
def exHash (k : Bytes) : Bytes := (List.range 48).map fun i => UInt8.ofNat (3 * i + k.length) + k.getD i 0

example (c : Ctx) : setupAny (fun k => fn (exHash k)) (Buf.ofList [1, 2, 3]) 3 c = .ok (setup (fn (exHash [1, 2, 3]))) :=
  c84_setup exHash [1, 2, 3] c

example (c : Ctx) : setupAny (fun k => fn (exHash k)) (Buf.ofList exKey48) 48 c = .ok (setup (fn exKey48)) :=
  c84_setup exHash exKey48 c

example (c : Ctx) : setupAny (fun k => fn (exHash k)) ⟨32, fun _ => 0⟩ 48 c = .ub := (c84_setup_bounds _ ⟨32, fun _ => 0⟩ 48 c).2 (by decide)

end Verif.Aez
