import Verif.Aez.ReduceWide
import Verif.Aez.PropsRandom

/-!
# C111: the permutation of long strings looks random if the functions that it asks do

C110 covers strings of at most 32 bytes, whose permutation is a Feistel network.  Longer strings go through AEZ-core: every block is changed twice, with a
sum over the whole string in between.
-/

namespace Verif.AezWide

open Verif Verif.Avg Verif.Oracle Verif.AezRandom

section
variable {R : Aez.Block → Aez.Block} {r : Nat → Nat} (hr : ∀ b, Aez.Spec.val (R b) = r (Aez.Spec.val b))

theorem cipherT_keyed (r : Nat → Nat) (k : Bytes) {a : Ask} (h : 32 ≤ a.2.length) :
    cipherT (keyed r k) a = if a.1 then AezSpec.decipher r (AezSpec.key k) a.2 else AezSpec.encipher r (AezSpec.key k) a.2 := by
  obtain ⟨d, s⟩ := a
  have h : 32 ≤ s.length := h
  unfold cipherT
  cases d
  · show coreT (keyed r k) 1 2 s = AezSpec.encipherD r (AezSpec.key k) (AezSpec.delta r (AezSpec.key k)) s
    rw [coreT_keyed r k (.inl ⟨rfl, rfl⟩), Aez.encipher_core _ _ _ (by omega)]
  · show coreT (keyed r k) 2 1 s = AezSpec.decipherD r (AezSpec.key k) (AezSpec.delta r (AezSpec.key k)) s
    rw [coreT_keyed r k (.inr ⟨rfl, rfl⟩), Aez.decipher_core _ _ _ (by omega)]

include hr in
theorem codeString_eq (junk : Nat → UInt8) {k : Bytes} (hk : k.length = 48) {a : Ask} (h1 : 32 ≤ a.2.length) (h : a.2.length ≤ 4294967295) :
    codeString R junk k a = cipherT (keyed r k) a := by
  obtain ⟨c, e1, e2, e3⟩ := Aez.c70_string hr hk junk a.2 h
  rw [cipherT_keyed r k h1]
  unfold codeString
  rw [e1]
  obtain ⟨d, s⟩ := a
  cases d
  · simp only [e2]; rfl
  · simp only [e3]; rfl

include hr in
/-- C111: an attack that asks for at most `q` encryptions and decryptions of strings of 32 to 32 `ℓ` + 63 bytes, one after the other, tells the code from
independent uniform permutations of the strings of each length at most as well as `toFunctions A` tells the keyed functions of AEZ from uniform
functions, plus `(q ℓ (2 q ℓ - 1) + ℓ q² + 2 q (q - 1)) / 2 ^ 128 + q (q - 1) / (2 * 256 ^ 32)`. -/
theorem c111_strings (junk : Nat → UInt8) {ℓ : Nat} (hℓ : 32 * ℓ + 63 ≤ 4294967295) {q : Nat} {A : Att Ask Bytes} (hA : AtMost q A) (hs : Asks (Long ℓ) A) :
    |E (fun k : Block 48 => play (codeString R junk (toBytes k)) A) - ideal ℓ A| ≤
      adv ℓ r (toFunctions A) +
        (((q : ℚ) * ℓ * (2 * (q * ℓ) - 1) + ℓ * q ^ 2 + 2 * (q * (q - 1))) / 2 ^ 128 + (q : ℚ) * (q - 1) / (2 * 256 ^ 32)) := by
  have e1 : ∀ k : Block 48, play (codeString R junk (toBytes k)) A = play (keyed r (toBytes k)) (toFunctions A) := by
    intro k
    rw [play_toFunctions]
    exact AezRandom.play_congr (fun a ha => codeString_eq hr junk (toBytes_len k) ha.1 (by have := ha.2; omega)) hs
  have h2 := random_close hA hs
  simp only [e1]
  refine le_trans (abs_sub_le _ (E (fun ρ : Table ℓ => play (look ρ) (toFunctions A))) _) (add_le_add (le_refl _) ?_)
  simp only [play_toFunctions]
  refine le_trans h2 (le_of_eq ?_)
  unfold Wide.loss
  generalize (2 : ℚ) ^ 128 = N
  generalize (256 : ℚ) ^ 32 = N'
  ring

/-- C111: the attack on the functions asks at most 5 `ℓ` + 10 times as often. -/
theorem c111_questions {ℓ q : Nat} {A : Att Ask Bytes} (hA : AtMost q A) (hs : Asks (Long ℓ) A) : AtMost (q * (5 * ℓ + 10)) (toFunctions A) :=
  atMost_toFunctions hA hs

end

/-! ## Examples -/

/-- An attack that asks for a string of 100 bytes, for the decryption of one of 77 bytes that depends on the answer, and for a string of 40 bytes. -/
def exAsk : Att Ask Bytes :=
  .ask (false, List.replicate 100 1) fun y => .ask (true, (y.drop 68 ++ List.replicate 77 2).take 77) fun z =>
    .ask (false, (z.take 8 ++ List.replicate 40 0).take 40) fun w => .done (w.take 1 == y.take 1)

theorem exAsk_atMost : AtMost 3 exAsk := .ask fun _ => .ask fun _ => .ask fun _ => .done _

theorem exAsk_asks : Asks (Long 2) exAsk :=
  .ask ⟨by simp, by simp⟩ fun _ => .ask ⟨by simp, by simp⟩ fun _ => .ask ⟨by simp, by simp⟩ fun _ => .done _

example : |E (fun k : Block 48 => play (codeString Aez.toyR (fun _ => 9) (toBytes k)) exAsk) - ideal 2 exAsk| ≤
    adv 2 (Aez.roundNat Aez.toyR) (toFunctions exAsk) +
      ((((3 : Nat) : ℚ) * (2 : Nat) * (2 * ((3 : Nat) * (2 : Nat)) - 1) + (2 : Nat) * (3 : Nat) ^ 2 + 2 * ((3 : Nat) * ((3 : Nat) - 1))) / 2 ^ 128 +
        ((3 : Nat) : ℚ) * ((3 : Nat) - 1) / (2 * 256 ^ 32)) :=
  c111_strings (Aez.roundNat_eq Aez.toyR) _ (by decide) exAsk_atMost exAsk_asks

example : AtMost 60 (toFunctions exAsk) := c111_questions exAsk_atMost exAsk_asks

end Verif.AezWide
