import Verif.Aez.ReduceRandom
import Mathlib.Logic.Equiv.Prod

/-!
# C110: the permutation of short strings looks random if the functions that it asks do

C70 says that `Prp` computes AEZ and inverts itself; it does not say that anybody is kept from telling it from a random permutation.
-/

namespace Verif.AezRandom

open Verif Verif.Avg Verif.Oracle

/-- What a caller of `encrypt` and `decrypt` on strings sees, with the key `k` (src/prp.cpp:79–104, 201–227 and 265–291). -/
def codeString (R : Aez.Block → Aez.Block) (junk : Nat → UInt8) (k : Bytes) (a : Ask) : Bytes :=
  match Aez.mkPrp true (some k) with
  | .ok c => match Aez.prpString R true (some c) junk a.1 a.2 with
    | .ok s => s
    | _ => []
  | _ => []

/-- What a caller of `encrypt` and `decrypt` of `uint32_t` (`n` = 4), `encrypt_64` and `decrypt_64` (`n` = 8) sees (src/prp.cpp:124–141 and 150–166). -/
def codeInt (R : Aez.Block → Aez.Block) (junk : Nat → UInt8) (n : Nat) (k : Bytes) (a : Bool × Nat) : Nat :=
  match Aez.mkPrp true (some k) with
  | .ok c => match Aez.prpInt R true (some c) junk a.1 n a.2 with
    | .ok x => x
    | _ => 0
  | _ => 0

/-- The answers of a permutation of the numbers of `n` bytes. -/
def permNum {N : Nat} (π : Equiv.Perm (Fin N)) (a : Bool × Nat) : Nat :=
  if h : a.2 < N then (if a.1 then π.symm ⟨a.2, h⟩ else π ⟨a.2, h⟩).1 else 0

/-- The attack on strings that an attack on numbers is. -/
def onStrings (n : Nat) : Att (Bool × Nat) Nat → Att Ask Bytes
  | .done b => .done b
  | .ask a c => .ask (a.1, leBytes n a.2) fun y => onStrings n (c (leNat y))

section
variable {R : Aez.Block → Aez.Block} {r : Nat → Nat} (hr : ∀ b, Aez.Spec.val (R b) = r (Aez.Spec.val b))

theorem core_32 (r : Nat → Nat) (k : AezSpec.Key) (D a b : Nat) {s : Bytes} (h : s.length = 32) :
    AezSpec.core r k D a b s =
      let sx := beNat (s.take 16) ^^^ (D ^^^ AezSpec.E0 r k a (beNat (s.drop 16)))
      let sy := beNat (s.drop 16) ^^^ AezSpec.Em1 r k a sx
      let cy := sx ^^^ AezSpec.Em1 r k b sy
      beBytes 16 (sy ^^^ (D ^^^ AezSpec.E0 r k b cy)) ++ beBytes 16 cy := by
  have hp : AezSpec.pairs s = 0 := by unfold AezSpec.pairs; rw [h]
  have hu : AezSpec.uPart s = [] := by unfold AezSpec.uPart; rw [h]; rfl
  have hv : AezSpec.vPart s = [] := by unfold AezSpec.vPart; rw [h]; rfl
  have h0 : AezSpec.block s 0 = beNat (s.take 16) := by unfold AezSpec.block; rw [List.drop_zero]
  have h1 : AezSpec.block s 16 = beNat (s.drop 16) := by
    unfold AezSpec.block
    rw [List.take_of_length_le (by rw [List.length_drop, h])]
  have huv : ∀ u v, AezSpec.uvSum r k 32 u v = 0 := fun u v => if_pos rfl
  simp only [AezSpec.core, AezSpec.cxOf, AezSpec.cyOf, AezSpec.cuOf, AezSpec.cvOf, AezSpec.syOf, AezSpec.sxOf, hp, hu, hv, h, huv, h0, h1,
    show 32 - 32 = 0 from rfl, show 32 - 16 = 16 from rfl, AezSpec.xorSum, AezSpec.xorBytes, List.zipWith_nil_left, List.range_zero, List.flatMap_nil,
    List.nil_append, Nat.xor_zero, Nat.xor_assoc]

theorem cipherT_keyed (r : Nat → Nat) (k : Bytes) {a : Ask} (h1 : 1 ≤ a.2.length) (h : a.2.length < 33) :
    cipherT (keyed r k) a = if a.1 then AezSpec.decipher r (AezSpec.key k) a.2 else AezSpec.encipher r (AezSpec.key k) a.2 := by
  obtain ⟨d, s⟩ := a
  by_cases h32 : s.length = 32
  · unfold cipherT
    rw [if_pos h32]
    cases d
    · show _ = AezSpec.encipherD r (AezSpec.key k) (AezSpec.delta r (AezSpec.key k)) s
      rw [Aez.encipher_core _ _ _ (by omega), core_32 _ _ _ _ _ h32]
      simp only [coreT, List.foldl, roundT, point, coreIndex, keyed, Bool.false_eq_true, if_false, if_true, Nat.reduceMul, Nat.reduceSub, Nat.reduceLT,
        Nat.reduceEqDiff, pow_zero, Nat.div_one, one_ne_zero, OfNat.ofNat_ne_zero, OfNat.ofNat_ne_one]
    · show _ = AezSpec.decipherD r (AezSpec.key k) (AezSpec.delta r (AezSpec.key k)) s
      rw [Aez.decipher_core _ _ _ (by omega), core_32 _ _ _ _ _ h32]
      simp only [coreT, List.foldl, roundT, point, coreIndex, keyed, Bool.false_eq_true, if_false, if_true, Nat.reduceMul, Nat.reduceSub, Nat.reduceLT,
        Nat.reduceEqDiff, pow_zero, Nat.div_one, one_ne_zero, OfNat.ofNat_ne_zero, OfNat.ofNat_ne_one]
  have hlt : s.length < 32 := by
    have : s.length < 33 := h
    omega
  have hround : roundT (keyed r k) s.length = AezSpec.tinyRound r (AezSpec.key k) (AezSpec.delta r (AezSpec.key k)) s.length := by
    funext p j
    unfold roundT AezSpec.tinyRound keyed point tw
    rw [if_neg h32, Nat.xor_assoc]
    by_cases h16 : s.length < 16
    · rw [if_pos h16]; rfl
    · rw [if_neg h16]; rfl
  have hbit : ∀ x, bitT (keyed r k) s.length x = AezSpec.tinyBit r (AezSpec.key k) (AezSpec.delta r (AezSpec.key k)) s.length x := fun _ => rfl
  have hcount : count s.length = AezSpec.tinyRounds s.length := if_neg h32
  unfold cipherT
  rw [if_neg h32]
  cases d
  · show beBytes s.length (encT (keyed r k) s.length (beNat s)) = AezSpec.encipherD r (AezSpec.key k) (AezSpec.delta r (AezSpec.key k)) s
    rw [Aez.encipher_tiny _ _ _ h1 hlt]
    unfold encT AezSpec.tinyEnc
    simp only [hround, hbit, hcount]
  · show beBytes s.length (decT (keyed r k) s.length (beNat s)) = AezSpec.decipherD r (AezSpec.key k) (AezSpec.delta r (AezSpec.key k)) s
    rw [Aez.decipher_tiny _ _ _ h1 hlt]
    unfold decT AezSpec.tinyDec
    simp only [hround, hbit, hcount]

include hr in
theorem codeString_eq (junk : Nat → UInt8) {k : Bytes} (hk : k.length = 48) {a : Ask} (h1 : 1 ≤ a.2.length) (h : a.2.length < 33) :
    codeString R junk k a = cipherT (keyed r k) a := by
  obtain ⟨c, e1, e2, e3⟩ := Aez.c70_string hr hk junk a.2 (by omega)
  rw [cipherT_keyed r k h1 h]
  unfold codeString
  rw [e1]
  obtain ⟨d, s⟩ := a
  cases d
  · simp only [e2]; rfl
  · simp only [e3]; rfl

theorem play_congr {ι γ : Type} {F G : ι → γ} {P : ι → Prop} (h : ∀ a, P a → F a = G a) {A : Att ι γ} (hA : Asks P A) : play F A = play G A := by
  induction hA with
  | done b => rfl
  | @ask a c ha _ ih =>
    show play F (c (F a)) = play G (c (G a))
    rw [h a ha, ih]

include hr in
/-- C110: an attack that asks for at most `q` encryptions and decryptions of strings of `m` to 32 bytes, one after the other, tells the code from
independent uniform permutations of the strings of each length at most as well as `toFunctions A` tells the keyed functions of AEZ from uniform
functions, plus `q (q - 1) / 16 ^ m + q (q - 1) / (2 * 256 ^ m)`. -/
theorem c110_strings (junk : Nat → UInt8) {m : Nat} (hm : 1 ≤ m) {q : Nat} {A : Att Ask Bytes} (hA : AtMost q A) (hs : Asks (Short m) A) :
    |E (fun k : Block 48 => play (codeString R junk (toBytes k)) A) - ideal m A| ≤
      adv r (toFunctions A) + ((q : ℚ) * (q - 1) / 16 ^ m + (q : ℚ) * (q - 1) / (2 * 256 ^ m)) := by
  have e1 : ∀ k : Block 48, play (codeString R junk (toBytes k)) A = play (keyed r (toBytes k)) (toFunctions A) := by
    intro k
    rw [play_toFunctions]
    exact play_congr (fun a ha => codeString_eq hr junk (toBytes_len k) (le_trans hm ha.1) ha.2) hs
  have h2 := random_close hm hA hs
  simp only [e1]
  refine le_trans (abs_sub_le _ (E (fun ρ : Table => play (look ρ) (toFunctions A))) _) (add_le_add (le_refl _) ?_)
  simp only [play_toFunctions]
  exact h2

/-- C110: the attack on the functions asks at most 25 times as often. -/
theorem c110_questions {q : Nat} {A : Att Ask Bytes} (hA : AtMost q A) : AtMost (25 * q) (toFunctions A) := atMost_toFunctions hA

/-! ## Numbers of 32 and 64 bits -/

theorem E_component {ι : Type} [Fintype ι] [DecidableEq ι] {β : ι → Type} [∀ i, Fintype (β i)] [∀ i, DecidableEq (β i)] [∀ i, Nonempty (β i)]
    (i : ι) (F : β i → ℚ) : E (fun f : ∀ j, β j => F (f i)) = E F := by
  rw [← E_equiv (Equiv.piSplitAt i β).symm, E_prod]
  have : ∀ (a : β i) (b : ∀ j : { j // j ≠ i }, β j), ((Equiv.piSplitAt i β).symm (a, b)) i = a := by
    intro a b
    simp [Equiv.piSplitAt]
  simp only [this]
  congr 1
  funext a
  exact E_const _

/-- Numbers are strings. -/
def numbers (n : Nat) : Fin (256 ^ n) ≃ Block n where
  toFun x := ofBytes n (leBytes n x.1)
  invFun b := ⟨leNat (toBytes b), by have := leNat_lt (toBytes b); rwa [toBytes_len] at this⟩
  left_inv x := by
    apply Fin.ext
    show leNat (toBytes (ofBytes n (leBytes n x.1))) = x.1
    rw [toBytes_ofBytes (leBytes_length _ _), leNat_leBytes, Nat.mod_eq_of_lt x.2]
  right_inv b := by
    show ofBytes n (leBytes n (leNat (toBytes b))) = b
    have := leBytes_leNat (toBytes b)
    rw [toBytes_len] at this
    rw [this, ofBytes_toBytes]

theorem atMost_onStrings (n : Nat) {q : Nat} {A : Att (Bool × Nat) Nat} (hA : AtMost q A) : AtMost q (onStrings n A) := by
  induction hA with
  | done b => exact .done b
  | ask _ ih => exact .ask fun y => ih _

theorem asks_onStrings {n : Nat} (hn : n < 33) : ∀ A : Att (Bool × Nat) Nat, Asks (Short n) (onStrings n A)
  | .done b => .done b
  | .ask a c => .ask ⟨le_of_eq (leBytes_length _ _).symm, by rw [leBytes_length]; exact hn⟩ fun y => asks_onStrings hn (c _)

theorem play_onStrings {n : Nat} {F : Ask → Bytes} {G : Bool × Nat → Nat} (h : ∀ a, a.2 < 256 ^ n → G a = leNat (F (a.1, leBytes n a.2)))
    {A : Att (Bool × Nat) Nat} (hA : Asks (fun a => a.2 < 256 ^ n) A) : play F (onStrings n A) = play G A := by
  induction hA with
  | done b => rfl
  | @ask a c ha _ ih =>
    show play F (onStrings n (c (leNat (F _)))) = play G (c (G a))
    rw [ih, h a ha]

theorem ideal_numbers {n : Nat} (hn : n < 33) {A : Att (Bool × Nat) Nat} (hA : Asks (fun a => a.2 < 256 ^ n) A) :
    ideal n (onStrings n A) = E (fun π : Equiv.Perm (Fin (256 ^ n)) => play (permNum π) A) := by
  have e : ∀ π : (∀ i : Len n, Equiv.Perm (Block i.1.1)), play (permAnswer π) (onStrings n A) =
      play (permNum ((numbers n).symm.permCongr (π ⟨⟨n, hn⟩, le_refl n⟩))) A := by
    intro π
    refine play_onStrings (fun a ha => ?_) hA
    obtain ⟨d, x⟩ := a
    have hx : x < 256 ^ n := ha
    have hl : (leBytes n x).length = n := leBytes_length _ _
    have key : ∀ s : Bytes, s.length = n → permAnswer π (d, s) =
        toBytes (if d then (π ⟨⟨n, hn⟩, le_refl n⟩).symm (ofBytes n s) else π ⟨⟨n, hn⟩, le_refl n⟩ (ofBytes n s)) := by
      intro s hs
      subst hs
      unfold permAnswer
      rw [dif_pos ⟨le_refl _, hn⟩]
    rw [key _ hl]
    unfold permNum
    rw [dif_pos hx]
    cases d <;> rfl
  unfold ideal
  simp only [e]
  exact (E_component (β := fun i : Len n => Equiv.Perm (Block i.1.1)) ⟨⟨n, hn⟩, le_refl n⟩ (fun p => play (permNum ((numbers n).symm.permCongr p)) A)).trans
    (E_equiv ((numbers n).symm.permCongr) (fun p => play (permNum p) A))

include hr in
/-- C110 for `encrypt(uint32_t)` (`n` = 4) and `encrypt_64` (`n` = 8), in both directions. -/
theorem c110_numbers (junk : Nat → UInt8) {n : Nat} (hn : n = 4 ∨ n = 8) {q : Nat} {A : Att (Bool × Nat) Nat} (hA : AtMost q A)
    (hs : Asks (fun a => a.2 < 256 ^ n) A) :
    |E (fun k : Block 48 => play (codeInt R junk n (toBytes k)) A) - E (fun π : Equiv.Perm (Fin (256 ^ n)) => play (permNum π) A)| ≤
      adv r (toFunctions (onStrings n A)) + ((q : ℚ) * (q - 1) / 16 ^ n + (q : ℚ) * (q - 1) / (2 * 256 ^ n)) := by
  have hn' : n < 33 := by omega
  have h := c110_strings hr junk (m := n) (by omega) (atMost_onStrings n hA) (asks_onStrings hn' A)
  rw [ideal_numbers hn' hs] at h
  have e : ∀ k : Block 48, play (codeString R junk (toBytes k)) (onStrings n A) = play (codeInt R junk n (toBytes k)) A := by
    intro k
    refine play_onStrings (fun a _ => ?_) hs
    obtain ⟨c, e1, e2, e3⟩ := Aez.c70_string hr (toBytes_len k) junk (leBytes n a.2) (by rw [leBytes_length]; omega)
    obtain ⟨c', e1', e2', e3'⟩ := Aez.c70_integer hr (toBytes_len k) junk n a.2 hn
    obtain ⟨d, x⟩ := a
    unfold codeInt codeString
    rw [e1]
    rw [e1] at e1'
    injection e1' with ec
    subst ec
    cases d
    · simp only [e2, e2']
    · simp only [e3, e3']
  simp only [e] at h
  exact h

end

/-! ## Examples -/

/-- An attack that asks for two strings of eight bytes, the second in the other direction, and for one of nine bytes that depends on the answers. -/
def exAttack : Att Ask Bytes :=
  .ask (false, [1, 2, 3, 4, 5, 6, 7, 8]) fun y => .ask (true, [8, 7, 6, 5, 4, 3, 2, 1]) fun z =>
    .ask (false, [y.getD 0 0, z.getD 0 0, 0, 0, 0, 0, 0, 0, 0]) fun w => .done (w.getD 0 0 == y.getD 1 0)

theorem exAttack_atMost : AtMost 3 exAttack := .ask fun _ => .ask fun _ => .ask fun _ => .done _

theorem exAttack_asks : Asks (Short 8) exAttack :=
  .ask ⟨by decide, by decide⟩ fun _ => .ask ⟨by decide, by decide⟩ fun _ => .ask ⟨by simp, by simp⟩ fun _ => .done _

example : |E (fun k : Block 48 => play (codeString Aez.toyR (fun _ => 9) (toBytes k)) exAttack) - ideal 8 exAttack| ≤
    adv (Aez.roundNat Aez.toyR) (toFunctions exAttack) + (((3 : Nat) : ℚ) * ((3 : Nat) - 1) / 16 ^ 8 + ((3 : Nat) : ℚ) * ((3 : Nat) - 1) / (2 * 256 ^ 8)) :=
  c110_strings (Aez.roundNat_eq Aez.toyR) _ (by decide) exAttack_atMost exAttack_asks

example : AtMost 75 (toFunctions exAttack) := c110_questions exAttack_atMost

/-- An attack with strings of 32 bytes. -/
def exLong : Att Ask Bytes := .ask (false, List.replicate 32 1) fun y => .ask (true, List.replicate 32 2) fun z => .done (y == z)

example : |E (fun k : Block 48 => play (codeString Aez.toyR (fun _ => 9) (toBytes k)) exLong) - ideal 32 exLong| ≤
    adv (Aez.roundNat Aez.toyR) (toFunctions exLong) + (((2 : Nat) : ℚ) * ((2 : Nat) - 1) / 16 ^ 32 + ((2 : Nat) : ℚ) * ((2 : Nat) - 1) / (2 * 256 ^ 32)) :=
  c110_strings (Aez.roundNat_eq Aez.toyR) _ (by decide) (.ask fun _ => .ask fun _ => .done _)
    (.ask ⟨by decide, by decide⟩ fun _ => .ask ⟨by decide, by decide⟩ fun _ => .done _)

/-- An attack on `encrypt(uint32_t)` and `decrypt(uint32_t)`. -/
def exNumbers : Att (Bool × Nat) Nat := .ask (false, 77) fun y => .ask (true, 78) fun z => .done (y == z)

example : |E (fun k : Block 48 => play (codeInt Aez.toyR (fun _ => 9) 4 (toBytes k)) exNumbers) -
      E (fun π : Equiv.Perm (Fin (256 ^ 4)) => play (permNum π) exNumbers)| ≤
    adv (Aez.roundNat Aez.toyR) (toFunctions (onStrings 4 exNumbers)) +
      (((2 : Nat) : ℚ) * ((2 : Nat) - 1) / 16 ^ 4 + ((2 : Nat) : ℚ) * ((2 : Nat) - 1) / (2 * 256 ^ 4)) :=
  c110_numbers (Aez.roundNat_eq Aez.toyR) _ (Or.inl rfl) (.ask fun _ => .ask fun _ => .done _)
    (.ask (by show 77 < 256 ^ 4; norm_num) fun _ => .ask (by show 78 < 256 ^ 4; norm_num) fun _ => .done _)

end Verif.AezRandom
