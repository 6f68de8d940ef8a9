import Verif.Aez.LemmasAll

/-!
# C112: one attack that mixes short and long strings

C110 and C111 are about attacks that ask for strings of one kind; a `Prp` object gives both kinds, under one key.
-/

namespace Verif.AezAll

open Verif Verif.Avg Verif.Oracle Verif.AezRandom

/-! ## The answers that the attack on the keyed functions computes -/

/-- A question about a string of less than 32 bytes. -/
def tiny (a : Ask) : Bool := decide (a.2.length < 32)

theorem tiny_true {a : Ask} : tiny a = true ↔ a.2.length < 32 := decide_eq_true_iff

theorem tiny_false {a : Ask} : tiny a = false ↔ 32 ≤ a.2.length := by
  unfold tiny
  rw [decide_eq_false_iff_not, Nat.not_lt]

theorem play_toFunctions (T : Nat × Nat → Nat) : ∀ A : Att Ask Bytes,
    play T (toFunctions A) = play (both tiny (AezRandom.cipherT T) (AezWide.cipherT T)) A
  | .done _ => rfl
  | .ask a c => by
    unfold toFunctions
    rw [play]
    by_cases h : a.2.length < 32
    · rw [if_pos h, AezRandom.play_cipher, play_toFunctions T, both, if_pos (tiny_true.2 h)]
    · rw [if_neg h, AezWide.play_before, play_toFunctions T]
      have e : both tiny (AezRandom.cipherT T) (AezWide.cipherT T) a = AezWide.cipherT T a := if_neg (by rw [tiny_true]; exact h)
      rw [e]
      congr 2
      unfold AezWide.cipherT
      cases a.1
      · simp only [Bool.false_eq_true, if_false, AezWide.run_core]
      · simp only [if_true, AezWide.run_core]

theorem atMost_toFunctions {m ℓ q : Nat} {A : Att Ask Bytes} (hA : AtMost q A) (hs : Asks (Good m ℓ) A) : AtMost (q * (5 * ℓ + 25)) (toFunctions A) := by
  induction hA with
  | done b => exact .done b
  | @ask q a c _ ih =>
    cases hs with
    | ask ha hs =>
      have hp : 5 * AezSpec.pairs a.2 + 10 ≤ 5 * ℓ + 25 := by
        unfold AezSpec.pairs
        have := ha.2
        omega
      unfold toFunctions
      rw [Nat.add_mul, Nat.one_mul]
      by_cases h : a.2.length < 32
      · rw [if_pos h]
        exact (AezRandom.atMost_cipher fun y => ih y (hs y)).mono (by omega)
      · rw [if_neg h]
        refine AezWide.atMost_before ?_ fun y => ih y (hs y)
        split
        · exact (AezWide.few_core _ _ _).mono hp
        · exact (AezWide.few_core _ _ _).mono hp

/-- Short strings ask for three functions only. -/
theorem tiny_congr {T T' : Nat × Nat → Nat} (h : ∀ t x, small t = true → T' (t, x) = T (t, x)) {a : Ask} (ha : a.2.length < 32) :
    AezRandom.cipherT T' a = AezRandom.cipherT T a := by
  have hround : roundT T' a.2.length = roundT T a.2.length := by
    funext p j
    unfold roundT point tw
    rw [if_neg (by omega)]
    split
    · rw [h 7 _ rfl]
    · rw [h 6 _ rfl]
  have hbit : ∀ x, bitT T' a.2.length x = bitT T a.2.length x := fun x => by
    unfold bitT
    rw [h 3 _ rfl]
  have hn : ¬ a.2.length = 32 := by omega
  unfold AezRandom.cipherT encT decT
  rw [if_neg hn, if_neg hn]
  simp only [hround, hbit]

/-- Long strings ask for the others. -/
theorem core_congr {T T' : Nat × Nat → Nat} (h : ∀ t x, small t = false → T' (t, x) = T (t, x)) {a b : Nat} (hab : a = 1 ∧ b = 2 ∨ a = 2 ∧ b = 1) (M : Bytes) :
    AezWide.coreT T' a b M = AezWide.coreT T a b M := by
  have h' : ∀ t x, t ≠ 3 ∧ t ≠ 6 ∧ t ≠ 7 → T' (t, x) = T (t, x) := fun t x ht => h t x (by simp [small, ht])
  have e1 : AezWide.wT T' M = AezWide.wT T M := by
    funext i; unfold AezWide.wT; rw [h' _ _ (by omega)]
  have e2 : AezWide.xT T' M = AezWide.xT T M := by
    funext i; unfold AezWide.xT; rw [e1, h' _ _ (by omega)]
  have e3 : AezWide.uvT T' = AezWide.uvT T := by
    funext n u v; unfold AezWide.uvT; rw [h' 4 _ (by omega), h' 4 _ (by omega), h' 5 _ (by omega)]
  have e4 : AezWide.sxT T' a M = AezWide.sxT T a M := by
    unfold AezWide.sxT; rw [e2, e3, h' a _ (by omega)]
  have e5 : AezWide.syT T' a M = AezWide.syT T a M := by
    unfold AezWide.syT; rw [e4, h' _ _ (by omega)]
  have e6 : AezWide.sT T' a M = AezWide.sT T a M := by
    unfold AezWide.sT; rw [e4, e5]
  have e7 : AezWide.yT T' a M = AezWide.yT T a M := by
    funext i; unfold AezWide.yT; rw [e1, e6, h' _ _ (by omega)]
  have e8 : AezWide.zT T' a M = AezWide.zT T a M := by
    funext i; unfold AezWide.zT; rw [e2, e6, h' _ _ (by omega)]
  have e9 : AezWide.c1T T' a M = AezWide.c1T T a M := by
    funext i; unfold AezWide.c1T; rw [e7, e8, h' _ _ (by omega)]
  have e10 : AezWide.c0T T' a M = AezWide.c0T T a M := by
    funext i; unfold AezWide.c0T; rw [e8, e9, h' _ _ (by omega)]
  have e11 : AezWide.cuT T' a M = AezWide.cuT T a M := by
    unfold AezWide.cuT; rw [e6, h' _ _ (by omega)]
  have e12 : AezWide.cvT T' a M = AezWide.cvT T a M := by
    unfold AezWide.cvT; rw [e6, h' _ _ (by omega)]
  have e13 : AezWide.cyT T' a b M = AezWide.cyT T a b M := by
    unfold AezWide.cyT; rw [e4, e5, h' _ _ (by omega)]
  have e14 : AezWide.cxT T' a b M = AezWide.cxT T a b M := by
    unfold AezWide.cxT; rw [e5, e7, e3, e11, e12, e13, h' b _ (by omega)]
  unfold AezWide.coreT
  rw [e9, e10, e11, e12, e13, e14]

theorem long_congr {T T' : Nat × Nat → Nat} (h : ∀ t x, small t = false → T' (t, x) = T (t, x)) (a : Ask) : AezWide.cipherT T' a = AezWide.cipherT T a := by
  unfold AezWide.cipherT
  rw [core_congr h (.inr ⟨rfl, rfl⟩), core_congr h (.inl ⟨rfl, rfl⟩)]

/-! ## One table is as good as two -/

section
variable {ℓ : Nat}

/-- The first twelve functions of a table. -/
def first (S : AezWide.Table ℓ) : AezRandom.Table := fun a => S (Fin.castLE (by omega) a.1, a.2)

theorem E_first (F : AezRandom.Table → ℚ) : E (fun S : AezWide.Table ℓ => F (first S)) = E F := by
  refine AezWide.E_proj (c := fun a : Fin 12 × Fin (2 ^ 128) => ((Fin.castLE (by omega) a.1, a.2) : Fin (2 * ℓ + 18) × Fin (2 ^ 128))) ?_ F
  intro a b e
  have e1 := congrArg Prod.fst e
  have e2 := congrArg Prod.snd e
  exact Prod.ext (Fin.castLE_injective (by omega) e1) e2

theorem look_first (S R : AezWide.Table ℓ) {t : Nat} (x : Nat) (ht : small t = true) :
    AezWide.look (merge (fun i => small i.1.1) S R) (t, x) = AezRandom.look (first S) (t, x) := by
  have h12 : t < 12 := by
    simp only [small, Bool.or_eq_true, beq_iff_eq] at ht
    omega
  have e1 : t % (2 * ℓ + 18) = t := Nat.mod_eq_of_lt (by omega)
  have e2 : t % 12 = t := Nat.mod_eq_of_lt h12
  unfold AezWide.look AezRandom.look first merge
  simp only [e1, ht, if_true]
  simp only [Fin.castLE, e2]

theorem look_rest (S R : AezWide.Table ℓ) {t : Nat} (x : Nat) (ht : AezWide.Used ℓ t) :
    AezWide.look (merge (fun i => small i.1.1) S R) (t, x) = AezWide.look R (t, x) := by
  have hs : small t = false := by
    have : t ≠ 3 ∧ t ≠ 6 ∧ t ≠ 7 := by
      rcases ht with h | h | h | h | h | h | h | h | h | ⟨i, h1, h2, h | h⟩ <;> omega
    simp [small, this]
  have hl : t < 2 * ℓ + 18 := by
    rcases ht with h | h | h | h | h | h | h | h | h | ⟨i, h1, h2, h | h⟩ <;> omega
  have e1 : t % (2 * ℓ + 18) = t := Nat.mod_eq_of_lt hl
  unfold AezWide.look merge
  simp only [e1, hs, Bool.false_eq_true, if_false]

theorem tables {m : Nat} {A : Att Ask Bytes} (hs : Asks (Good m ℓ) A) :
    E (fun ρ : AezWide.Table ℓ => play (both tiny (AezRandom.cipherT (AezWide.look ρ)) (AezWide.cipherT (AezWide.look ρ))) A) =
      E (fun σ : AezRandom.Table => E (fun ρ : AezWide.Table ℓ =>
        play (both tiny (AezRandom.cipherT (AezRandom.look σ)) (AezWide.cipherT (AezWide.look ρ))) A)) := by
  rw [E_merge (fun i => small i.1.1), ← E_first (ℓ := ℓ) (fun σ => E (fun ρ : AezWide.Table ℓ =>
        play (both tiny (AezRandom.cipherT (AezRandom.look σ)) (AezWide.cipherT (AezWide.look ρ))) A))]
  congr 1
  funext S
  congr 1
  funext R
  refine AezRandom.play_congr (fun a ha => ?_) hs
  unfold both
  by_cases h : tiny a = true
  · rw [if_pos h, if_pos h]
    exact tiny_congr (fun t x ht => look_first S R x ht) (tiny_true.1 h)
  · rw [if_neg h, if_neg h]
    have h32 : 32 ≤ a.2.length := tiny_false.1 (by simpa using h)
    unfold AezWide.cipherT
    rw [AezWide.coreT_congr (ℓ := ℓ) (AezWide.look_lt R) (fun t x ht _ => look_rest S R x ht) (.inr ⟨rfl, rfl⟩) h32 ha.2,
      AezWide.coreT_congr (ℓ := ℓ) (AezWide.look_lt R) (fun t x ht _ => look_rest S R x ht) (.inl ⟨rfl, rfl⟩) h32 ha.2]

end

/-! ## One family of permutations is as good as two -/

section
variable {m ℓ : Nat}

/-- Lengths of less than 32 bytes. -/
abbrev Tiny (m : Nat) := { n : AezRandom.Len m // n.1.1 < 32 }

/-- The answers for those lengths. -/
def tinyAnswer (π : ∀ n : Tiny m, Equiv.Perm (Block n.1.1.1)) (a : Ask) : Bytes :=
  if h : m ≤ a.2.length ∧ a.2.length < 32 then
    let p := π ⟨⟨⟨a.2.length, by omega⟩, h.1⟩, h.2⟩
    toBytes (if a.1 then p.symm (ofBytes _ a.2) else p (ofBytes _ a.2))
  else []

theorem tinyAnswer_short (π : ∀ n : AezRandom.Len m, Equiv.Perm (Block n.1.1)) {a : Ask} (h1 : m ≤ a.2.length) (h2 : a.2.length < 32) :
    AezRandom.permAnswer π a = tinyAnswer (fun n => π n.1) a := by
  unfold AezRandom.permAnswer tinyAnswer
  rw [dif_pos ⟨h1, by omega⟩, dif_pos ⟨h1, h2⟩]

/-- The place of a short length among all. -/
abbrev ofTiny (n : Tiny m) : Len m ℓ := ⟨⟨n.1.1.1, by have := n.2; omega⟩, n.1.2⟩

/-- The place of a long length among all. -/
abbrev ofLong (hm : m ≤ 32) (n : AezWide.Len ℓ) : Len m ℓ := ⟨n.1, le_trans hm n.2⟩

theorem ofTiny_inj : Function.Injective (ofTiny (m := m) (ℓ := ℓ)) := by
  intro n n' e
  have : n.1.1.1 = n'.1.1.1 := congrArg (fun x : Len m ℓ => x.1.1) e
  exact Subtype.ext (Subtype.ext (Fin.ext this))

theorem ofLong_inj (hm : m ≤ 32) : Function.Injective (ofLong (ℓ := ℓ) hm) := by
  intro n n' e
  have : n.1.1 = n'.1.1 := congrArg (fun x : Len m ℓ => x.1.1) e
  exact Subtype.ext (Fin.ext this)

theorem of_ne (hm : m ≤ 32) (n : Tiny m) (n' : AezWide.Len ℓ) : ofTiny n ≠ ofLong hm n' := by
  intro e
  have : n.1.1.1 = n'.1.1 := congrArg (fun x : Len m ℓ => x.1.1) e
  have h1 := n.2
  have h2 := n'.2
  omega

theorem split_answer (hm : m ≤ 32) (π : ∀ n : Len m ℓ, Equiv.Perm (Block n.1.1)) {a : Ask} (ha : Good m ℓ a) :
    permAnswer π a = both tiny (tinyAnswer fun n => π (ofTiny n)) (AezWide.permAnswer fun n => π (ofLong hm n)) a := by
  unfold both permAnswer
  rw [dif_pos (show m ≤ a.2.length ∧ a.2.length < 32 * ℓ + 64 from ha)]
  by_cases h : tiny a = true
  · rw [if_pos h]
    unfold tinyAnswer
    rw [dif_pos ⟨ha.1, tiny_true.1 h⟩]
  · rw [if_neg h]
    unfold AezWide.permAnswer
    rw [dif_pos ⟨tiny_false.1 (by simpa using h), ha.2⟩]

theorem ideal_split (hm : m ≤ 32) {A : Att Ask Bytes} (hs : Asks (Good m ℓ) A) :
    ideal m ℓ A = E (fun σ : ∀ n : Tiny m, Equiv.Perm (Block n.1.1.1) => E (fun π : ∀ n : AezWide.Len ℓ, Equiv.Perm (Block n.1.1) =>
      play (both tiny (tinyAnswer σ) (AezWide.permAnswer π)) A)) := by
  refine Eq.trans ?_ (E_two (β := fun n : Len m ℓ => Equiv.Perm (Block n.1.1)) (ofTiny_inj (m := m) (ℓ := ℓ)) (ofLong_inj hm) (of_ne hm)
    (fun σ π => play (both tiny (tinyAnswer σ) (AezWide.permAnswer π)) A))
  unfold ideal
  congr 1
  funext π
  exact AezRandom.play_congr (fun a ha => split_answer hm π ha) hs

theorem ideal_tiny {A : Att Ask Bytes} (hs : Asks (fun a => m ≤ a.2.length ∧ a.2.length < 32) A) :
    AezRandom.ideal m A = E (fun σ : ∀ n : Tiny m, Equiv.Perm (Block n.1.1.1) => play (tinyAnswer σ) A) := by
  rw [← E_comps (β := fun n : AezRandom.Len m => Equiv.Perm (Block n.1.1)) (c := fun n : Tiny m => n.1) Subtype.val_injective
    (fun σ => play (tinyAnswer σ) A)]
  unfold AezRandom.ideal
  congr 1
  funext π
  exact AezRandom.play_congr (fun a ha => tinyAnswer_short π ha.1 ha.2) hs

/-- What is lost for short strings and for long strings. -/
theorem random_close (hm : 1 ≤ m) (hm' : m ≤ 32) {q : Nat} {A : Att Ask Bytes} (hA : AtMost q A) (hs : Asks (Good m ℓ) A) :
    |E (fun ρ : AezWide.Table ℓ => play (AezWide.look ρ) (toFunctions A)) - ideal m ℓ A| ≤
      ((q : ℚ) * (q - 1) / 16 ^ m + (q : ℚ) * (q - 1) / (2 * 256 ^ m)) +
        (Wide.loss ℓ (2 ^ 128) q + ((ℓ : ℚ) * q ^ 2 + q * (q - 1) / 2) / 2 ^ 128 + (q : ℚ) * (q - 1) / (2 * 256 ^ 32)) := by
  simp only [play_toFunctions]
  rw [tables hs, ideal_split hm' hs]
  refine both_close tiny (fun σ : AezRandom.Table => AezRandom.cipherT (AezRandom.look σ)) (fun ρ : AezWide.Table ℓ => AezWide.cipherT (AezWide.look ρ))
    (fun σ : (∀ n : Tiny m, Equiv.Perm (Block n.1.1.1)) => tinyAnswer σ)
    (fun π : (∀ n : AezWide.Len ℓ, Equiv.Perm (Block n.1.1)) => AezWide.permAnswer π) (P := Good m ℓ) ?_ ?_ hA hs
  · intro B hB hB'
    have h1 : Asks (fun a : Ask => m ≤ a.2.length ∧ a.2.length < 32) B := asks_mono (fun a ha => ⟨ha.1.1, tiny_true.1 ha.2⟩) hB'
    rw [← ideal_tiny h1]
    exact AezRandom.random_close hm hB (asks_mono (fun a ha => ⟨ha.1, by have := ha.2; omega⟩) h1)
  · intro B hB hB'
    exact AezWide.random_close hB (asks_mono (fun a ha => ⟨tiny_false.1 ha.2, ha.1.2⟩) hB')

end

/-! ## The code -/

section
variable {R : Aez.Block → Aez.Block} {r : Nat → Nat} (hr : ∀ b, Aez.Spec.val (R b) = r (Aez.Spec.val b))

theorem keyed_small (r : Nat → Nat) (k : Bytes) (t x : Nat) (h : small t = true) : keyed r k (t, x) = AezRandom.keyed r k (t, x) := by
  have ht : ¬ t < 3 ∧ t < 8 := by
    simp only [small, Bool.or_eq_true, beq_iff_eq] at h
    omega
  unfold keyed AezRandom.keyed
  rw [if_pos h, if_neg ht.1, if_pos ht.2]

theorem keyed_rest (r : Nat → Nat) (k : Bytes) (t x : Nat) (h : small t = false) : keyed r k (t, x) = AezWide.keyed r k (t, x) := by
  unfold keyed
  rw [if_neg (by rw [h]; decide)]

include hr in
theorem codeString_eq (junk : Nat → UInt8) {k : Bytes} (hk : k.length = 48) {a : Ask} (h1 : 1 ≤ a.2.length) (h : a.2.length ≤ 4294967295) :
    codeString R junk k a = both tiny (AezRandom.cipherT (keyed r k)) (AezWide.cipherT (keyed r k)) a := by
  unfold both
  by_cases ht : tiny a = true
  · have hl := tiny_true.1 ht
    rw [if_pos ht, tiny_congr (keyed_small r k) hl]
    exact AezRandom.codeString_eq hr junk hk h1 (by omega)
  · rw [if_neg ht, long_congr (keyed_rest r k)]
    exact AezWide.codeString_eq hr junk hk (tiny_false.1 (by simpa using ht)) h

include hr in
/-- C112: an attack that asks for at most `q` encryptions and decryptions of strings of `m` to 32 `ℓ` + 63 bytes, one after the other, tells the code from
independent uniform permutations of the strings of each length at most as well as `toFunctions A` tells the keyed functions of AEZ from uniform
functions, plus what C110 and C111 lose. -/
theorem c112_strings (junk : Nat → UInt8) {m ℓ : Nat} (hm : 1 ≤ m) (hm' : m ≤ 32) (hℓ : 32 * ℓ + 63 ≤ 4294967295) {q : Nat} {A : Att Ask Bytes}
    (hA : AtMost q A) (hs : Asks (Good m ℓ) A) :
    |E (fun k : Block 48 => play (codeString R junk (toBytes k)) A) - ideal m ℓ A| ≤
      adv ℓ r (toFunctions A) + ((q : ℚ) * (q - 1) / 16 ^ m + (q : ℚ) * (q - 1) / (2 * 256 ^ m)) +
        (((q : ℚ) * ℓ * (2 * (q * ℓ) - 1) + ℓ * q ^ 2 + 2 * (q * (q - 1))) / 2 ^ 128 + (q : ℚ) * (q - 1) / (2 * 256 ^ 32)) := by
  have e1 : ∀ k : Block 48, play (codeString R junk (toBytes k)) A = play (keyed r (toBytes k)) (toFunctions A) := by
    intro k
    rw [play_toFunctions]
    exact AezRandom.play_congr (fun a ha => codeString_eq hr junk (toBytes_len k) (le_trans hm ha.1) (by have := ha.2; omega)) hs
  have h2 := random_close hm hm' hA hs
  simp only [e1]
  rw [add_assoc]
  refine le_trans (abs_sub_le _ (E (fun ρ : AezWide.Table ℓ => play (AezWide.look ρ) (toFunctions A))) _) (add_le_add (le_refl _) ?_)
  refine le_trans h2 (add_le_add (le_refl _) (le_of_eq ?_))
  unfold Wide.loss
  generalize (2 : ℚ) ^ 128 = N
  generalize (256 : ℚ) ^ 32 = N'
  ring

/-- C112: the attack on the functions asks at most 5 `ℓ` + 25 times as often. -/
theorem c112_questions {m ℓ q : Nat} {A : Att Ask Bytes} (hA : AtMost q A) (hs : Asks (Good m ℓ) A) : AtMost (q * (5 * ℓ + 25)) (toFunctions A) :=
  atMost_toFunctions hA hs

end

/-! ## Examples -/

/-- An attack that asks for a string of 100 bytes, for the decryption of one of 12 bytes that depends on the answer, and for a string of 32 bytes. -/
def exAsk : Att Ask Bytes :=
  .ask (false, List.replicate 100 1) fun y => .ask (true, (y.drop 90 ++ List.replicate 12 2).take 12) fun z =>
    .ask (false, (z.take 8 ++ List.replicate 32 0).take 32) fun w => .done (w.take 1 == y.take 1)

theorem exAsk_atMost : AtMost 3 exAsk := .ask fun _ => .ask fun _ => .ask fun _ => .done _

theorem exAsk_asks : Asks (Good 12 2) exAsk :=
  .ask ⟨by simp, by simp⟩ fun _ => .ask ⟨by simp, by simp⟩ fun _ => .ask ⟨by simp, by simp⟩ fun _ => .done _

example : |E (fun k : Block 48 => play (codeString Aez.toyR (fun _ => 9) (toBytes k)) exAsk) - ideal 12 2 exAsk| ≤
    adv 2 (Aez.roundNat Aez.toyR) (toFunctions exAsk) +
      (((3 : Nat) : ℚ) * ((3 : Nat) - 1) / 16 ^ 12 + ((3 : Nat) : ℚ) * ((3 : Nat) - 1) / (2 * 256 ^ 12)) +
      ((((3 : Nat) : ℚ) * (2 : Nat) * (2 * ((3 : Nat) * (2 : Nat)) - 1) + (2 : Nat) * (3 : Nat) ^ 2 + 2 * ((3 : Nat) * ((3 : Nat) - 1))) / 2 ^ 128 +
        ((3 : Nat) : ℚ) * ((3 : Nat) - 1) / (2 * 256 ^ 32)) :=
  c112_strings (Aez.roundNat_eq Aez.toyR) _ (by decide) (by decide) (by decide) exAsk_atMost exAsk_asks

example : AtMost 105 (toFunctions exAsk) := c112_questions exAsk_atMost exAsk_asks

end Verif.AezAll
