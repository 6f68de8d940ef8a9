import Verif.Aez.LemmasMasked
import Verif.Aez.PropsExchange

/-!
# C113, the positive part: strings with at most 1000 pairs

The assumption of C112 about the many keyed functions of AEZ follows from one about three AES functions, as long as all offsets differ.
-/

namespace Verif.AezMask

open Verif Verif.Avg Verif.Oracle Verif.AezRandom

/-! ## The keyed functions come from three -/

theorem key_shape (r : Nat → Nat) (k : AezSpec.Key) : hash (aes r k) k = AezSpec.delta r k := by
  unfold hash AezSpec.delta AezSpec.EH aes
  simp only [if_true, AezSpec.aesRounds, List.foldl_cons, List.foldl_nil, Nat.xor_zero, Nat.zero_xor]

/-- The keyed functions of AEZ have the shape of the specification. -/
theorem keyed_shape (r : Nat → Nat) (k : Bytes) (a : Nat × Nat) : AezAll.keyed r k a = shape (aes r (AezSpec.key k)) (AezSpec.key k) a := by
  obtain ⟨t, x⟩ := a
  unfold AezAll.keyed shape
  rw [key_shape]
  dsimp only
  by_cases hs : AezAll.small t = true
  · have ht : t = 3 ∨ t = 6 ∨ t = 7 := by
      simp only [AezAll.small, Bool.or_eq_true, beq_iff_eq] at hs
      omega
    rw [if_pos hs, if_pos hs, if_neg (by omega), Nat.zero_xor]
    have h8 : t < 8 := by omega
    unfold which offset
    rw [if_pos h8, if_pos h8]
    rfl
  · rw [if_neg hs, if_neg hs, Nat.zero_xor]
    unfold AezWide.keyed
    dsimp only
    by_cases h1 : t = 1 ∨ t = 2
    · rw [if_pos h1, if_pos h1]
      have h8 : t < 8 := by omega
      unfold which offset
      rw [if_pos h8, if_pos h8]
      rfl
    · rw [if_neg h1, if_neg h1, Nat.zero_xor]
      unfold which offset
      by_cases h2 : t < 8
      · rw [if_pos h2, if_pos h2, if_pos h2]
        rfl
      · rw [if_neg h2, if_neg h2, if_neg h2]
        by_cases h3 : t < 16
        · rw [if_pos h3, if_pos h3, if_pos h3]
          rfl
        · rw [if_neg h3, if_neg h3, if_neg h3]
          by_cases h4 : t % 2 = 0
          · rw [if_pos h4, if_pos h4]
            rfl
          · rw [if_neg h4, if_neg h4]
            rfl

/-! ## Finitely many questions -/

section
variable {ℓ : Nat}

/-- The functions that AEZ asks for. -/
def Ok (ℓ t : Nat) : Prop := AezAll.small t = true ∨ AezWide.Used ℓ t

theorem ok_lt {t : Nat} (h : Ok ℓ t) : t < 2 * ℓ + 18 := by
  rcases h with h | h | h | h | h | h | h | h | h | h | ⟨i, h1, h2, h | h⟩
  · simp only [AezAll.small, Bool.or_eq_true, beq_iff_eq] at h
    omega
  all_goals omega

theorem ok_span (hℓ : ℓ ≤ 1000) {t : Nat} (h : Ok ℓ t) : Span t := by
  unfold Span
  rcases h with h | h | h | h | h | h | h | h | h | h | ⟨i, h1, h2, h | h⟩
  · simp only [AezAll.small, Bool.or_eq_true, beq_iff_eq] at h
    omega
  all_goals omega

/-- The questions. -/
abbrev Qu (ℓ : Nat) := { t : Fin (2 * ℓ + 18) // Ok ℓ t.1 } × B

instance : Inhabited { t : Fin (2 * ℓ + 18) // Ok ℓ t.1 } := ⟨⟨⟨0, by omega⟩, .inr (.inl rfl)⟩⟩

noncomputable instance : Fintype { t : Fin (2 * ℓ + 18) // Ok ℓ t.1 } := Fintype.ofFinite _

open scoped Classical in
/-- A question as one of these. -/
noncomputable def clip (a : Nat × Nat) : Qu ℓ := (if h : Ok ℓ a.1 then ⟨⟨a.1, ok_lt h⟩, h⟩ else default, block a.2)

/-- The attack with these questions. -/
noncomputable def conv : Att (Nat × Nat) Nat → Att (Qu ℓ) B
  | .done b => .done b
  | .ask a c => .ask (clip a) fun y => conv (c y.1)

theorem play_conv (F : Qu ℓ → B) : ∀ A : Att (Nat × Nat) Nat, play (fun a => (F (clip a)).1) A = play F (conv A)
  | .done _ => rfl
  | .ask a c => by
    unfold conv
    rw [play, play]
    exact play_conv F _

theorem atMost_conv {q : Nat} {A : Att (Nat × Nat) Nat} (hA : AtMost q A) : AtMost q (conv (ℓ := ℓ) A) := by
  induction hA with
  | done b => exact .done b
  | ask _ ih => exact .ask fun y => ih y.1

/-- Functions on numbers as functions on blocks. -/
def onBlocks (T : Nat × Nat → Nat) (a : Qu ℓ) : B := block (T (a.1.1.1, a.2.1))

theorem clip_eq {T : Nat × Nat → Nat} (hT : ∀ a, T a < 2 ^ 128) (hm : ∀ t x, T (t, x % 2 ^ 128) = T (t, x)) {t : Nat} (x : Nat) (ht : Ok ℓ t) :
    (onBlocks (ℓ := ℓ) T (clip (t, x))).1 = T (t, x) := by
  unfold clip
  rw [dif_pos ht]
  show T (t, x % 2 ^ 128) % 2 ^ 128 = T (t, x)
  rw [hm, Nat.mod_eq_of_lt (hT _)]

theorem play_clip {T : Nat × Nat → Nat} (hT : ∀ a, T a < 2 ^ 128) (hm : ∀ t x, T (t, x % 2 ^ 128) = T (t, x)) {m : Nat} {A : Att Ask Bytes}
    (hs : Asks (AezAll.Good m ℓ) A) : play T (AezAll.toFunctions A) = play (onBlocks T) (conv (ℓ := ℓ) (AezAll.toFunctions A)) := by
  rw [← play_conv, AezAll.play_toFunctions, AezAll.play_toFunctions]
  refine AezRandom.play_congr (fun a ha => ?_) hs
  unfold AezAll.both
  by_cases h : AezAll.tiny a = true
  · rw [if_pos h, if_pos h]
    exact AezAll.tiny_congr (fun t x ht => (clip_eq hT hm x (.inl ht)).symm) (AezAll.tiny_true.1 h)
  · rw [if_neg h, if_neg h]
    have h32 : 32 ≤ a.2.length := AezAll.tiny_false.1 (by simpa using h)
    have hT' : ∀ a, (fun a => (onBlocks (ℓ := ℓ) T (clip a)).1) a < 2 ^ 128 := fun a => (onBlocks (ℓ := ℓ) T (clip a)).2
    unfold AezWide.cipherT
    rw [AezWide.coreT_congr (ℓ := ℓ) hT' (fun t x ht _ => (clip_eq hT hm x (.inr ht)).symm) (.inr ⟨rfl, rfl⟩) h32 ha.2,
      AezWide.coreT_congr (ℓ := ℓ) hT' (fun t x ht _ => (clip_eq hT hm x (.inr ht)).symm) (.inl ⟨rfl, rfl⟩) h32 ha.2]

theorem look_mod (ρ : AezWide.Table ℓ) (t x : Nat) : AezWide.look ρ (t, x % 2 ^ 128) = AezWide.look ρ (t, x) := by
  unfold AezWide.look
  simp only [Nat.mod_mod]

theorem hash_lt (f : Three) (κ : Fin 3 → B) : hash (at3 f) (masks κ) < 2 ^ 128 := by
  rw [hash_eq]
  exact Nat.xor_lt_two_pow (Nat.xor_lt_two_pow (Nat.xor_lt_two_pow (at3_lt _ _ _) (offH_lt _ _)) (Nat.xor_lt_two_pow (at3_lt _ _ _) (offH_lt _ _)))
    (Nat.xor_lt_two_pow (at3_lt _ _ _) (offH_lt _ _))

theorem shape_lt (f : Three) (κ : Fin 3 → B) (a : Nat × Nat) : shape (at3 f) (masks κ) a < 2 ^ 128 := by
  unfold shape
  refine Nat.xor_lt_two_pow ?_ (at3_lt _ _ _)
  split
  · exact hash_lt f κ
  · exact Nat.two_pow_pos 128

theorem shape_mod (f : Three) (κ : Fin 3 → B) (t x : Nat) : shape (at3 f) (masks κ) (t, x % 2 ^ 128) = shape (at3 f) (masks κ) (t, x) := by
  unfold shape at3
  have : ∀ a b : Nat, block (a ^^^ x % 2 ^ 128 ^^^ b) = block (a ^^^ x ^^^ b) := by
    intro a b
    apply Fin.ext
    show (a ^^^ x % 2 ^ 128 ^^^ b) % 2 ^ 128 = (a ^^^ x ^^^ b) % 2 ^ 128
    rw [Nat.xor_mod_two_pow, Nat.xor_mod_two_pow (a := a), Nat.mod_mod, ← Nat.xor_mod_two_pow, ← Nat.xor_mod_two_pow]
  simp only [this]

/-! ## Three functions are as good as many -/

theorem table_clip {m : Nat} {A : Att Ask Bytes} (hs : Asks (AezAll.Good m ℓ) A) :
    E (fun ρ : AezWide.Table ℓ => play (AezWide.look ρ) (AezAll.toFunctions A)) =
      E (fun ρ : Qu ℓ → B => play ρ (conv (ℓ := ℓ) (AezAll.toFunctions A))) := by
  classical
  have hinj : Function.Injective (fun a : Qu ℓ => ((a.1.1, a.2) : Fin (2 * ℓ + 18) × Fin (2 ^ 128))) := by
    intro a b e
    have e' : (a.1.1, a.2) = (b.1.1, b.2) := e
    obtain ⟨e1, e2⟩ := Prod.mk.inj e'
    exact Prod.ext (Subtype.ext e1) e2
  rw [← AezWide.E_proj hinj (fun ρ : Qu ℓ → B => play ρ (conv (ℓ := ℓ) (AezAll.toFunctions A)))]
  congr 1
  funext ρ
  rw [play_clip (AezWide.look_lt ρ) (look_mod ρ) hs]
  congr 1
  funext a
  apply Fin.ext
  show AezWide.look ρ (a.1.1.1, a.2.1) % 2 ^ 128 = _
  rw [Nat.mod_eq_of_lt (AezWide.look_lt ρ _)]
  unfold AezWide.look
  simp only [Nat.mod_eq_of_lt a.1.1.2, Nat.mod_eq_of_lt a.2.2]

theorem masked_close (hℓ : ℓ ≤ 1000) {m q : Nat} {A : Att Ask Bytes} (hA : AtMost q A) (hs : Asks (AezAll.Good m ℓ) A) {s : Nat} (hq : s = q * (5 * ℓ + 25)) :
    |E (fun κ : Fin 3 → B => E (fun f : Three => play (shape (at3 f) (masks κ)) (AezAll.toFunctions A))) -
      E (fun ρ : AezWide.Table ℓ => play (AezWide.look ρ) (AezAll.toFunctions A))| ≤ (3 + 3 * s + (s : ℚ) * (s - 1) / 2) / 2 ^ 128 := by
  classical
  have e1 : E (fun κ : Fin 3 → B => E (fun f : Three => play (shape (at3 f) (masks κ)) (AezAll.toFunctions A))) =
      E (fun p : Om × Three => play (onBlocks (shape (at3 (over p.1 p.2)) (masks p.1.1))) (conv (ℓ := ℓ) (AezAll.toFunctions A))) := by
    rw [E_prod, E_prod]
    refine congrArg E (funext fun κ => ?_)
    refine Eq.trans (E_over κ (fun f => play (shape (at3 f) (masks κ)) (AezAll.toFunctions A))).symm ?_
    refine congrArg E (funext fun h => ?_)
    refine congrArg E (funext fun f => ?_)
    exact play_clip (shape_lt _ _) (shape_mod _ _) hs
  rw [e1, table_clip hs]
  have key := Masked.close (Ω := Om) (κ := Fin 3 × B) (ι := Qu ℓ) (X := B)
    (F := fun p : Om × Three => onBlocks (shape (at3 (over p.1 p.2)) (masks p.1.1)))
    (pt := fun ω a => pt ω a.1.1.1 a.2.1) (post := fun ω a => plus (if a.1.1.1 = 1 ∨ a.1.1.1 = 2 then D ω else 0)) (bad := bad)
    (out := fun ω a => out ω a.1.1.1 a.2.1) ?_ (β := 3 * c1) (δ := 3 * c1) (c := c1) (by unfold c1; positivity) (by unfold c1; positivity) (by unfold c1; positivity)
    ?_ (fun a => prob_out a.2.2) prob_bad (atMost_conv (ℓ := ℓ) (AezAll.atMost_toFunctions hA hs))
  · refine le_trans key (le_of_eq ?_)
    rw [hq]
    unfold c1
    push_cast
    generalize (2 : ℚ) ^ 128 = N
    ring
  · intro ω f a hb ho
    show block _ = block _
    rw [shape_over hb f ho]
  · intro a a' hne
    refine prob_meet (ok_span hℓ a.1.2) (ok_span hℓ a'.1.2) a.2.2 a'.2.2 ?_
    intro e
    exact hne (Prod.ext (Subtype.ext (Fin.ext (congrArg Prod.fst e))) (Fin.ext (congrArg Prod.snd e)))

end

/-! ## The code -/

section
variable {R : Aez.Block → Aez.Block} {r : Nat → Nat} (hr : ∀ b, Aez.Spec.val (R b) = r (Aez.Spec.val b))

include hr in
/-- C113 for strings of less than 32064 bytes: an attack that asks for at most `q` encryptions and decryptions of strings of `m` to 32 `ℓ` + 63 bytes,
`ℓ` ≤ 1000, tells the code from independent uniform permutations of the strings of each length at most as well as `toFunctions A` tells the three AES
functions behind offsets from three uniform functions behind offsets, plus what C112 loses, plus the probability that offsets make two questions meet. -/
theorem c113_strings_partial (junk : Nat → UInt8) {m ℓ : Nat} (hm : 1 ≤ m) (hm' : m ≤ 32) (hℓ : ℓ ≤ 1000) {q s : Nat} {A : Att Ask Bytes}
    (hA : AtMost q A) (hs : Asks (AezAll.Good m ℓ) A) (hq : s = q * (5 * ℓ + 25)) :
    |E (fun k : Block 48 => play (codeString R junk (toBytes k)) A) - AezAll.ideal m ℓ A| ≤
      adv r (AezAll.toFunctions A) + (3 + 3 * s + (s : ℚ) * (s - 1) / 2) / 2 ^ 128 +
        ((q : ℚ) * (q - 1) / 16 ^ m + (q : ℚ) * (q - 1) / (2 * 256 ^ m)) +
        (((q : ℚ) * ℓ * (2 * (q * ℓ) - 1) + ℓ * q ^ 2 + 2 * (q * (q - 1))) / 2 ^ 128 + (q : ℚ) * (q - 1) / (2 * 256 ^ 32)) := by
  have h1 := AezAll.c112_strings hr junk hm hm' (show 32 * ℓ + 63 ≤ 4294967295 by omega) hA hs
  have h2 := masked_close hℓ hA hs hq
  have h3 : AezAll.adv ℓ r (AezAll.toFunctions A) ≤ adv r (AezAll.toFunctions A) + (3 + 3 * s + (s : ℚ) * (s - 1) / 2) / 2 ^ 128 :=
    le_trans (abs_sub_le _ (E (fun κ : Fin 3 → B => E (fun f : Three => play (shape (at3 f) (masks κ)) (AezAll.toFunctions A)))) _) (add_le_add (le_refl _) h2)
  linarith

/-- C113: the functions that `adv` replaces by uniform ones are AES rounds, for every key. -/
theorem c113_shape (r : Nat → Nat) (k : Bytes) : AezAll.keyed r k = shape (aes r (AezSpec.key k)) (AezSpec.key k) := funext (keyed_shape r k)

end

/-! ## Examples -/

example : |E (fun k : Block 48 => play (codeString Aez.toyR (fun _ => 9) (toBytes k)) AezAll.exAsk) - AezAll.ideal 12 2 AezAll.exAsk| ≤
    adv (Aez.roundNat Aez.toyR) (AezAll.toFunctions AezAll.exAsk) + (3 + 3 * (105 : Nat) + ((105 : Nat) : ℚ) * ((105 : Nat) - 1) / 2) / 2 ^ 128 +
      (((3 : Nat) : ℚ) * ((3 : Nat) - 1) / 16 ^ 12 + ((3 : Nat) : ℚ) * ((3 : Nat) - 1) / (2 * 256 ^ 12)) +
      ((((3 : Nat) : ℚ) * (2 : Nat) * (2 * ((3 : Nat) * (2 : Nat)) - 1) + (2 : Nat) * (3 : Nat) ^ 2 + 2 * ((3 : Nat) * ((3 : Nat) - 1))) / 2 ^ 128 +
        ((3 : Nat) : ℚ) * ((3 : Nat) - 1) / (2 * 256 ^ 32)) :=
  c113_strings_partial (Aez.roundNat_eq Aez.toyR) _ (by decide) (by decide) (by decide) AezAll.exAsk_atMost AezAll.exAsk_asks rfl

end Verif.AezMask
