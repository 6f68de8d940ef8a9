import Mathlib.Algebra.BigOperators.Fin
import Verif.Cipher.PropsGame
import Verif.Cipher.SpecMany

/-!
# C117: many `Cipher` objects
-/

namespace Verif.Cipher.Many

open Verif Verif.Mac Verif.Avg Verif.Cipher.Game

variable {n : Nat}

section
variable (P : Prims) (junk : Nat → UInt8) (i : Fin n)

/-- The attack on one object, and this object, are the attack on all. -/
theorem world_only (W : Fin n → Bool) (k : Fin n → Bytes) (A : Atts n) : ∀ C C' : Fin n → List Bytes, (∀ j, j ≠ i → C' j = C j) →
    world P junk (W i) (k i) (C i) (only P junk i W k C' A) = worlds P junk W k C A := by
  induction A with
  | done b => intro C C' _; rfl
  | flip f ih => intro C C' h; simp only [only, world, worlds, ih _ C C' h]
  | enc j m0 m1 c ih =>
    intro C C' h
    unfold only
    by_cases hj : j = i
    · subst hj
      rw [if_pos rfl, world, worlds]
      by_cases hl : m0.length = m1.length
      · rw [if_pos hl, if_pos hl]
        refine congrArg E (funext fun s => ?_)
        have := ih (encOf P junk W k j s m0 m1) (Function.update C j (returned (encOf P junk W k j s m0 m1) ++ C j)) C'
          fun l hl => by rw [h l hl, Function.update_of_ne hl]
        rw [Function.update_self] at this
        exact this
      · rw [if_neg hl, if_neg hl]
        exact ih _ C C' h
    · rw [if_neg hj, worlds]
      by_cases hl : m0.length = m1.length
      · rw [if_pos hl, if_pos hl, world]
        refine congrArg E (funext fun s => ?_)
        have := ih (encOf P junk W k j s m0 m1) (Function.update C j (returned (encOf P junk W k j s m0 m1) ++ C j))
          (Function.update C' j (returned (encOf P junk W k j s m0 m1) ++ C' j)) fun l hl' => by
            by_cases hlj : l = j
            · subst hlj
              rw [Function.update_self, Function.update_self, h l hl']
            · rw [Function.update_of_ne hlj, Function.update_of_ne hlj, h l hl']
        rw [Function.update_of_ne (fun e => hj e.symm)] at this
        exact this
      · rw [if_neg hl, if_neg hl]
        exact ih _ C C' h
  | dec j x c ih =>
    intro C C' h
    unfold only
    by_cases hj : j = i
    · subst hj
      rw [if_pos rfl, world, worlds]
      exact ih _ C C' h
    · rw [if_neg hj, worlds, ih _ C C' h]
      unfold decOf
      rw [h j hj]

/-- The key and the world of the object do not matter for the attack on it. -/
theorem only_congr {W W' : Fin n → Bool} {k k' : Fin n → Bytes} (hW : ∀ j, j ≠ i → W j = W' j) (hk : ∀ j, j ≠ i → k j = k' j) (A : Atts n) :
    ∀ C, only P junk i W k C A = only P junk i W' k' C A := by
  induction A with
  | done b => intro C; rfl
  | flip f ih => intro C; simp only [only, ih]
  | enc j m0 m1 c ih =>
    intro C
    unfold only
    by_cases hj : j = i
    · rw [if_pos hj, if_pos hj]
      simp only [ih]
    · have he : ∀ s, encOf P junk W k j s m0 m1 = encOf P junk W' k' j s m0 m1 := fun s => by unfold encOf; rw [hW j hj, hk j hj]
      rw [if_neg hj, if_neg hj]
      simp only [he, ih]
  | dec j x c ih =>
    intro C
    unfold only
    by_cases hj : j = i
    · rw [if_pos hj, if_pos hj]
      simp only [ih]
    · have hd : decOf P W k C j x = decOf P W' k' C j x := by unfold decOf; rw [hW j hj, hk j hj]
      rw [if_neg hj, if_neg hj, hd, ih]

theorem only_atMost (W : Fin n → Bool) (k : Fin n → Bytes) {A : Atts n} {qe qd : Nat} (h : AtMostFor i qe qd A) :
    ∀ C, AtMost qe qd (only P junk i W k C A) := by
  induction h with
  | done b => intro C; exact .done b
  | flip _ ih => intro C; exact .flip fun b => ih b C
  | encHere _ ih =>
    intro C
    unfold only
    rw [if_pos rfl]
    exact .enc fun y => ih y C
  | encThere hj _ ih =>
    intro C
    unfold only
    rw [if_neg hj]
    split
    · exact .flip fun s => ih _ _
    · exact ih _ C
  | decHere _ ih =>
    intro C
    unfold only
    rw [if_pos rfl]
    exact .dec fun y => ih y C
  | decThere hj _ ih =>
    intro C
    unfold only
    rw [if_neg hj]
    exact ih _ C

end

/-- Steps add up. -/
theorem steps (h : Nat → ℚ) (b : Fin n → ℚ) (hs : ∀ i : Fin n, |h i.1 - h (i.1 + 1)| ≤ b i) : |h 0 - h n| ≤ ∑ i, b i := by
  rw [← Finset.sum_range_sub' h n, Finset.sum_range]
  exact le_trans (Finset.abs_sum_le_sum_abs _ _) (Finset.sum_le_sum fun i _ => hs i)

/-- Real and ideal objects are told apart at most as well as, one after the other, one of them is. -/
theorem hybrid (P : Prims) (junk : Nat → UInt8) (A : Atts n) :
    |E (fun k => reals P junk A k) - E (fun k => ideals P junk A k)| ≤
      ∑ i, E (fun k : Fin n → Block 32 => |E (fun x : Block 32 => world P junk false (toBytes x) [] (onlyAt P junk A i k)) -
        E (fun x : Block 32 => world P junk true (toBytes x) [] (onlyAt P junk A i k))|) := by
  let h : Nat → ℚ := fun t => E fun k : Fin n → Block 32 => worlds P junk (fun j => decide (j.1 < t)) (fun j => toBytes (k j)) (fun _ => []) A
  have h0 : h 0 = E (fun k => reals P junk A k) := by
    refine congrArg E (funext fun k => ?_)
    unfold reals
    congr 1
  have hn : h n = E (fun k => ideals P junk A k) := by
    refine congrArg E (funext fun k => ?_)
    unfold ideals
    congr 1
    funext j
    exact decide_eq_true j.2
  have key : ∀ (i : Fin n) (t : Nat), (∀ j : Fin n, j ≠ i → decide (j.1 < t) = decide (j.1 < i.1)) →
      h t = E (fun k : Fin n → Block 32 => E (fun x : Block 32 => world P junk (decide (i.1 < t)) (toBytes x) [] (onlyAt P junk A i k))) := by
    intro i t ht
    show E (fun k : Fin n → Block 32 => worlds P junk (fun j => decide (j.1 < t)) (fun j => toBytes (k j)) (fun _ => []) A) = _
    rw [E_update i]
    refine congrArg E (funext fun k => congrArg E (funext fun x => ?_))
    rw [← world_only P junk i (fun j => decide (j.1 < t)) (fun j => toBytes (Function.update k i x j)) A (fun _ => []) (fun _ => []) fun j _ => rfl,
      Function.update_self]
    congr 1
    exact only_congr P junk i ht (fun j hj => by rw [Function.update_of_ne hj]) A _
  rw [← h0, ← hn]
  refine steps h _ fun i => ?_
  rw [key i i.1 (fun _ _ => rfl), key i (i.1 + 1) (fun j hj => ?_), decide_eq_false (Nat.lt_irrefl i.1), decide_eq_true (Nat.lt_succ_self i.1)]
  · exact abs_E_sub_le_E _ _ _ fun k => le_refl _
  · have : j.1 ≠ i.1 := fun e => hj (Fin.ext e)
    by_cases c : j.1 < i.1
    · rw [decide_eq_true c, decide_eq_true (by omega)]
    · rw [decide_eq_false c, decide_eq_false (by omega)]

/-- **C117** No attack on `n` objects with independent uniform keys that asks object `i` for at most `qe i` encryptions and `qd i` decryptions tells the
real objects from ideal ones, which encrypt the second messages and accept nothing, by more than the sum of the bounds of C90 for the attacks on one object
that it contains. -/
theorem c117_ciphers {P : Prims} (hP : P.Ok) (junk : Nat → UInt8) {A : Atts n} {qe qd : Fin n → Nat} (hq : ∀ i, AtMostFor i (qe i) (qd i) A)
    {ε : ℚ} (h0 : 0 ≤ ε) (hε : ∀ i k N D, Derived P (onlyAt P junk A i k) N D → adv1 P N D ≤ ε) :
    |E (fun k => reals P junk A k) - E (fun k => ideals P junk A k)| ≤
      ∑ i, (E (fun k : Fin n → Block 32 => advKdf P junk false (onlyAt P junk A i k) + advKdf P junk true (onlyAt P junk A i k)) +
        ((qe i : ℚ) * (qe i - 1) / 2 ^ 128 + ((qe i + qd i : Nat) : ℚ) * ε)) := by
  refine le_trans (hybrid P junk A) (Finset.sum_le_sum fun i _ => ?_)
  refine le_trans (E_mono fun k => c90_cipher hP junk (only_atMost P junk i _ _ (hq i) _) h0 (hε i k)) (le_of_eq ?_)
  rw [← E_const (α := Fin n → Block 32) ((qe i : ℚ) * (qe i - 1) / 2 ^ 128 + ((qe i + qd i : Nat) : ℚ) * ε), ← E_add]
  refine congrArg E (funext fun k => ?_)
  show advKdf P junk false (onlyAt P junk A i k) + advKdf P junk true (onlyAt P junk A i k) + _ + _ = _
  ring

theorem watch_ideal (P : Prims) (junk : Nat → UInt8) (k : Fin n → Bytes) (A : Atts n) : ∀ C, worlds P junk (fun _ => true) k C (watch A) = 0 := by
  induction A with
  | done b => intro C; rfl
  | flip f ih => intro C; simp only [watch, worlds, ih, E_const]
  | enc j m0 m1 c ih => intro C; simp only [watch, worlds, ih, E_const, ite_self]
  | dec j x c ih =>
    intro C
    simp only [watch, worlds, decOf, Bool.true_or, if_true]
    unfold reject
    by_cases h : x.length ≤ 32
    · simp only [h, if_true, ih]
    · simp only [h, if_false, ih]

theorem watch_atMost {i : Fin n} {A : Atts n} {qe qd : Nat} (h : AtMostFor i qe qd A) : AtMostFor i qe qd (watch A) := by
  induction h with
  | done b => exact .done _
  | flip _ ih => exact .flip ih
  | encHere _ ih => exact .encHere ih
  | encThere hj _ ih => exact .encThere hj ih
  | decHere _ ih =>
    unfold watch
    refine .decHere fun y => ?_
    cases y with
    | ok m => exact .done _
    | exc e => exact ih _
    | ub => exact ih _
  | decThere hj _ ih =>
    unfold watch
    refine .decThere hj fun y => ?_
    cases y with
    | ok m => exact .done _
    | exc e => exact ih _
    | ub => exact ih _

/-- **C117** The probability that some object accepts a string that it has not returned itself, whichever objects the attack has seen encrypt. -/
theorem c117_forgery {P : Prims} (hP : P.Ok) (junk : Nat → UInt8) {A : Atts n} {qe qd : Fin n → Nat} (hq : ∀ i, AtMostFor i (qe i) (qd i) A)
    {ε : ℚ} (h0 : 0 ≤ ε) (hε : ∀ i k N D, Derived P (onlyAt P junk (watch A) i k) N D → adv1 P N D ≤ ε) :
    E (fun k => reals P junk (watch A) k) ≤
      ∑ i, (E (fun k : Fin n → Block 32 => advKdf P junk false (onlyAt P junk (watch A) i k) + advKdf P junk true (onlyAt P junk (watch A) i k)) +
        ((qe i : ℚ) * (qe i - 1) / 2 ^ 128 + ((qe i + qd i : Nat) : ℚ) * ε)) := by
  have h := c117_ciphers hP junk (fun i => watch_atMost (hq i)) h0 hε
  simp only [ideals, watch_ideal, E_const, sub_zero] at h
  exact le_trans (le_abs_self _) h

/-- The attack that has a message encrypted by object `i` and gives the result to object `j`. -/
def cross (i j : Fin n) (m : Bytes) : Atts n := .enc i m m fun y => match y with
  | .ok x => .dec j x fun _ => .done false
  | _ => .done false

/-- What the attack finds: whether object `j` accepts what object `i` returned. -/
theorem cross_real (P : Prims) (junk : Nat → UInt8) {i j : Fin n} (hij : i ≠ j) (m : Bytes) (k : Fin n → Block 32) :
    reals P junk (watch (cross i j m)) k = E fun s : Block 16 =>
      match encryptString P junk (some (toBytes (k i))) (toBytes s) m with
      | .ok x => match decryptString P (some (toBytes (k j))) x with
        | .ok _ => 1
        | _ => 0
      | _ => 0 := by
  unfold reals cross
  simp only [watch, worlds, if_true, encOf, Bool.false_eq_true, if_false]
  refine congrArg E (funext fun s => ?_)
  cases h : encryptString P junk (some (toBytes (k i))) (toBytes s) m with
  | ok x =>
    simp only [watch, worlds, decOf, Function.update_of_ne hij.symm, List.contains_nil, Bool.or_false, Bool.false_eq_true, if_false]
    cases decryptString P (some (toBytes (k j))) x <;> rfl
  | exc e => rfl
  | ub => rfl

theorem cross_atMost {i j : Fin n} (hij : i ≠ j) (m : Bytes) (l : Fin n) : AtMostFor l (if l = i then 1 else 0) (if l = j then 1 else 0) (cross i j m) := by
  have hd : ∀ (qe : Nat) (y : Res Bytes), AtMostFor l qe (if l = j then 1 else 0) (match y with
      | .ok x => .dec j x fun _ => .done false
      | _ => .done false) := by
    intro qe y
    cases y with
    | ok x =>
      by_cases hj : l = j
      · subst hj
        rw [if_pos rfl]
        exact .decHere fun _ => .done _
      · rw [if_neg hj]
        exact .decThere (fun e => hj e.symm) fun _ => .done _
    | exc e => exact .done _
    | ub => exact .done _
  by_cases hi : l = i
  · subst hi
    rw [if_pos rfl]
    exact .encHere fun y => hd 0 y
  · rw [if_neg hi]
    exact .encThere (fun e => hi e.symm) fun y => hd 0 y

/-- **C117** What one object encrypts another one with an independent key accepts at most with the advantages of the attack `cross` and of two attacks on
one key of the authenticated encryption. -/
theorem c117_cross {P : Prims} (hP : P.Ok) (junk : Nat → UInt8) {i j : Fin n} (hij : i ≠ j) (m : Bytes) {ε : ℚ} (h0 : 0 ≤ ε)
    (hε : ∀ l k N D, Derived P (onlyAt P junk (watch (cross i j m)) l k) N D → adv1 P N D ≤ ε) :
    E (fun k : Fin n → Block 32 => E fun s : Block 16 =>
      match encryptString P junk (some (toBytes (k i))) (toBytes s) m with
      | .ok x => match decryptString P (some (toBytes (k j))) x with
        | .ok _ => (1 : ℚ)
        | _ => 0
      | _ => 0) ≤
      ∑ l, E (fun k : Fin n → Block 32 => advKdf P junk false (onlyAt P junk (watch (cross i j m)) l k) +
        advKdf P junk true (onlyAt P junk (watch (cross i j m)) l k)) + 2 * ε := by
  have h := c117_forgery hP junk (cross_atMost hij m) h0 hε
  simp only [cross_real P junk hij] at h
  refine le_trans h (le_of_eq ?_)
  rw [Finset.sum_add_distrib]
  congr 1
  have e : ∀ l : Fin n, (((if l = i then 1 else 0 : Nat) : ℚ) * (((if l = i then 1 else 0 : Nat) : ℚ) - 1) / 2 ^ 128 +
      (((if l = i then 1 else 0) + (if l = j then 1 else 0) : Nat) : ℚ) * ε) = (if l = i then ε else 0) + (if l = j then ε else 0) := by
    intro l
    by_cases h1 : l = i <;> by_cases h2 : l = j
    · exact absurd (h1.symm.trans h2) hij
    · rw [if_pos h1, if_pos h1, if_neg h2, if_neg h2, Nat.add_zero, Nat.cast_one, sub_self, mul_zero, zero_div, zero_add, one_mul, add_zero]
    · rw [if_neg h1, if_neg h1, if_pos h2, if_pos h2, Nat.zero_add, Nat.cast_zero, zero_mul, zero_div, Nat.cast_one, one_mul]
    · rw [if_neg h1, if_neg h1, if_neg h2, if_neg h2, Nat.zero_add, Nat.cast_zero, zero_mul, zero_div, zero_mul]
  simp only [e]
  rw [Finset.sum_add_distrib, Finset.sum_ite_eq' Finset.univ i, Finset.sum_ite_eq' Finset.univ j, if_pos (Finset.mem_univ _), if_pos (Finset.mem_univ _)]
  ring

/-! ### An example: a coin chooses the object that encrypts one byte -/

/-- Coins, and at most one encryption of one byte at the end. -/
inductive Small : Att → Prop
  | done (b : Bool) : Small (.done b)
  | flip {f : Block 16 → Att} : (∀ b, Small (f b)) → Small (.flip f)
  | one (t : Bytes → Bool) : Small (oneByte t)

theorem small_rest {S S' : Att} (h : Small S) (hr : Rest S S') : Small S' := by
  induction hr with
  | refl => exact h
  | @flip f b _ ih =>
    generalize hT : Att.flip f = T at ih
    cases ih with
    | done b => cases hT
    | flip g => injection hT with e; subst e; exact g b
    | one t => cases hT
  | @enc m0 m1 c y _ ih =>
    generalize hT : Att.enc m0 m1 c = T at ih
    cases ih with
    | done b => cases hT
    | flip g => cases hT
    | one t =>
      unfold oneByte at hT
      injection hT with _ _ e
      subst e
      cases y <;> exact .done _
  | @dec x c y _ ih =>
    generalize hT : Att.dec x c = T at ih
    cases ih with
    | done b => cases hT
    | flip g => cases hT
    | one t => cases hT

theorem small_adv {S : Att} (h : Small S) (s : Block 16) (A : Block 16 → Bool) (R : Block 16 → Block 32) (U : List (Block 16)) (C : List Bytes)
    (hp : Past U C) (hs : s ∉ U) : adv1 pad (nonceOf s) (single pad s A R U C S) ≤ 0 := by
  induction h with
  | done b =>
    unfold adv1
    simp only [single, oneVal, sub_self, abs_zero, le_refl]
  | @flip f _ ih =>
    unfold adv1 at ih ⊢
    have e : ∀ w, E (fun K : Block 32 => oneVal pad w (toBytes K) (nonceOf s) (single pad s A R U C (.flip f))) =
        E (fun b : Block 16 => E (fun K : Block 32 => oneVal pad w (toBytes K) (nonceOf s) (single pad s A R U C (f b)))) := by
      intro w
      rw [E_comm]
      refine congrArg E (funext fun K => ?_)
      simp only [single, oneVal]
    rw [e, e, E_sub]
    exact abs_E_le fun b => ih b
  | one t => exact oneByte_derived (.rest s A R U C .refl hp hs)

theorem small_derived {S : Att} (h : Small S) {N : Bytes} {D : Game.One} (hd : Derived pad S N D) : adv1 pad N D ≤ 0 := by
  cases hd with
  | rest s A R U C hr hp hs => exact small_adv (small_rest h hr) s A R U C hp hs
  | @first m0 m1 c s A R U C hr hl hp hs =>
    have := small_rest h hr
    generalize hT : Att.enc m0 m1 c = T at this
    cases this with
    | done b => cases hT
    | flip g => cases hT
    | one t =>
      refine oneByte_derived (t := t) (.first s A R U C ?_ hl hp hs)
      rw [hT]
      exact .refl

/-- A coin chooses the object, which encrypts `[1]` or `[2]`; `t` looks at the coin and the result. -/
def choose (t : Block 16 → Bytes → Bool) : Atts 2 := .flip fun b => .enc (if b 0 < 128 then 0 else 1) [1] [2] fun y => match y with
  | .ok x => .done (t b x)
  | _ => .done false

theorem choose_small (junk : Nat → UInt8) (t : Block 16 → Bytes → Bool) (i : Fin 2) (k : Fin 2 → Block 32) : Small (onlyAt pad junk (choose t) i k) := by
  refine .flip fun b => ?_
  unfold only
  generalize (if b 0 < 128 then (0 : Fin 2) else 1) = l
  by_cases h : l = i
  · rw [if_pos h]
    have e : (fun y : Res Bytes => only pad junk i (fun j => decide (j.1 < i.1)) (fun j => toBytes (k j)) (fun _ => []) (match y with
        | .ok x => .done (t b x)
        | _ => .done false)) = fun y => match y with
        | .ok x => .done (t b x)
        | _ => .done false := by
      funext y
      cases y <;> rfl
    rw [e]
    exact .one (t b)
  · rw [if_neg h, if_pos (show ([1] : Bytes).length = ([2] : Bytes).length from rfl)]
    refine .flip fun s => ?_
    generalize encOf pad junk (fun j => decide (j.1 < i.1)) (fun j => toBytes (k j)) l s [1] [2] = y
    cases y <;> exact .done _

/-- The hypotheses hold with `ε = 0` for attacks that see one encryption of one byte by one of two objects. -/
example (t : Block 16 → Bytes → Bool) (junk : Nat → UInt8) : pad.Ok ∧ (∀ i, AtMostFor i 1 0 (choose t)) ∧
    ∀ i k N D, Derived pad (onlyAt pad junk (choose t) i k) N D → adv1 pad N D ≤ 0 := by
  refine ⟨pad_ok, fun i => .flip fun b => ?_, fun i k N D => small_derived (choose_small junk t i k)⟩
  have hd : ∀ (qe : Nat) (y : Res Bytes), AtMostFor i qe 0 (match y with
      | .ok x => (.done (t b x) : Atts 2)
      | _ => .done false) := by
    intro qe y
    cases y <;> exact .done _
  by_cases h : (if b 0 < 128 then 0 else 1) = i
  · rw [h]
    exact .encHere (hd 0)
  · exact .encThere h (hd 1)

/-! ### An example for `c117_cross`: a tag of one byte of the key -/

/-- The tag is the first byte of the key, sixteen times. -/
def tagged : Prims where
  kdf k s := (k ++ s).reverse.take 32
  enc k _ m := m ++ List.replicate 16 (k.headD 0)
  dec k _ c := if c.length ≥ 16 ∧ c.drop (c.length - 16) = List.replicate 16 (k.headD 0) then some (c.take (c.length - 16)) else none

theorem tagged_ok : tagged.Ok where
  dec_enc k n m := by
    simp only [tagged]
    rw [if_pos ⟨by simp, by simp⟩]
    rw [List.length_append, List.length_replicate, Nat.add_sub_cancel, List.take_left]
  enc_length k n m := by simp [tagged]
  dec_sound k n c m h := by
    simp only [tagged] at h ⊢
    split at h
    · rename_i hc
      injection h with h
      rw [← h]
      conv_lhs => rw [← List.take_append_drop (c.length - 16) c, hc.2]
    · cases h

theorem card_byte : Fintype.card UInt8 = 256 := by
  have := card_block 1
  rw [Fintype.card_fun, Fintype.card_fin, pow_one] at this
  exact this

/-- A string is accepted with at most one of the 256 first bytes. -/
theorem tagged_dec (N e : Bytes) (v : Option Bytes → Bool) :
    |E (fun K : Block 32 => bit (v (tagged.dec (toBytes K) N e))) - E (fun _ : Block 32 => bit (v none))| ≤ 1 / 256 := by
  let a : UInt8 := (e.drop (e.length - 16)).headD 0
  have hh : ∀ K : Block 32, |bit (v (tagged.dec (toBytes K) N e)) - bit (v none)| ≤ if [a].contains (K 0) then 1 else 0 := by
    intro K
    have hK : (toBytes K).headD 0 = K 0 := rfl
    by_cases h : e.length ≥ 16 ∧ e.drop (e.length - 16) = List.replicate 16 ((toBytes K).headD 0)
    · have ha : K 0 = a := by
        show _ = (e.drop (e.length - 16)).headD 0
        rw [h.2, hK]
        rfl
      rw [if_pos (by simp [ha])]
      cases v (tagged.dec (toBytes K) N e) <;> cases v none <;> simp [bit]
    · have : tagged.dec (toBytes K) N e = none := if_neg h
      rw [this, sub_self, abs_zero]
      split <;> norm_num
  refine le_trans (abs_E_sub_le_E _ _ _ hh) ?_
  rw [E_update (0 : Fin 32)]
  refine le_trans (E_mono (g := fun _ => 1 / 256) fun K => ?_) (le_of_eq (E_const _))
  simp only [Function.update_self]
  refine le_trans (E_mem_le [a]) (le_of_eq ?_)
  rw [card_byte, List.length_singleton]
  norm_num

/-- Coins and encryptions of equal messages. -/
inductive Same : Att → Prop
  | done (b : Bool) : Same (.done b)
  | flip {f : Block 16 → Att} : (∀ b, Same (f b)) → Same (.flip f)
  | enc {m : Bytes} {c : Res Bytes → Att} : (∀ y, Same (c y)) → Same (.enc m m c)

/-- Coins and one decryption. -/
inductive Once : Att → Prop
  | done (b : Bool) : Once (.done b)
  | flip {f : Block 16 → Att} : (∀ b, Once (f b)) → Once (.flip f)
  | dec {x : Bytes} {c : Res Bytes → Att} (v : Res Bytes → Bool) : (∀ y, c y = .done (v y)) → Once (.dec x c)

theorem same_rest {S S' : Att} (h : Same S) (hr : Rest S S') : Same S' := by
  induction hr with
  | refl => exact h
  | flip b _ ih => cases ih with | flip g => exact g b
  | enc y _ ih => cases ih with | enc g => exact g y
  | dec y _ ih => cases ih

theorem once_rest {S S' : Att} (h : Once S) (hr : Rest S S') : Once S' := by
  induction hr with
  | refl => exact h
  | flip b _ ih => cases ih with | flip g => exact g b
  | enc y _ ih => cases ih
  | dec y _ ih => cases ih with | dec v g => rw [g y]; exact .done _

theorem same_val {S : Att} (h : Same S) (K N : Bytes) (s : Block 16) (A : Block 16 → Bool) (R : Block 16 → Block 32) :
    ∀ (U : List (Block 16)) (C : List Bytes), oneVal tagged false K N (single tagged s A R U C S) = oneVal tagged true K N (single tagged s A R U C S) := by
  induction h with
  | done b => intro U C; rfl
  | flip _ ih => intro U C; simp only [single, oneVal, ih]
  | @enc m c _ ih =>
    intro U C
    simp only [single, if_true]
    by_cases hm : m = []
    · rw [if_pos hm]; exact ih _ U C
    · rw [if_neg hm]
      simp only [oneVal]
      refine congrArg E (funext fun r => ?_)
      split
      · rfl
      · split
        · simp only [oneVal, ite_self, ih]
        · exact ih _ _ _

theorem once_adv {S : Att} (h : Once S) (s : Block 16) (A : Block 16 → Bool) (R : Block 16 → Block 32) (U : List (Block 16)) (C : List Bytes) :
    adv1 tagged (nonceOf s) (single tagged s A R U C S) ≤ 1 / 256 := by
  have hz : ∀ b, adv1 tagged (nonceOf s) (.done b) ≤ 1 / 256 := fun b => by
    unfold adv1
    simp only [oneVal, sub_self, abs_zero]
    norm_num
  induction h with
  | done b => exact hz b
  | @flip f _ ih =>
    unfold adv1 at ih ⊢
    have e : ∀ w, E (fun K : Block 32 => oneVal tagged w (toBytes K) (nonceOf s) (single tagged s A R U C (.flip f))) =
        E (fun b : Block 16 => E (fun K : Block 32 => oneVal tagged w (toBytes K) (nonceOf s) (single tagged s A R U C (f b)))) := by
      intro w
      rw [E_comm]
      refine congrArg E (funext fun K => ?_)
      simp only [single, oneVal]
    rw [e, e, E_sub]
    exact abs_E_le fun b => ih b
  | @dec x c v hv =>
    simp only [single, hv]
    split
    · exact hz _
    · split
      · unfold adv1
        simp only [oneVal, Bool.false_eq_true, if_false, if_true]
        exact tagged_dec _ _ fun o => v (answer o)
      · split <;> exact hz _

theorem same_derived {S : Att} (h : Same S) {N : Bytes} {D : Game.One} (hd : Derived tagged S N D) : adv1 tagged N D ≤ 1 / 256 := by
  have hv : ∀ K : Block 32, oneVal tagged false (toBytes K) N D = oneVal tagged true (toBytes K) N D := by
    intro K
    cases hd with
    | rest s A R U C hr hp hs => exact same_val (same_rest h hr) _ _ _ _ _ _ _
    | first s A R U C hr hl hp hs =>
      cases same_rest h hr with
      | enc g =>
        simp only [singleEnc, oneVal, ite_self]
        exact same_val (g _) _ _ _ _ _ _ _
  unfold adv1
  simp only [hv, sub_self, abs_zero]
  norm_num

theorem once_derived {S : Att} (h : Once S) {N : Bytes} {D : Game.One} (hd : Derived tagged S N D) : adv1 tagged N D ≤ 1 / 256 := by
  cases hd with
  | rest s A R U C hr hp hs => exact once_adv (once_rest h hr) s A R U C
  | first s A R U C hr hl hp hs => cases once_rest h hr

/-- The hypotheses of `c117_cross` hold with `ε = 1/256` for this tag and two objects. -/
example (junk : Nat → UInt8) (m : Bytes) : tagged.Ok ∧ (0 : Fin 2) ≠ 1 ∧
    ∀ l k N D, Derived tagged (onlyAt tagged junk (watch (cross (0 : Fin 2) 1 m)) l k) N D → adv1 tagged N D ≤ 1 / 256 := by
  refine ⟨tagged_ok, by decide, fun l k N D => ?_⟩
  by_cases hl : l = 0
  · subst hl
    refine same_derived (.enc fun y => ?_)
    cases y with
    | ok x =>
      simp only [watch, only, Fin.reduceEq, if_false]
      split <;> exact .done _
    | exc e => exact .done _
    | ub => exact .done _
  · have h1 : l = 1 := by omega
    subst h1
    unfold onlyAt cross watch only
    rw [if_neg (by decide), if_pos rfl]
    refine once_derived (.flip fun s => ?_)
    generalize encOf tagged junk (fun j => decide (j.1 < (1 : Fin 2).1)) (fun j => toBytes (k j)) 0 s m m = y
    cases y with
    | ok x =>
      simp only [watch, only, if_true]
      refine .dec (fun y => match y with | .ok _ => true | _ => false) fun y => ?_
      cases y <;> rfl
    | exc e => exact .done _
    | ub => exact .done _

end Verif.Cipher.Many
