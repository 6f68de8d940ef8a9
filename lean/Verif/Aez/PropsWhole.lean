import Verif.Aez.SpecWhole
import Verif.Aez.PropsMasked

/-!
# C114: one `Prp` object through all its functions
-/

namespace Verif.AezWhole

open Verif Verif.Avg Verif.Oracle Verif.AezRandom

theorem width_eq (w : Bool) : width w = 4 ∨ width w = 8 := by cases w <;> decide

theorem play_toStrings {G : Call → Bytes ⊕ Nat} {F : Ask → Bytes} (h1 : ∀ d s, G (.str d s) = .inl (F (d, s)))
    (h2 : ∀ w d x, G (.num w d x) = .inr (leNat (F (d, leBytes (width w) x)))) : ∀ A, play G A = play F (toStrings A)
  | .done _ => rfl
  | .ask (.str d s) c => by
    unfold toStrings
    rw [play, play, h1]
    exact play_toStrings h1 h2 _
  | .ask (.num w d x) c => by
    unfold toStrings
    rw [play, play, h2]
    exact play_toStrings h1 h2 _

theorem atMost_toStrings {q : Nat} {A : Att Call (Bytes ⊕ Nat)} (hA : AtMost q A) : AtMost q (toStrings A) := by
  induction hA with
  | done b => exact .done b
  | @ask q a c _ ih =>
    cases a with
    | str d s => exact .ask fun y => ih (.inl y)
    | num w d x => exact .ask fun y => ih (.inr (leNat y))

theorem asks_toStrings {m ℓ : Nat} (hm : m ≤ 4) {A : Att Call (Bytes ⊕ Nat)} (hA : Asks (Fine m ℓ) A) : Asks (AezAll.Good m ℓ) (toStrings A) := by
  induction hA with
  | done b => exact .done b
  | @ask a c ha _ ih =>
    cases a with
    | str d s => exact .ask ha fun y => ih (.inl y)
    | num w d x =>
      refine .ask ⟨?_, ?_⟩ fun y => ih (.inr (leNat y))
      · show m ≤ (leBytes (width w) x).length
        rw [leBytes_length]
        have := width_eq w
        omega
      · show (leBytes (width w) x).length < 32 * ℓ + 64
        rw [leBytes_length]
        have := width_eq w
        omega

section
variable {R : Aez.Block → Aez.Block} {r : Nat → Nat} (hr : ∀ b, Aez.Spec.val (R b) = r (Aez.Spec.val b))

include hr in
/-- C114: an integer and its bytes, lowest byte first, are encrypted and decrypted alike: whoever knows what one of the functions answers for an
integer knows what the function on strings answers for the four or eight bytes. -/
theorem c114_bytes (junk : Nat → UInt8) {k : Bytes} (hk : k.length = 48) (w d : Bool) (x : Nat) :
    code R junk k (.num w d x) = .inr (leNat (codeString R junk k (d, leBytes (width w) x))) := by
  have hw := width_eq w
  show Sum.inr (codeInt R junk (width w) k (d, x)) = _
  obtain ⟨c, e1, e2, e3⟩ := Aez.c70_string hr hk junk (leBytes (width w) x) (by rw [leBytes_length]; omega)
  obtain ⟨c', e1', e2', e3'⟩ := Aez.c70_integer hr hk junk (width w) x hw
  unfold codeInt codeString
  rw [e1]
  rw [e1] at e1'
  injection e1' with ec
  subst ec
  cases d
  · simp only [e2, e2']
  · simp only [e3, e3']

include hr in
theorem play_code (junk : Nat → UInt8) (k : Block 48) (A : Att Call (Bytes ⊕ Nat)) :
    play (code R junk (toBytes k)) A = play (codeString R junk (toBytes k)) (toStrings A) :=
  play_toStrings (fun _ _ => rfl) (fun w d x => c114_bytes hr junk (toBytes_len k) w d x) A

theorem play_shared {m ℓ : Nat} (π : ∀ n : AezAll.Len m ℓ, Equiv.Perm (Block n.1.1)) (A : Att Call (Bytes ⊕ Nat)) :
    play (shared π) A = play (AezAll.permAnswer π) (toStrings A) := play_toStrings (fun _ _ => rfl) (fun _ _ _ => rfl) A

include hr in
/-- C114 for strings of all lengths: an attack of at most `q` calls of any of the functions tells the object from permutations that serve strings and
integers at most as well as `toFunctions (toStrings A)` tells the keyed functions of AEZ from uniform functions, plus what C112 loses. -/
theorem c114_object (junk : Nat → UInt8) {m ℓ : Nat} (hm : 1 ≤ m) (hm' : m ≤ 4) (hℓ : 32 * ℓ + 63 ≤ 4294967295) {q : Nat} {A : Att Call (Bytes ⊕ Nat)}
    (hA : AtMost q A) (hs : Asks (Fine m ℓ) A) :
    |E (fun k : Block 48 => play (code R junk (toBytes k)) A) - E (fun π : ∀ n : AezAll.Len m ℓ, Equiv.Perm (Block n.1.1) => play (shared π) A)| ≤
      AezAll.adv ℓ r (AezAll.toFunctions (toStrings A)) + ((q : ℚ) * (q - 1) / 16 ^ m + (q : ℚ) * (q - 1) / (2 * 256 ^ m)) +
        (((q : ℚ) * ℓ * (2 * (q * ℓ) - 1) + ℓ * q ^ 2 + 2 * (q * (q - 1))) / 2 ^ 128 + (q : ℚ) * (q - 1) / (2 * 256 ^ 32)) := by
  have h := AezAll.c112_strings hr junk hm (by omega) hℓ (atMost_toStrings hA) (asks_toStrings hm' hs)
  simp only [play_code hr junk, play_shared]
  exact h

include hr in
/-- C114 for strings of less than 32064 bytes: the same, with the assumption of C113 about three AES functions. -/
theorem c114_object_partial (junk : Nat → UInt8) {m ℓ : Nat} (hm : 1 ≤ m) (hm' : m ≤ 4) (hℓ : ℓ ≤ 1000) {q s : Nat} {A : Att Call (Bytes ⊕ Nat)}
    (hA : AtMost q A) (hs : Asks (Fine m ℓ) A) (hq : s = q * (5 * ℓ + 25)) :
    |E (fun k : Block 48 => play (code R junk (toBytes k)) A) - E (fun π : ∀ n : AezAll.Len m ℓ, Equiv.Perm (Block n.1.1) => play (shared π) A)| ≤
      AezMask.adv r (AezAll.toFunctions (toStrings A)) + (3 + 3 * s + (s : ℚ) * (s - 1) / 2) / 2 ^ 128 +
        ((q : ℚ) * (q - 1) / 16 ^ m + (q : ℚ) * (q - 1) / (2 * 256 ^ m)) +
        (((q : ℚ) * ℓ * (2 * (q * ℓ) - 1) + ℓ * q ^ 2 + 2 * (q * (q - 1))) / 2 ^ 128 + (q : ℚ) * (q - 1) / (2 * 256 ^ 32)) := by
  have h := AezMask.c113_strings_partial hr junk hm (by omega) hℓ (atMost_toStrings hA) (asks_toStrings hm' hs) hq
  simp only [play_code hr junk, play_shared]
  exact h

/-! ## Strings and integers are not kept apart -/

/-- The attack that asks for an integer and for its bytes. -/
def meet (w : Bool) (x : Nat) : Att Call (Bytes ⊕ Nat) :=
  .ask (.num w false x) fun y => .ask (.str false (leBytes (width w) x)) fun z => .done (decide (y = .inr (leNat (z.elim id fun _ => []))))

theorem meet_atMost (w : Bool) (x : Nat) : AtMost 2 (meet w x) := .ask fun _ => .ask fun _ => .done _

theorem meet_asks {m ℓ : Nat} (hm : m ≤ 4) (w : Bool) {x : Nat} (hx : x < 256 ^ width w) : Asks (Fine m ℓ) (meet w x) := by
  refine .ask hx fun _ => .ask ⟨?_, ?_⟩ fun _ => .done _
  · show m ≤ (leBytes (width w) x).length
    rw [leBytes_length]
    have := width_eq w
    omega
  · show (leBytes (width w) x).length < 32 * ℓ + 64
    rw [leBytes_length]
    have := width_eq w
    omega

include hr in
/-- It guesses right for every key. -/
theorem meet_code (junk : Nat → UInt8) {k : Bytes} (hk : k.length = 48) (w : Bool) (x : Nat) : play (code R junk k) (meet w x) = 1 := by
  show (if decide (code R junk k (.num w false x) = .inr (leNat (codeString R junk k (false, leBytes (width w) x)))) = true then (1 : ℚ) else 0) = 1
  rw [if_pos (decide_eq_true (c114_bytes hr junk hk w false x))]

end

theorem prob_value {α : Type} [Fintype α] [DecidableEq α] (a b : α) : prob (fun π : Equiv.Perm α => π a = b) * Fintype.card α = 1 := by
  classical
  have : Nonempty α := ⟨a⟩
  have hsym : ∀ c ∈ Finset.univ, prob (fun π : Equiv.Perm α => π a = c) = prob (fun π : Equiv.Perm α => π a = b) := by
    intro c _
    have h := E_equiv (Equiv.mulLeft (Equiv.swap b c)) (fun π : Equiv.Perm α => @ite ℚ (π a = c) (Classical.propDecidable _) 1 0)
    refine h.symm.trans (prob_congr fun π => ?_)
    show Equiv.swap b c (π a) = c ↔ _
    rw [Equiv.swap_apply_eq_iff, Equiv.swap_apply_right]
  have hsum : ∑ c ∈ Finset.univ, prob (fun π : Equiv.Perm α => π a = c) = 1 := by
    unfold prob
    rw [← E_sum]
    refine (congrArg E (funext fun π => ?_)).trans (E_const 1)
    refine (Finset.sum_eq_single (π a) (fun c _ hc => if_neg ?_) (fun h => absurd (Finset.mem_univ _) h)).trans (if_pos rfl)
    exact fun e : π a = c => hc e.symm
  rw [Finset.sum_congr rfl hsym, Finset.sum_const, Finset.card_univ, nsmul_eq_mul, mul_comm] at hsum
  exact hsum

/-- With permutations of the integers of their own it guesses `true` with probability 256 to the minus four, or eight. -/
theorem meet_apart {m ℓ : Nat} (hm : m ≤ 4) (w : Bool) {x : Nat} (hx : x < 256 ^ width w) :
    E (fun π : ∀ n : AezAll.Len m ℓ, Equiv.Perm (Block n.1.1) => E (fun σ : ∀ w : Bool, Equiv.Perm (Fin (256 ^ width w)) => play (apart π σ) (meet w x))) *
      256 ^ width w = 1 := by
  classical
  have hl : ∀ π : ∀ n : AezAll.Len m ℓ, Equiv.Perm (Block n.1.1), leNat (AezAll.permAnswer π (false, leBytes (width w) x)) < 256 ^ width w := by
    intro π
    have hw := width_eq w
    have e : (AezAll.permAnswer π (false, leBytes (width w) x)).length = width w := by
      unfold AezAll.permAnswer
      dsimp only
      rw [dif_pos (by rw [leBytes_length]; omega)]
      rw [toBytes_len, leBytes_length]
    have := leNat_lt (AezAll.permAnswer π (false, leBytes (width w) x))
    rwa [e] at this
  have e : ∀ (π : ∀ n : AezAll.Len m ℓ, Equiv.Perm (Block n.1.1)) (σ : ∀ w : Bool, Equiv.Perm (Fin (256 ^ width w))),
      play (apart π σ) (meet w x) = @ite ℚ (σ w ⟨x, hx⟩ = ⟨_, hl π⟩) (Classical.propDecidable _) 1 0 := by
    intro π σ
    show (if decide ((Sum.inr (permNum (σ w) (false, x)) : Bytes ⊕ Nat) = .inr (leNat (AezAll.permAnswer π (false, leBytes (width w) x)))) = true then (1 : ℚ) else 0) = _
    have e1 : permNum (σ w) (false, x) = (σ w ⟨x, hx⟩).1 := by
      unfold permNum
      rw [dif_pos hx]
      rfl
    rw [e1]
    congr 1
    rw [decide_eq_true_eq, eq_iff_iff, Sum.inr.injEq, Fin.ext_iff]
  have e2 : ∀ π : ∀ n : AezAll.Len m ℓ, Equiv.Perm (Block n.1.1),
      E (fun σ : ∀ w : Bool, Equiv.Perm (Fin (256 ^ width w)) => play (apart π σ) (meet w x)) = 1 / 256 ^ width w := by
    intro π
    simp only [e]
    rw [E_component (β := fun w : Bool => Equiv.Perm (Fin (256 ^ width w))) w
      (fun p => @ite ℚ (p ⟨x, hx⟩ = ⟨_, hl π⟩) (Classical.propDecidable _) 1 0)]
    have h := prob_value (⟨x, hx⟩ : Fin (256 ^ width w)) ⟨_, hl π⟩
    rw [Fintype.card_fin] at h
    push_cast at h
    exact (eq_div_iff (by positivity)).2 h
  simp only [e2, E_const]
  exact one_div_mul_cancel (by positivity)

section
variable {R : Aez.Block → Aez.Block} {r : Nat → Nat} (hr : ∀ b, Aez.Spec.val (R b) = r (Aez.Spec.val b))

include hr in
/-- C114, what fails: from permutations of the strings and others of the integers an attack of two calls tells the object but for probability
256 to the minus four, or eight. -/
theorem c114_apart_false (junk : Nat → UInt8) {m ℓ : Nat} (hm : m ≤ 4) (w : Bool) {x : Nat} (hx : x < 256 ^ width w) :
    ∃ A, AtMost 2 A ∧ Asks (Fine m ℓ) A ∧
      E (fun k : Block 48 => play (code R junk (toBytes k)) A) -
        E (fun π : ∀ n : AezAll.Len m ℓ, Equiv.Perm (Block n.1.1) => E (fun σ : ∀ w : Bool, Equiv.Perm (Fin (256 ^ width w)) => play (apart π σ) A)) =
      1 - 1 / 256 ^ width w := by
  refine ⟨meet w x, meet_atMost w x, meet_asks hm w hx, ?_⟩
  have h1 : ∀ k : Block 48, play (code R junk (toBytes k)) (meet w x) = 1 := fun k => meet_code hr junk (toBytes_len k) w x
  have h2 := meet_apart (ℓ := ℓ) hm w hx
  simp only [h1, E_const]
  rw [eq_div_iff (by positivity) |>.2 h2]

end

/-! ## Examples -/

/-- An attack that asks for an integer of 32 bits, for a string that depends on the answer, and for the inverse of an integer of 64 bits. -/
def exObject : Att Call (Bytes ⊕ Nat) :=
  .ask (.num false false 7) fun y => .ask (.str false (List.replicate 40 (if y = .inr 3 then 1 else 2))) fun z =>
    .ask (.num true true 18446744073709551615) fun v => .done (decide (v = y) || decide (z = .inl []))

theorem exObject_atMost : AtMost 3 exObject := .ask fun _ => .ask fun _ => .ask fun _ => .done _

theorem exObject_asks : Asks (Fine 4 1) exObject :=
  .ask (show 7 < 256 ^ 4 by norm_num) fun _ => .ask ⟨by rw [List.length_replicate]; omega, by rw [List.length_replicate]; omega⟩ fun _ =>
    .ask (show 18446744073709551615 < 256 ^ 8 by norm_num) fun _ => .done _

example : |E (fun k : Block 48 => play (code Aez.toyR (fun _ => 9) (toBytes k)) exObject) -
      E (fun π : ∀ n : AezAll.Len 4 1, Equiv.Perm (Block n.1.1) => play (shared π) exObject)| ≤
    AezMask.adv (Aez.roundNat Aez.toyR) (AezAll.toFunctions (toStrings exObject)) + (3 + 3 * (90 : Nat) + ((90 : Nat) : ℚ) * ((90 : Nat) - 1) / 2) / 2 ^ 128 +
      (((3 : Nat) : ℚ) * ((3 : Nat) - 1) / 16 ^ 4 + ((3 : Nat) : ℚ) * ((3 : Nat) - 1) / (2 * 256 ^ 4)) +
      ((((3 : Nat) : ℚ) * (1 : Nat) * (2 * ((3 : Nat) * (1 : Nat)) - 1) + (1 : Nat) * (3 : Nat) ^ 2 + 2 * ((3 : Nat) * ((3 : Nat) - 1))) / 2 ^ 128 +
        ((3 : Nat) : ℚ) * ((3 : Nat) - 1) / (2 * 256 ^ 32)) :=
  c114_object_partial (Aez.roundNat_eq Aez.toyR) _ (by decide) (by decide) (by decide) exObject_atMost exObject_asks rfl

example : code Aez.toyR (fun _ => 9) (List.replicate 48 5) (.num false true 258) =
    .inr (leNat (codeString Aez.toyR (fun _ => 9) (List.replicate 48 5) (true, [2, 1, 0, 0]))) :=
  c114_bytes (Aez.roundNat_eq Aez.toyR) _ (by decide) false true 258

example : ∃ A, AtMost 2 A ∧ Asks (Fine 1 1000) A ∧
    E (fun k : Block 48 => play (code Aez.toyR (fun _ => 9) (toBytes k)) A) -
      E (fun π : ∀ n : AezAll.Len 1 1000, Equiv.Perm (Block n.1.1) => E (fun σ : ∀ w : Bool, Equiv.Perm (Fin (256 ^ width w)) => play (apart π σ) A)) =
    1 - 1 / 256 ^ width false :=
  c114_apart_false (Aez.roundNat_eq Aez.toyR) _ (by decide) false (x := 4294967295) (by decide)

end Verif.AezWhole
