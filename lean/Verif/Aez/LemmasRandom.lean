import Verif.Feistel
import Verif.Aez.SpecRandom
import Verif.Aez.PropsSpec

/-!
# The permutation of short strings as four rounds with random functions followed by other permutations
-/

namespace Verif.AezRandom

open Verif Verif.Avg Verif.Oracle

/-! ## The answers that the attack on the keyed functions computes -/

section
variable (T : Nat × Nat → Nat)

def roundT (n : Nat) (p : Nat × Nat) (j : Nat) : Nat × Nat := (p.2, p.1 ^^^ T (point n p.2 j) / 2 ^ (128 - 4 * n))

/-- The number of rounds. -/
def count (n : Nat) : Nat := if n = 32 then 4 else AezSpec.tinyRounds n

def bitT (n x : Nat) : Nat := if n < 16 then T (3, x * 2 ^ (128 - 8 * n) ||| 2 ^ 127) / 2 ^ 127 * 2 ^ (8 * n - 1) else 0

def encT (n x : Nat) : Nat :=
  let y := AezSpec.joined n ((List.range (count n)).foldl (roundT T n) (AezSpec.halvesOf n x))
  y ^^^ bitT T n y

def decT (n y : Nat) : Nat :=
  let x := y ^^^ bitT T n y
  AezSpec.joined n ((List.range (count n)).reverse.foldl (roundT T n) (AezSpec.halvesOf n x))

/-- Strings of 32 bytes. -/
def coreT (d : Bool) (s : Bytes) : Bytes :=
  let p := (if d then [3, 2, 1, 0] else [0, 1, 2, 3]).foldl (roundT T 32) (beNat (s.take 16), beNat (s.drop 16))
  beBytes 16 p.2 ++ beBytes 16 p.1

def cipherT (a : Ask) : Bytes :=
  if a.2.length = 32 then coreT T a.1 a.2
  else beBytes a.2.length (if a.1 then decT T a.2.length (beNat a.2) else encT T a.2.length (beNat a.2))

theorem play_rounds (n : Nat) (k : Nat × Nat → Att (Nat × Nat) Nat) : ∀ (js : List Nat) (p : Nat × Nat),
    play T (rounds n js p k) = play T (k (js.foldl (roundT T n) p))
  | [], _ => rfl
  | j :: js, p => play_rounds n k js (roundT T n p j)

theorem play_flip (n x : Nat) (k : Nat → Att (Nat × Nat) Nat) : play T (flip n x k) = play T (k (x ^^^ bitT T n x)) := by
  unfold flip bitT
  by_cases h : n < 16
  · rw [if_pos h, if_pos h]; rfl
  · rw [if_neg h, if_neg h, Nat.xor_zero]

theorem play_cipher (a : Ask) (k : Bytes → Att (Nat × Nat) Nat) : play T (cipher a k) = play T (k (cipherT T a)) := by
  obtain ⟨d, s⟩ := a
  by_cases h : s.length = 32
  · simp only [cipher, cipherT, coreT, h, if_true, play_rounds]
  · cases d
    · simp only [cipher, cipherT, if_neg h, Bool.false_eq_true, if_false, play_rounds, play_flip, encT, count]
    · simp only [cipher, cipherT, if_neg h, if_true, play_rounds, play_flip, decT, count]

theorem play_toFunctions : ∀ A : Att Ask Bytes, play T (toFunctions A) = play (cipherT T) A
  | .done _ => rfl
  | .ask a c => by
    unfold toFunctions
    rw [play_cipher, play_toFunctions (c (cipherT T a))]
    rfl

end

theorem atMost_rounds {n q : Nat} {k : Nat × Nat → Att (Nat × Nat) Nat} (hk : ∀ p, AtMost q (k p)) : ∀ (js : List Nat) (p : Nat × Nat),
    AtMost (q + js.length) (rounds n js p k)
  | [], p => hk p
  | _ :: js, _ => .ask fun _ => atMost_rounds hk js _

theorem atMost_flip {n x q : Nat} {k : Nat → Att (Nat × Nat) Nat} (hk : ∀ y, AtMost q (k y)) : AtMost (q + 1) (flip n x k) := by
  unfold flip
  split
  · exact .ask fun v => hk _
  · exact (hk _).succ

theorem tinyRounds_le (n : Nat) : AezSpec.tinyRounds n ≤ 24 := by
  unfold AezSpec.tinyRounds
  split_ifs <;> omega

theorem atMost_cipher {a : Ask} {q : Nat} {k : Bytes → Att (Nat × Nat) Nat} (hk : ∀ y, AtMost q (k y)) : AtMost (q + 25) (cipher a k) := by
  have hr := tinyRounds_le a.2.length
  unfold cipher
  dsimp only
  by_cases h : a.2.length = 32
  · rw [if_pos h]
    have := atMost_rounds (n := a.2.length) (k := fun p => k (beBytes 16 p.2 ++ beBytes 16 p.1)) (fun p => hk _)
      (if a.1 then [3, 2, 1, 0] else [0, 1, 2, 3]) (beNat (a.2.take 16), beNat (a.2.drop 16))
    refine this.mono ?_
    split <;> simp
  rw [if_neg h]
  split
  · have := atMost_flip (n := a.2.length) (x := beNat a.2) fun x => atMost_rounds (n := a.2.length)
      (k := fun p => k (beBytes a.2.length (AezSpec.joined a.2.length p))) (fun p => hk _)
      (List.range (AezSpec.tinyRounds a.2.length)).reverse (AezSpec.halvesOf a.2.length x)
    refine this.mono ?_
    rw [List.length_reverse, List.length_range]
    omega
  · have := atMost_rounds (n := a.2.length) (k := fun p => flip a.2.length (AezSpec.joined a.2.length p) fun y => k (beBytes a.2.length y))
      (fun p => atMost_flip fun y => hk _) (List.range (AezSpec.tinyRounds a.2.length)) (AezSpec.halvesOf a.2.length (beNat a.2))
    refine this.mono ?_
    rw [List.length_range]
    omega

/-- The attack on the keyed functions asks at most 25 times for each string. -/
theorem atMost_toFunctions {q : Nat} {A : Att Ask Bytes} (hA : AtMost q A) : AtMost (25 * q) (toFunctions A) := by
  induction hA with
  | done b => exact .done b
  | @ask q a c _ ih => exact atMost_cipher ih

/-! ## Numbers -/

theorem pad_eq {n R j : Nat} (hn : n < 32) (hj : j < 2 ^ (127 - 4 * n)) : AezSpec.padHalf n R ^^^ j = 2 ^ (127 - 4 * n) * (2 * R + 1) + j := by
  have e : AezSpec.padHalf n R = 2 ^ (127 - 4 * n) * (2 * R + 1) := by
    unfold AezSpec.padHalf
    rw [show 128 - 4 * n = (127 - 4 * n) + 1 by omega, pow_succ]
    ring
  rw [e]
  apply Nat.eq_of_testBit_eq
  intro k
  rw [Nat.testBit_xor, Nat.testBit_two_pow_mul_add _ hj, Nat.testBit_two_pow_mul]
  by_cases h : k < 127 - 4 * n
  · simp [h, Nat.not_le.2 h]
  · rw [if_neg h, Nat.testBit_lt_two_pow (lt_of_lt_of_le hj (Nat.pow_le_pow_right (by decide) (Nat.not_lt.1 h)))]
    simp [Nat.not_lt.1 h]

/-- Rounds: fewer than 32 for short strings, fewer than 8 for the others, four for 32 bytes. -/
def cap (n : Nat) : Nat := if n = 32 then 4 else if n < 16 then 32 else 8

theorem cap_le {n n' : Nat} (hn : n < 32) (hn' : n' < 32) (h : tw n = tw n') : cap n ≤ 2 ^ (127 - 4 * n') := by
  unfold cap
  rw [if_neg (by omega)]
  unfold tw at h
  by_cases h1 : n < 16
  · have h2 : n' < 16 := by
      by_contra h2
      rw [if_pos h1, if_neg h2] at h
      omega
    rw [if_pos h1]
    calc 32 = 2 ^ 5 := by norm_num
      _ ≤ _ := Nat.pow_le_pow_right (by decide) (by omega)
  · rw [if_neg h1]
    calc 8 = 2 ^ 3 := by norm_num
      _ ≤ _ := Nat.pow_le_pow_right (by decide) (by omega)

theorem pad_lt {n R j : Nat} (hn : n < 32) (hR : R < 2 ^ (4 * n)) (hj : j < cap n) : AezSpec.padHalf n R ^^^ j < 2 ^ 128 := by
  have hj' := lt_of_lt_of_le hj (cap_le hn hn rfl)
  rw [pad_eq hn hj']
  have e : (2 : Nat) ^ 128 = 2 ^ (127 - 4 * n) * (2 * 2 ^ (4 * n)) := by
    rw [← pow_succ', ← pow_add]
    congr 1
    omega
  rw [e]
  calc 2 ^ (127 - 4 * n) * (2 * R + 1) + j < 2 ^ (127 - 4 * n) * (2 * R + 1) + 2 ^ (127 - 4 * n) := by omega
    _ = 2 ^ (127 - 4 * n) * (2 * (R + 1)) := by ring
    _ ≤ _ := Nat.mul_le_mul_left _ (Nat.mul_le_mul_left _ hR)

theorem pad_ne {n n' R R' j j' : Nat} (hlt : n < n') (hn' : n' < 32) (h : tw n = tw n') (hj : j < cap n) (hj' : j' < cap n') :
    AezSpec.padHalf n R ^^^ j ≠ AezSpec.padHalf n' R' ^^^ j' := by
  have hn : n < 32 := by omega
  rw [pad_eq hn (lt_of_lt_of_le hj (cap_le hn hn rfl)), pad_eq hn' (lt_of_lt_of_le hj' (cap_le hn' hn' rfl))]
  intro e
  have e' := congrArg (· / 2 ^ (127 - 4 * n')) e
  beta_reduce at e'
  have h2 : 2 ^ (127 - 4 * n) = 2 ^ (127 - 4 * n') * (2 ^ (4 * n' - 4 * n - 1) * 2) := by
    rw [← pow_succ, ← pow_add]
    congr 1
    omega
  rw [h2, mul_assoc, Nat.mul_add_div (Nat.two_pow_pos _), Nat.mul_add_div (Nat.two_pow_pos _), Nat.div_eq_of_lt (lt_of_lt_of_le hj (cap_le hn hn' h)),
    Nat.div_eq_of_lt (lt_of_lt_of_le hj' (cap_le hn' hn' rfl)), mul_assoc, Nat.add_zero, Nat.add_zero] at e'
  have : 2 ^ (4 * n' - 4 * n - 1) * (2 * (2 * R + 1)) = 2 * (2 ^ (4 * n' - 4 * n - 1) * (2 * R + 1)) := by ring
  omega

/-- The functions are asked at different points in different rounds, for different halves and for different lengths. -/
theorem pad_inj {n n' R R' j j' : Nat} (hn : n < 32) (hn' : n' < 32) (h : tw n = tw n') (hj : j < cap n) (hj' : j' < cap n')
    (e : AezSpec.padHalf n R ^^^ j = AezSpec.padHalf n' R' ^^^ j') : n = n' ∧ R = R' ∧ j = j' := by
  rcases Nat.lt_trichotomy n n' with hl | hl | hl
  · exact absurd e (pad_ne hl hn' h hj hj')
  · subst hl
    have c1 := lt_of_lt_of_le hj (cap_le hn hn rfl)
    have c2 := lt_of_lt_of_le hj' (cap_le hn hn rfl)
    rw [pad_eq hn c1, pad_eq hn c2] at e
    have e1 := congrArg (· / 2 ^ (127 - 4 * n)) e
    have e2 := congrArg (· % 2 ^ (127 - 4 * n)) e
    beta_reduce at e1 e2
    rw [Nat.mul_add_div (Nat.two_pow_pos _), Nat.mul_add_div (Nat.two_pow_pos _), Nat.div_eq_of_lt c1, Nat.div_eq_of_lt c2] at e1
    rw [Nat.mul_add_mod, Nat.mul_add_mod, Nat.mod_eq_of_lt c1, Nat.mod_eq_of_lt c2] at e2
    exact ⟨rfl, by omega, e2⟩
  · exact absurd e.symm (pad_ne hl hn h.symm hj' hj)

theorem tw_lt (n : Nat) : tw n = 6 ∨ tw n = 7 := by
  unfold tw
  split <;> omega

theorem coreIndex_cases (j : Nat) : coreIndex j = 1 ∨ coreIndex j = 9 ∨ coreIndex j = 10 ∨ coreIndex j = 2 := by
  unfold coreIndex
  split_ifs <;> omega

theorem coreIndex_inj {j j' : Nat} (hj : j < 4) (hj' : j' < 4) (h : coreIndex j = coreIndex j') : j = j' := by
  unfold coreIndex at h
  split_ifs at h <;> omega

/-- Round functions are those of the table with indices less than 12, and not that with index 3. -/
theorem point_fst (n R j : Nat) : (point n R j).1 < 12 ∧ (point n R j).1 ≠ 3 := by
  unfold point
  split
  · have := coreIndex_cases j
    simp only
    omega
  · have := tw_lt n
    simp only
    omega

theorem point_lt {n R j : Nat} (hn : n < 33) (hR : R < 2 ^ (4 * n)) (hj : j < cap n) : (point n R j).2 < 2 ^ 128 := by
  unfold point
  split
  · rename_i h
    subst h
    exact hR
  · exact pad_lt (by omega) hR hj

/-- The functions are asked at different points in different rounds, for different halves and for different lengths. -/
theorem point_inj {n n' R R' j j' : Nat} (hn : n < 33) (hn' : n' < 33) (hj : j < cap n) (hj' : j' < cap n')
    (e : point n R j = point n' R' j') : n = n' ∧ R = R' ∧ j = j' := by
  unfold point at e
  by_cases h : n = 32
  · by_cases h' : n' = 32
    · rw [if_pos h, if_pos h'] at e
      unfold cap at hj hj'
      rw [if_pos h] at hj
      rw [if_pos h'] at hj'
      injection e with e1 e2
      exact ⟨by omega, e2, coreIndex_inj hj hj' e1⟩
    · rw [if_pos h, if_neg h'] at e
      injection e with e1 _
      have := coreIndex_cases j
      have := tw_lt n'
      omega
  · by_cases h' : n' = 32
    · rw [if_neg h, if_pos h'] at e
      injection e with e1 _
      have := coreIndex_cases j'
      have := tw_lt n
      omega
    · rw [if_neg h, if_neg h'] at e
      injection e with e1 e2
      exact pad_inj (by omega) (by omega) e1 hj hj' e2

theorem count_cap (n : Nat) : count n ≤ cap n := by
  unfold count AezSpec.tinyRounds cap
  split_ifs <;> omega

theorem four_le_count (n : Nat) : 4 ≤ count n := by
  unfold count AezSpec.tinyRounds
  split_ifs <;> omega

/-! ## Decryption inverts encryption -/

theorem look_lt (ρ : Table) (a : Nat × Nat) : look ρ a < 2 ^ 128 := (ρ _).2

theorem joined_lt {n : Nat} {p : Nat × Nat} (h1 : p.1 < 2 ^ (4 * n)) (h2 : p.2 < 2 ^ (4 * n)) : AezSpec.joined n p < 2 ^ (8 * n) := by
  have e : (2 : Nat) ^ (8 * n) = 2 ^ (4 * n) * 2 ^ (4 * n) := by rw [← pow_add]; congr 1; omega
  rw [e]
  unfold AezSpec.joined
  calc p.2 * 2 ^ (4 * n) + p.1 < p.2 * 2 ^ (4 * n) + 2 ^ (4 * n) := by omega
    _ = (p.2 + 1) * 2 ^ (4 * n) := by ring
    _ ≤ _ := Nat.mul_le_mul_right _ h2

theorem halves_joined {n : Nat} {p : Nat × Nat} (h1 : p.1 < 2 ^ (4 * n)) : AezSpec.halvesOf n (AezSpec.joined n p) = p.swap := by
  unfold AezSpec.halvesOf AezSpec.joined
  rw [Nat.mul_comm, Nat.mul_add_div (Nat.two_pow_pos _), Nat.div_eq_of_lt h1, Nat.mul_add_mod, Nat.mod_eq_of_lt h1, Nat.add_zero]
  rfl

theorem joined_halves (n x : Nat) : AezSpec.joined n (AezSpec.halvesOf n x).swap = x := by
  unfold AezSpec.halvesOf AezSpec.joined
  exact Nat.div_add_mod' x _

theorem halves_lt {n x : Nat} (h : x < 2 ^ (8 * n)) : (AezSpec.halvesOf n x).1 < 2 ^ (4 * n) ∧ (AezSpec.halvesOf n x).2 < 2 ^ (4 * n) := by
  have e : (2 : Nat) ^ (8 * n) = 2 ^ (4 * n) * 2 ^ (4 * n) := by rw [← pow_add]; congr 1; omega
  rw [e] at h
  exact ⟨Nat.div_lt_of_lt_mul h, Nat.mod_lt _ (Nat.two_pow_pos _)⟩

section
variable {T : Nat × Nat → Nat} (hT : ∀ a, T a < 2 ^ 128)
include hT

theorem roundT_lt {n : Nat} (hn : n < 33) {p : Nat × Nat} (h1 : p.1 < 2 ^ (4 * n)) (h2 : p.2 < 2 ^ (4 * n)) (j : Nat) :
    (roundT T n p j).1 < 2 ^ (4 * n) ∧ (roundT T n p j).2 < 2 ^ (4 * n) := by
  refine ⟨h2, Nat.xor_lt_two_pow h1 (Nat.div_lt_of_lt_mul ?_)⟩
  rw [← pow_add, show 128 - 4 * n + 4 * n = 128 by omega]
  exact hT _

theorem rounds_lt {n : Nat} (hn : n < 33) : ∀ (js : List Nat) {p : Nat × Nat}, p.1 < 2 ^ (4 * n) → p.2 < 2 ^ (4 * n) →
    (js.foldl (roundT T n) p).1 < 2 ^ (4 * n) ∧ (js.foldl (roundT T n) p).2 < 2 ^ (4 * n)
  | [], _, h1, h2 => ⟨h1, h2⟩
  | j :: js, _, h1, h2 => by
    obtain ⟨a, b⟩ := roundT_lt hT hn h1 h2 j
    exact rounds_lt hn js a b

omit hT in
theorem roundT_swap (n : Nat) (p : Nat × Nat) (j : Nat) : roundT T n (roundT T n p j).swap j = p.swap := by
  obtain ⟨a, b⟩ := p
  simp only [roundT, Prod.swap, Nat.xor_assoc, Nat.xor_self, Nat.xor_zero]

omit hT in
theorem rounds_reverse (n : Nat) : ∀ (js : List Nat) (p : Nat × Nat), js.reverse.foldl (roundT T n) (js.foldl (roundT T n) p).swap = p.swap
  | [], _ => rfl
  | j :: js, p => by
    rw [List.reverse_cons, List.foldl_append, show (j :: js).foldl (roundT T n) p = js.foldl (roundT T n) (roundT T n p j) from rfl, rounds_reverse n js]
    exact roundT_swap n p j

theorem bitT_cases (n x : Nat) : bitT T n x = 0 ∨ (n < 16 ∧ bitT T n x = 2 ^ (8 * n - 1)) := by
  unfold bitT
  by_cases h : n < 16
  · rw [if_pos h]
    have : T (3, x * 2 ^ (128 - 8 * n) ||| 2 ^ 127) / 2 ^ 127 < 2 := Nat.div_lt_of_lt_mul (by rw [← pow_succ]; exact hT _)
    rcases Nat.lt_or_ge (T (3, x * 2 ^ (128 - 8 * n) ||| 2 ^ 127) / 2 ^ 127) 1 with h1 | h1
    · left; rw [show T (3, x * 2 ^ (128 - 8 * n) ||| 2 ^ 127) / 2 ^ 127 = 0 by omega, Nat.zero_mul]
    · right; rw [show T (3, x * 2 ^ (128 - 8 * n) ||| 2 ^ 127) / 2 ^ 127 = 1 by omega, Nat.one_mul]; exact ⟨h, rfl⟩
  · left; rw [if_neg h]

theorem bitT_lt {n : Nat} (h1 : 1 ≤ n) (x : Nat) : bitT T n x < 2 ^ (8 * n) := by
  rcases bitT_cases hT n x with h | ⟨-, h⟩
  · rw [h]; exact Nat.two_pow_pos _
  · rw [h]; exact Nat.pow_lt_pow_right (by decide) (by omega)

theorem bitT_bitT {n : Nat} (h1 : 1 ≤ n) (x : Nat) : bitT T n (x ^^^ bitT T n x) = bitT T n x := by
  rcases bitT_cases hT n x with h | ⟨hn, h⟩
  · rw [h, Nat.xor_zero, h]
  · have e : (x ^^^ 2 ^ (8 * n - 1)) * 2 ^ (128 - 8 * n) ||| 2 ^ 127 = x * 2 ^ (128 - 8 * n) ||| 2 ^ 127 := by
      apply Nat.eq_of_testBit_eq
      intro k
      rw [Nat.testBit_or, Nat.testBit_or, Nat.testBit_mul_two_pow, Nat.testBit_mul_two_pow, Nat.testBit_xor, Nat.testBit_two_pow, Nat.testBit_two_pow]
      by_cases hk : 127 = k
      · simp [hk]
      · by_cases hk' : 128 - 8 * n ≤ k
        · have : ¬ 8 * n - 1 = k - (128 - 8 * n) := by omega
          simp [this]
        · simp [hk']
    conv_lhs => rw [h]
    unfold bitT
    rw [e]

theorem decT_encT {n x : Nat} (h1 : 1 ≤ n) (hn : n < 33) (hx : x < 2 ^ (8 * n)) : decT T n (encT T n x) = x := by
  unfold decT encT
  obtain ⟨a, b⟩ := halves_lt hx
  obtain ⟨c, d⟩ := rounds_lt hT hn (List.range (count n)) a b
  simp only [bitT_bitT hT h1, Nat.xor_assoc, Nat.xor_self, Nat.xor_zero]
  rw [halves_joined c, rounds_reverse, joined_halves]

theorem encT_lt {n x : Nat} (h1 : 1 ≤ n) (hn : n < 33) (hx : x < 2 ^ (8 * n)) : encT T n x < 2 ^ (8 * n) := by
  unfold encT
  obtain ⟨a, b⟩ := halves_lt hx
  obtain ⟨c, d⟩ := rounds_lt hT hn (List.range (count n)) a b
  exact Nat.xor_lt_two_pow (joined_lt c d) (bitT_lt hT h1 _)

end

end Verif.AezRandom
