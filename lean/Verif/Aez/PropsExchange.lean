import Verif.Aez.Exchange
import Verif.Aez.PropsAll

/-!
# C113: strings of 32064 bytes and more

C111 leaves the keyed functions of AEZ as an assumption.  For long strings it is wrong: the functions of the pairs 40 and 1001 are the same, whatever the
key, so that exchanging these two pairs of blocks in a string exchanges them in its encryption.
-/

namespace Verif.AezWide

open Verif Verif.Avg Verif.Oracle Verif.AezRandom

theorem key_lt (k : Bytes) : (AezSpec.key k).I < 2 ^ 128 := by
  show beNat (k.take 16) < 2 ^ 128
  refine lt_of_lt_of_le (beNat_lt' (n := (k.take 16).length) rfl) (Nat.pow_le_pow_right (by decide) ?_)
  rw [List.length_take]
  omega

theorem keyed_exchange (r : Nat → Nat) (k : Bytes) :
    (∀ x, keyed r k (16 + 2 * 1001, x) = keyed r k (16 + 2 * 40, x)) ∧ ∀ x, keyed r k (17 + 2 * 1001, x) = keyed r k (17 + 2 * 40, x) := by
  constructor
  · intro x
    rw [keyed_E1, keyed_E1]
    unfold AezSpec.E1
    rw [off_eq (key_lt k)]
  · intro x
    rw [keyed_E2, keyed_E2]
    unfold AezSpec.E2
    rw [off_eq (key_lt k)]

section
variable {R : Aez.Block → Aez.Block} {r : Nat → Nat} (hr : ∀ b, Aez.Spec.val (R b) = r (Aez.Spec.val b))

include hr in
/-- C113 fails for strings of 32064 bytes and more: for every key and every such string, the exchange of the pairs 40 and 1001 in the string exchanges them
in the encryption and in the decryption. -/
theorem c113_exchange (junk : Nat → UInt8) {k : Bytes} (hk : k.length = 48) {M : Bytes} (h1 : 32 * 1002 ≤ M.length) (h2 : M.length ≤ 4294967295) (d : Bool) :
    codeString R junk k (d, exchange M) = exchange (codeString R junk k (d, M)) := by
  have hx := exchange_length M
  rw [codeString_eq hr junk hk (a := (d, M)) (show 32 ≤ M.length by omega) h2,
    codeString_eq hr junk hk (a := (d, exchange M)) (show 32 ≤ (exchange M).length by omega) (show (exchange M).length ≤ _ by omega)]
  unfold cipherT
  obtain ⟨e1, e2⟩ := keyed_exchange r k
  cases d
  · exact coreT_exchange e1 e2 1 2 h1
  · exact coreT_exchange e1 e2 2 1 h1

/-- The attack that asks for a string and for the exchanged string. -/
def twice (M : Bytes) : Att Ask Bytes := .ask (false, M) fun c => .ask (false, exchange M) fun c' => .done (c' == exchange c)

theorem twice_atMost (M : Bytes) : AtMost 2 (twice M) := .ask fun _ => .ask fun _ => .done _

theorem twice_asks {ℓ : Nat} {M : Bytes} (h1 : 32 ≤ M.length) (h2 : M.length < 32 * ℓ + 64) : Asks (Long ℓ) (twice M) :=
  .ask ⟨h1, h2⟩ fun _ => .ask ⟨by rw [exchange_length]; exact h1, by rw [exchange_length]; exact h2⟩ fun _ => .done _

include hr in
/-- It guesses right for every key. -/
theorem twice_code (junk : Nat → UInt8) {k : Bytes} (hk : k.length = 48) {M : Bytes} (h1 : 32 * 1002 ≤ M.length) (h2 : M.length ≤ 4294967295) :
    play (codeString R junk k) (twice M) = 1 := by
  show (if (codeString R junk k (false, exchange M) == exchange (codeString R junk k (false, M))) = true then (1 : ℚ) else 0) = 1
  rw [c113_exchange hr junk hk h1 h2, if_pos (beq_self_eq_true _)]

end

/-! ## Random permutations -/

theorem prob_relation {α : Type} [Fintype α] [DecidableEq α] (s : α → α) {a b : α} (hab : a ≠ b) :
    prob (fun π : Equiv.Perm α => π b = s (π a)) * (Fintype.card α - 1) ≤ 1 := by
  classical
  have : Nonempty α := ⟨a⟩
  have hsym : ∀ c ∈ Finset.univ.erase a, prob (fun π : Equiv.Perm α => π c = s (π a)) = prob (fun π : Equiv.Perm α => π b = s (π a)) := by
    intro c hc
    have hca : c ≠ a := (Finset.mem_erase.1 hc).1
    have h := E_equiv (Equiv.mulRight (Equiv.swap b c)) (fun π : Equiv.Perm α => @ite ℚ (π c = s (π a)) (Classical.propDecidable _) 1 0)
    refine h.symm.trans (prob_congr fun π => ?_)
    show (π * Equiv.swap b c) c = s ((π * Equiv.swap b c) a) ↔ _
    rw [Equiv.Perm.mul_apply, Equiv.Perm.mul_apply, Equiv.swap_apply_right, Equiv.swap_apply_of_ne_of_ne hab hca.symm]
  have hsum : ∑ c ∈ Finset.univ.erase a, prob (fun π : Equiv.Perm α => π c = s (π a)) ≤ 1 := by
    unfold prob
    rw [← E_sum]
    refine E_le_one fun π => ?_
    refine le_trans (Finset.sum_le_sum (g := fun c => if c = π.symm (s (π a)) then (1 : ℚ) else 0) fun c _ => ?_) ?_
    · by_cases h : π c = s (π a)
      · rw [if_pos h, if_pos (by rw [← h, Equiv.symm_apply_apply])]
      · rw [if_neg h]
        split <;> norm_num
    · rw [Finset.sum_ite_eq']
      split <;> norm_num
  rw [Finset.sum_congr rfl hsym, Finset.sum_const, Finset.card_erase_of_mem (Finset.mem_univ a), Finset.card_univ, nsmul_eq_mul,
    Nat.cast_sub Fintype.card_pos, Nat.cast_one, mul_comm] at hsum
  exact hsum

theorem permAnswer_of {ℓ : Nat} (π : ∀ n : Len ℓ, Equiv.Perm (Block n.1.1)) (n : Len ℓ) {s : Bytes} (hs : s.length = n.1.1) :
    permAnswer π (false, s) = toBytes (π n (ofBytes _ s)) := by
  obtain ⟨⟨l, hl⟩, h32⟩ := n
  have hs : s.length = l := hs
  subst hs
  unfold permAnswer
  rw [dif_pos ⟨h32, hl⟩]
  rfl

/-- With random permutations it almost never guesses `true`. -/
theorem twice_ideal {ℓ : Nat} {M : Bytes} (h1 : 32 ≤ M.length) (h2 : M.length < 32 * ℓ + 64) (hM : exchange M ≠ M) :
    ideal ℓ (twice M) * (256 ^ M.length - 1) ≤ 1 := by
  classical
  let n : Len ℓ := ⟨⟨M.length, h2⟩, h1⟩
  let s : Block M.length → Block M.length := fun b => ofBytes _ (exchange (toBytes b))
  have hne : ofBytes M.length M ≠ ofBytes M.length (exchange M) := by
    intro e
    have := congrArg toBytes e
    rw [toBytes_ofBytes rfl, toBytes_ofBytes (exchange_length M)] at this
    exact hM this.symm
  have e : ∀ π : ∀ n : Len ℓ, Equiv.Perm (Block n.1.1),
      play (permAnswer π) (twice M) = @ite ℚ ((π n) (ofBytes M.length (exchange M)) = s ((π n) (ofBytes M.length M))) (Classical.propDecidable _) 1 0 := by
    intro π
    show (if (permAnswer π (false, exchange M) == exchange (permAnswer π (false, M))) = true then (1 : ℚ) else 0) = _
    rw [permAnswer_of π n (s := M) rfl, permAnswer_of π n (s := exchange M) (exchange_length M)]
    congr 1
    rw [beq_iff_eq, eq_iff_iff]
    constructor
    · intro h
      have := congrArg (ofBytes M.length) h
      rwa [ofBytes_toBytes] at this
    · intro h
      have := congrArg toBytes h
      refine this.trans ?_
      exact toBytes_ofBytes (by rw [exchange_length, toBytes_len])
  have hc := prob_relation s hne
  rw [card_block] at hc
  push_cast at hc
  refine le_trans (le_of_eq ?_) hc
  congr 1
  unfold ideal
  simp only [e]
  exact E_component (β := fun n : Len ℓ => Equiv.Perm (Block n.1.1)) n
    (fun p => @ite ℚ (p (ofBytes M.length (exchange M)) = s (p (ofBytes M.length M))) (Classical.propDecidable _) 1 0)

section
variable {R : Aez.Block → Aez.Block} {r : Nat → Nat} (hr : ∀ b, Aez.Spec.val (R b) = r (Aez.Spec.val b))

theorem ideal_le {n : Nat} {x : ℚ} (hn : 32 ≤ n) (h : x * (256 ^ n - 1) ≤ 1) : x ≤ 1 / (256 ^ n - 1) := by
  have : (1 : ℚ) < 256 ^ n := one_lt_pow₀ (by norm_num) (by omega)
  rw [le_div_iff₀ (by linarith)]
  exact h

include hr in
/-- C113 fails: two questions tell the code from random permutations, for every length of at least 32064 bytes. -/
theorem c113_attack (junk : Nat → UInt8) {ℓ : Nat} {M : Bytes} (h1 : 32 * 1002 ≤ M.length) (h2 : M.length < 32 * ℓ + 64) (h3 : M.length ≤ 4294967295)
    (hM : exchange M ≠ M) :
    E (fun k : Block 48 => play (codeString R junk (toBytes k)) (twice M)) - ideal ℓ (twice M) ≥ 1 - 1 / (256 ^ M.length - 1) := by
  have e : ∀ k : Block 48, play (codeString R junk (toBytes k)) (twice M) = 1 := fun k => twice_code hr junk (toBytes_len k) h1 h3
  simp only [e]
  rw [E_const]
  have := ideal_le (show 32 ≤ M.length by omega) (twice_ideal (show 32 ≤ M.length by omega) h2 hM)
  linarith

include hr in
/-- The assumption of C111 does not hold for strings of 32064 bytes: an attack on the keyed functions succeeds almost always. -/
theorem c113_assumption (junk : Nat → UInt8) {ℓ : Nat} (hℓ : 32 * ℓ + 63 ≤ 4294967295) {M : Bytes} (h1 : 32 * 1002 ≤ M.length) (h2 : M.length < 32 * ℓ + 64)
    (hM : exchange M ≠ M) :
    adv ℓ r (toFunctions (twice M)) ≥ 1 - 1 / (256 ^ M.length - 1) -
      ((2 * ℓ * (4 * ℓ - 1) + 4 * ℓ + 4) / 2 ^ 128 + 1 / 256 ^ 32) := by
  have a := c111_strings hr junk hℓ (twice_atMost M) (twice_asks (show 32 ≤ M.length by omega) h2)
  have b := c113_attack hr junk h1 h2 (by omega) hM
  have c := le_abs_self (E (fun k : Block 48 => play (codeString R junk (toBytes k)) (twice M)) - ideal ℓ (twice M))
  generalize E (fun k : Block 48 => play (codeString R junk (toBytes k)) (twice M)) - ideal ℓ (twice M) = g at a b c
  generalize adv ℓ r (toFunctions (twice M)) = w at a ⊢
  generalize (1 : ℚ) / (256 ^ M.length - 1) = z at b ⊢
  have e : ((((2 : Nat) : ℚ) * ℓ * (2 * ((2 : Nat) * ℓ) - 1) + ℓ * ((2 : Nat) : ℚ) ^ 2 + 2 * (((2 : Nat) : ℚ) * (((2 : Nat) : ℚ) - 1))) / 2 ^ 128 +
      ((2 : Nat) : ℚ) * (((2 : Nat) : ℚ) - 1) / (2 * 256 ^ 32)) = (2 * ℓ * (4 * ℓ - 1) + 4 * ℓ + 4) / 2 ^ 128 + 1 / 256 ^ 32 := by
    generalize (2 : ℚ) ^ 128 = N
    generalize (256 : ℚ) ^ 32 = N'
    push_cast
    ring
  rw [e] at a
  linarith

end

/-! ## Examples -/

/-- A string of 32064 bytes that the exchange changes. -/
def exLong : Bytes := List.replicate (32 * 40) 1 ++ List.replicate (32 * 962) 2

theorem exLong_length : exLong.length = 32 * 1002 := by
  unfold exLong
  rw [List.length_append, List.length_replicate, List.length_replicate]

theorem exLong_ne : exchange exLong ≠ exLong := by
  intro e
  have h1 : (exchange exLong)[32 * 39]? = exLong[32 * 1000]? := by
    rw [exchange_get (by rw [exLong_length]; norm_num), exLong_length, if_pos (by norm_num)]
    congr 1
  have h2 : exLong[32 * 1000]? = some 2 := by
    unfold exLong
    rw [List.getElem?_append_right (by rw [List.length_replicate]; norm_num), List.length_replicate, List.getElem?_replicate, if_pos (by norm_num)]
  have h3 : exLong[32 * 39]? = some 1 := by
    unfold exLong
    rw [List.getElem?_append_left (by rw [List.length_replicate]; norm_num), List.getElem?_replicate, if_pos (by norm_num)]
  rw [e, h3, h2] at h1
  exact absurd h1 (by decide)

example : codeString Aez.toyR (fun _ => 9) (List.replicate 48 7) (true, exchange exLong) = exchange (codeString Aez.toyR (fun _ => 9) (List.replicate 48 7) (true, exLong)) :=
  c113_exchange (Aez.roundNat_eq Aez.toyR) _ (List.length_replicate) (by rw [exLong_length]) (by rw [exLong_length]; norm_num) _

example : E (fun k : Block 48 => play (codeString Aez.toyR (fun _ => 9) (toBytes k)) (twice exLong)) - ideal 1001 (twice exLong) ≥
    1 - 1 / (256 ^ exLong.length - 1) :=
  c113_attack (Aez.roundNat_eq Aez.toyR) _ (by rw [exLong_length]) (by rw [exLong_length]; norm_num) (by rw [exLong_length]; norm_num) exLong_ne

end Verif.AezWide
