import Verif.Aez.LemmasParity
import Verif.Aez.LemmasParityLong
import Verif.Aez.SpecParity

/-!
# C116: the parity of the permutation of the strings of a length

A Feistel network is an even permutation whatever its round functions are.  For strings of less than 16 bytes the code therefore flips the first bit of the
result where a function of the other bits says so (src/aez/aez.c:774–779 and 810–814).  It does not do so for longer strings.
-/

namespace Verif.AezParity

open Verif Verif.Avg Verif.Oracle Verif.AezRandom Equiv Equiv.Perm

theorem top_eq {x : Nat} (h : x < 2 ^ 128) : top x = decide (2 ^ 127 ≤ x) := by
  unfold top
  rw [Nat.testBit_eq_decide_div_mod_eq]
  by_cases h' : 2 ^ 127 ≤ x
  · rw [show x / 2 ^ 127 % 2 = 1 by omega]; simp only [h']
  · rw [show x / 2 ^ 127 % 2 = 0 by omega]; simp only [h']; rfl

theorem bit_eq {T : Nat × Nat → Nat} {n z : Nat} (h : T (3, z * 2 ^ (128 - 8 * n) ||| 2 ^ 127) < 2 ^ 128) :
    bit T n z = top (T (3, z * 2 ^ (128 - 8 * n) ||| 2 ^ 127)) := (top_eq h).symm

theorem cast_prod {α : Type} [Fintype α] (b : α → Bool) :
    (((∏ z, if b z then (-1 : ℤˣ) else 1 : ℤˣ) : ℤ) : ℚ) = ∏ z, if b z then (-1 : ℚ) else 1 := by
  rw [Units.coe_prod, Int.cast_prod]
  refine Finset.prod_congr rfl fun z _ => ?_
  cases b z <;> simp

/-- The parity of the permutation of a table. -/
theorem parity_table (ρ : Table) {n : Nat} (h1 : 1 ≤ n) (hn : n < 16) {π : Perm (Block n)} (h : π = strPerm ρ h1 (by omega)) :
    parity π = ∏ z : Fin (2 ^ (8 * n - 1)), if top (look ρ (3, z.1 * 2 ^ (128 - 8 * n) ||| 2 ^ 127)) then -1 else 1 := by
  rw [h, parity, sign_strPerm, sign_short _ _ (i := (⟨⟨n, by omega⟩, h1⟩ : Len 1)) h1 hn, cast_prod]
  refine Finset.prod_congr rfl fun z _ => ?_
  rw [bit_eq (look_lt _ _)]

theorem point_lt' {n : Nat} (h1 : 1 ≤ n) (hn : n < 16) (z : Fin (2 ^ (8 * n - 1))) : z.1 * 2 ^ (128 - 8 * n) < 2 ^ 127 :=
  calc z.1 * 2 ^ (128 - 8 * n) < 2 ^ (8 * n - 1) * 2 ^ (128 - 8 * n) := Nat.mul_lt_mul_of_pos_right z.2 (Nat.two_pow_pos _)
    _ = 2 ^ 127 := by rw [← pow_add]; congr 1; omega

theorem point_lt'' {n : Nat} (h1 : 1 ≤ n) (hn : n < 16) (z : Fin (2 ^ (8 * n - 1))) : z.1 * 2 ^ (128 - 8 * n) ||| 2 ^ 127 < 2 ^ 128 :=
  Nat.or_lt_two_pow (lt_trans (point_lt' h1 hn z) (Nat.pow_lt_pow_right (by decide) (by decide))) (Nat.pow_lt_pow_right (by decide) (by decide))

/-- Only the point 0 is padded to a block with no other bit than the first. -/
theorem point_first {n : Nat} (h1 : 1 ≤ n) (hn : n < 16) (z : Fin (2 ^ (8 * n - 1))) : z.1 * 2 ^ (128 - 8 * n) ||| 2 ^ 127 = 2 ^ 127 ↔ z.1 = 0 := by
  constructor
  · intro e
    have h0 : z.1 * 2 ^ (128 - 8 * n) = 0 := by
      apply Nat.eq_of_testBit_eq
      intro k
      rw [Nat.zero_testBit]
      by_cases hk : k = 127
      · subst hk
        exact Nat.testBit_lt_two_pow (point_lt' h1 hn z)
      · have := congrArg (fun x : Nat => x.testBit k) e
        beta_reduce at this
        rw [Nat.testBit_or, Nat.testBit_two_pow] at this
        have hk' : ¬ 127 = k := fun h => hk h.symm
        simpa [hk'] using this
    rcases Nat.mul_eq_zero.1 h0 with h | h
    · exact h
    · exact absurd h (Nat.two_pow_pos _).ne'
  · intro e
    rw [e, Nat.zero_mul, Nat.zero_or]

section
variable {R : Aez.Block → Aez.Block} {r : Nat → Nat} (hr : ∀ b, Aez.Spec.val (R b) = r (Aez.Spec.val b))

include hr in
theorem round_lt (x : Nat) (hx : x < 2 ^ 128) : r x < 2 ^ 128 := by
  have e : Aez.Spec.val (ofBytes 16 (beBytes 16 x)) = x := by
    show beNat (toBytes (ofBytes 16 (beBytes 16 x))) = x
    rw [toBytes_ofBytes (beBytes_len _ _), beNat_beBytes_of_lt (by rw [pow_256]; exact hx)]
  rw [← e, ← hr]
  exact Aez.val_lt _

include hr in
theorem code_table (junk : Nat → UInt8) {k : Bytes} (hk : k.length = 48) {n : Nat} (h1 : 1 ≤ n) (hn : n < 33) (b : Block n) :
    codeString R junk k (false, toBytes b) = toBytes (strPerm (tableOf r k) h1 hn b) := by
  have hl : (toBytes b).length = n := toBytes_len b
  rw [codeString_eq hr junk hk (a := (false, toBytes b)) (by show 1 ≤ (toBytes b).length; omega) (by show (toBytes b).length < 33; omega),
    strPerm_apply, cipherT_congr (look_lt _) (look_tableOf (round_lt hr) k) (by omega) (by omega)]

theorem unique {F : Ask → Bytes} {n : Nat} {π σ : Perm (Block n)} (h : Encrypts F n π) (h' : ∀ b, F (false, toBytes b) = toBytes (σ b)) : π = σ :=
  Equiv.ext fun b => toBytes_inj ((h b).symm.trans (h' b))

/-- The bytes of a block as a list. -/
theorem rd_toBytes {n : Nat} (b : Block n) : (fun i => (toBytes b).getD i 0) = ParityBytes.rd b := by
  funext i
  unfold toBytes ParityBytes.rd
  rw [List.getD_eq_getElem?_getD]
  by_cases h : i < n
  · rw [List.getElem?_ofFn, dif_pos h, dif_pos h, Option.getD_some]
  · rw [List.getElem?_ofFn, dif_neg h, dif_neg h, Option.getD_none]

/-- Strings of at least 32 bytes. -/
theorem code_long {R : Aez.Block → Aez.Block} (junk : Nat → UInt8) (k : Bytes) {n : Nat} (h32 : 32 ≤ n) (hn : n ≤ 4294967295) :
    ∃ π : Perm (Block n), sign π = 1 ∧ ∀ b, codeString R junk k (false, toBytes b) = toBytes (π b) := by
  obtain ⟨c, hc⟩ : ∃ c, Aez.mkPrp true (some k) = .ok c := ⟨_, by simp only [Aez.mkPrp]; rfl⟩
  obtain ⟨t, ht⟩ := Aez.hash_ok R c
  obtain ⟨π, h1, h2⟩ := Long.exists_even R c t false h32
  refine ⟨π, h1, fun b => ?_⟩
  have hl : (toBytes b).length = n := toBytes_len b
  obtain ⟨r, e, el, ho⟩ := Aez.prpString_ok R c t ht junk false (toBytes b) (by omega)
  unfold codeString
  rw [hc]
  simp only [e]
  rw [hl] at el ho
  refine Aez.list_ext_getD (el.trans (toBytes_len _).symm) fun i hi => ?_
  rw [toBytes_len] at hi
  unfold Aez.Out at ho
  rw [if_neg (by omega)] at ho
  have e1 := ho i hi
  beta_reduce at e1
  rw [e1, rd_toBytes, ← Long.steps_core R c t false h32 _ i hi, ← h2, ← rd_toBytes]

include hr in
/-- C116: the code encrypts the strings of each length with a permutation. -/
theorem c116_exists (junk : Nat → UInt8) {k : Bytes} (hk : k.length = 48) {n : Nat} (h1 : 1 ≤ n) (hn : n ≤ 4294967295) :
    ∃ π, Encrypts (codeString R junk k) n π := by
  by_cases h : n < 33
  · exact ⟨_, code_table hr junk hk h1 h⟩
  · obtain ⟨π, -, h'⟩ := code_long (R := R) junk k (n := n) (by omega) hn
    exact ⟨π, h'⟩

include hr in
/-- C116, negated for strings of 16 bytes or more: the permutation is even, whatever the key. -/
theorem c116_even (junk : Nat → UInt8) {k : Bytes} (hk : k.length = 48) {n : Nat} (h16 : 16 ≤ n) (hn : n ≤ 4294967295) {π : Perm (Block n)}
    (h : Encrypts (codeString R junk k) n π) : parity π = 1 := by
  by_cases h' : n < 33
  · rw [unique h (code_table hr junk hk (by omega) h'), parity, sign_strPerm, sign_long _ _ h16]
    rfl
  · obtain ⟨σ, h1, h2⟩ := code_long (R := R) junk k (n := n) (by omega) hn
    rw [unique h h2, parity, h1]
    rfl

include hr in
/-- C116 for strings of 1 to 15 bytes: the parity is that of the number of the strings of 8 `n` - 1 bits, padded to a block whose first bit is 1, for which
the fourth keyed function of AEZ gives a block that begins with 1. -/
theorem c116_parity_partial (junk : Nat → UInt8) {k : Bytes} (hk : k.length = 48) {n : Nat} (h1 : 1 ≤ n) (hn : n < 16) {π : Perm (Block n)}
    (h : Encrypts (codeString R junk k) n π) :
    parity π = ∏ z : Fin (2 ^ (8 * n - 1)), if top (AezSpec.E0 r (AezSpec.key k) 3
      (AezSpec.delta r (AezSpec.key k) ^^^ (z.1 * 2 ^ (128 - 8 * n) ||| 2 ^ 127))) then -1 else 1 := by
  rw [parity_table _ h1 hn (unique h (code_table hr junk hk h1 (by omega)))]
  refine Finset.prod_congr rfl fun z _ => ?_
  rw [← look_tableOf (round_lt hr) k _ (show 3 < 12 by decide) (point_lt'' h1 hn z)]
  rfl

end

theorem E_zero_of_neg {α : Type} [Fintype α] {F G : α → ℚ} (h : E F = E G) (hG : ∀ a, G a = -F a) : E F = 0 := by
  have h0 : E F + E G = 0 := by
    rw [← E_add]
    have : (fun a => F a + G a) = fun _ => 0 := funext fun a => by rw [hG]; ring
    rw [this]
    unfold E
    rw [Finset.sum_const_zero, zero_div]
  linarith

/-- C116: uniform permutations are even and odd equally often. -/
theorem c116_uniform {n : Nat} (h1 : 1 ≤ n) : E (fun π : Perm (Block n) => parity π) = 0 := by
  let a : Block n := fun _ => 0
  let b : Block n := fun _ => 1
  have hab : a ≠ b := fun h => by
    have := congrFun h ⟨0, h1⟩
    revert this
    decide
  refine E_zero_of_neg (G := fun π => parity (swap a b * π)) (E_equiv (Equiv.mulLeft (swap a b)) parity).symm fun π => ?_
  unfold parity
  rw [sign_mul, sign_swap hab]
  push_cast
  ring

/-- The table with one bit changed. -/
def oneBit (a : Fin 12 × Fin (2 ^ 128)) : Nat := if a.1.1 = 3 ∧ a.2.1 = 2 ^ 127 then 2 ^ 127 else 0

theorem oneBit_lt (a : Fin 12 × Fin (2 ^ 128)) : oneBit a < 2 ^ 128 := by
  unfold oneBit
  split
  · exact Nat.pow_lt_pow_right (by decide) (by decide)
  · exact Nat.two_pow_pos _

theorem look_oneBit (ρ : Table) {x : Nat} (hx : x < 2 ^ 128) :
    look (shifted oneBit oneBit_lt ρ) (3, x) = look ρ (3, x) ^^^ if x = 2 ^ 127 then 2 ^ 127 else 0 := by
  unfold look shifted
  refine congrArg₂ (fun x y : Nat => x ^^^ y) rfl ?_
  unfold oneBit
  simp only [Nat.mod_eq_of_lt hx, Nat.reduceMod, true_and]

theorem top_change (x : Nat) : top (x ^^^ 2 ^ 127) = !top x := by
  unfold top
  rw [Nat.testBit_xor, Nat.testBit_two_pow_self, Bool.xor_true]

/-- A product of signs of which one is changed. -/
theorem prod_change {α : Type} [Fintype α] [DecidableEq α] {b b' : α → Bool} (o : α) (h : b' o = !b o) (h' : ∀ z, z ≠ o → b' z = b z) :
    (∏ z, if b' z then (-1 : ℚ) else 1) = -∏ z, if b z then (-1 : ℚ) else 1 := by
  rw [← Finset.mul_prod_erase _ _ (Finset.mem_univ o), ← Finset.mul_prod_erase Finset.univ (fun z => if b z then (-1 : ℚ) else 1) (Finset.mem_univ o),
    ← neg_mul]
  refine congrArg₂ (fun x y : ℚ => x * y) ?_ (Finset.prod_congr rfl fun z hz => ?_)
  · rw [h]
    cases b o <;> simp
  · rw [h' z (Finset.ne_of_mem_erase hz)]

/-- C116: with uniform functions in the place of the keyed ones, the permutation of the strings of 1 to 15 bytes is even and odd equally often. -/
theorem c116_random_partial {n : Nat} (h1 : 1 ≤ n) (hn : n < 16) {π : Table → Perm (Block n)} (h : ∀ ρ, Encrypts (cipherT (look ρ)) n (π ρ)) :
    E (fun ρ => parity (π ρ)) = 0 := by
  have hs := fun ρ => parity_table ρ h1 hn (unique (h ρ) fun b => (strPerm_apply ρ h1 (by omega) b).symm)
  refine E_zero_of_neg (E_shifted oneBit oneBit_lt fun ρ => parity (π ρ)).symm fun ρ => ?_
  rw [hs, hs]
  refine prod_change (⟨0, Nat.two_pow_pos _⟩ : Fin (2 ^ (8 * n - 1))) ?_ fun z hz => ?_
  · rw [look_oneBit ρ (point_lt'' h1 hn _), if_pos ((point_first h1 hn _).2 rfl), top_change]
  · rw [look_oneBit ρ (point_lt'' h1 hn _), if_neg (fun e => hz (Fin.ext ((point_first h1 hn z).1 e))), Nat.xor_zero]

/-! ## Examples -/

/-- A key. -/
def exKey : Bytes := List.replicate 48 7

example : ∃ π, Encrypts (codeString Aez.toyR (fun _ => 9) exKey) 20 π ∧ parity π = 1 :=
  (c116_exists (Aez.roundNat_eq Aez.toyR) _ (by decide) (by decide) (by decide)).imp fun _ h =>
    ⟨h, c116_even (Aez.roundNat_eq Aez.toyR) _ (by decide) (by decide) (by decide) h⟩

/-- 100 bytes: two pairs of blocks, a fragment of 4 bytes and the last two blocks. -/
example : ∃ π, Encrypts (codeString Aez.toyR (fun _ => 9) exKey) 100 π ∧ parity π = 1 :=
  (c116_exists (Aez.roundNat_eq Aez.toyR) _ (by decide) (by decide) (by decide)).imp fun _ h =>
    ⟨h, c116_even (Aez.roundNat_eq Aez.toyR) _ (by decide) (by decide) (by decide) h⟩

/-- All strings of 16 bytes under all keys: 1 against 0. -/
example {π : Block 48 → Perm (Block 16)} (h : ∀ k, Encrypts (codeString Aez.toyR (fun _ => 9) (toBytes k)) 16 (π k)) :
    E (fun k => parity (π k)) - E (fun σ : Perm (Block 16) => parity σ) = 1 := by
  have : ∀ k, parity (π k) = 1 := fun k => c116_even (Aez.roundNat_eq Aez.toyR) _ (toBytes_len k) (by decide) (by decide) (h k)
  simp only [this, E_const, c116_uniform (n := 16) (by decide), sub_zero]

example : ∃ π : Table → Perm (Block 5), (∀ ρ, Encrypts (cipherT (look ρ)) 5 (π ρ)) ∧ E (fun ρ => parity (π ρ)) = 0 :=
  ⟨fun ρ => strPerm ρ (by decide) (by decide), fun ρ b => (strPerm_apply ρ _ _ b).symm,
    c116_random_partial (by decide) (by decide) fun ρ b => (strPerm_apply ρ _ _ b).symm⟩

/-- A single byte: there are 128 points. -/
example {π : Perm (Block 1)} (h : Encrypts (codeString Aez.toyR (fun _ => 9) exKey) 1 π) :
    parity π = ∏ z : Fin (2 ^ 7), if top (AezSpec.E0 (Aez.roundNat Aez.toyR) (AezSpec.key exKey) 3
      (AezSpec.delta (Aez.roundNat Aez.toyR) (AezSpec.key exKey) ^^^ (z.1 * 2 ^ 120 ||| 2 ^ 127))) then -1 else 1 :=
  c116_parity_partial (Aez.roundNat_eq Aez.toyR) _ (by decide) (by decide) (by decide) h

end Verif.AezParity
