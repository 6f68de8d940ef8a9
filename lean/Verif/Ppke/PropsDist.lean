import Verif.Ppke.Props
import Verif.Oracle
import Mathlib.Data.Nat.Size

/-!
# C92: the distribution of random and pseudorandom scalars
-/

namespace Verif.Ppke

open Verif Verif.Avg Verif.Oracle

variable {G1 G2 GT : Type} (G : Grp G1 G2 GT)

/-- What `randomZR` returns when `bn_rand(tt, RLC_POS, bn_bits(order))` draws `x`, and what it should return. -/
theorem randomZR_nat (x : Nat) : randomZR G x = ((x % G.r : Nat) : Int) := by
  unfold randomZR
  norm_cast

theorem mod_once {n r : Nat} (h1 : r ≤ n) (h2 : n ≤ 2 * r) (h0 : 0 < r) :
    ((n % r : Nat) * (r - (n % r : Nat)) : ℚ) = (n - r) * (2 * r - n) := by
  rcases Nat.lt_or_ge n (2 * r) with h | h
  · have e : n % r = n - r := by rw [Nat.mod_eq_sub_mod h1, Nat.mod_eq_of_lt (by omega)]
    rw [e, Nat.cast_sub h1]
    ring
  · have e : n = 2 * r := by omega
    subst e
    rw [Nat.mul_mod_left]
    push_cast
    ring

/-- **C92**: the scalar of `randomZR`, made of `n = bn_bits(order)` uniform bits, is at distance exactly `(2 ^ n - r) (2 r - 2 ^ n) / (2 ^ n r)` from a
uniform scalar. -/
theorem c92_random_exact (h0 : 0 < G.r) :
    (∀ f : Int → ℚ, Test f → |E (fun x : Fin (2 ^ Nat.size G.r) => f (randomZR G x)) - E (fun y : Fin G.r => f (y : Nat))|
      ≤ ((2 ^ Nat.size G.r - G.r) * (2 * G.r - 2 ^ Nat.size G.r) / (2 ^ Nat.size G.r * G.r) : ℚ)) ∧
    ∃ f : Int → ℚ, Test f ∧ E (fun x : Fin (2 ^ Nat.size G.r) => f (randomZR G x)) - E (fun y : Fin G.r => f (y : Nat))
      = ((2 ^ Nat.size G.r - G.r) * (2 * G.r - 2 ^ Nat.size G.r) / (2 ^ Nat.size G.r * G.r) : ℚ) := by
  have hM : (0 : Nat) < 2 ^ Nat.size G.r := Nat.two_pow_pos _
  have h1 : G.r ≤ 2 ^ Nat.size G.r := (Nat.lt_size_self G.r).le
  have h2 : 2 ^ Nat.size G.r ≤ 2 * G.r := by
    have hs : 0 < Nat.size G.r := Nat.size_pos.2 h0
    have : 2 ^ (Nat.size G.r - 1) ≤ G.r := Nat.lt_size.1 (by omega)
    have e : 2 ^ Nat.size G.r = 2 * 2 ^ (Nat.size G.r - 1) := by rw [← pow_succ', Nat.sub_add_cancel hs]
    omega
  have hd := mod_once h1 h2 h0
  have el : ∀ f : Int → ℚ, E (fun x : Fin (2 ^ Nat.size G.r) => f (randomZR G x)) = flat (2 ^ Nat.size G.r) (fun x => (fun y : Nat => f (y : Int)) (x % G.r)) := by
    intro f
    rw [← E_fin]
    exact congrArg E (funext fun x => congrArg f (randomZR_nat G x))
  have er : ∀ f : Int → ℚ, E (fun y : Fin G.r => f (y : Nat)) = flat G.r (fun y : Nat => f (y : Int)) := fun f =>
    E_fin G.r (fun y : Nat => f (y : Int))
  push_cast at hd
  constructor
  · intro f hf
    rw [el, er]
    have := mod_close h0 hM (f := fun y : Nat => f (y : Int)) fun y => hf _
    push_cast at this
    rw [hd] at this
    exact this
  · refine ⟨fun z => low (2 ^ Nat.size G.r % G.r) z.toNat, fun z => low_test _ _, ?_⟩
    rw [el fun z => low (2 ^ Nat.size G.r % G.r) z.toNat, er fun z => low (2 ^ Nat.size G.r % G.r) z.toNat]
    have := mod_far h0 hM
    push_cast at this
    rw [hd] at this
    simp only [Int.toNat_natCast]
    exact this

/-- The order of the groups of the curve `BN_P254` of RELIC, which `-DFP_PRIME=254` (`install_dependencies/install_relic_easy.sh`) selects. -/
def order254 : Nat := 0x2523648240000001BA344D8000000007FF9F800000000010A10000000000000D

theorem size254 : Nat.size order254 = 254 := by
  apply le_antisymm
  · exact Nat.size_le.2 (by decide +kernel)
  · exact Nat.lt_size.2 (by decide +kernel)

/-- **C92**, false: random scalars are not close to uniform; on the curve that the library is built with, a test tells them from uniform scalars with
advantage more than 11 %. -/
theorem c92_random_false (hr : G.r = order254) :
    ∃ f : Int → ℚ, Test f ∧ E (fun x : Fin (2 ^ Nat.size G.r) => f (randomZR G x)) - E (fun y : Fin G.r => f (y : Nat)) > 11 / 100 := by
  obtain ⟨f, f1, f2⟩ := (c92_random_exact G (by rw [hr]; decide)).2
  refine ⟨f, f1, ?_⟩
  rw [f2, hr, size254, gt_iff_lt, lt_div_iff₀ (by unfold order254; norm_num)]
  unfold order254
  norm_num

/-- The number of bytes of the PRF of scalars: `kPrfOutputSize`, relic_api.h 658-660, with `RELIC_BN_BYTES` = 32 (`-DBN_PRECI=256`). -/
def prfSize : Nat := 32 + 32 / 8

/-- **C92**: pseudorandom scalars are within `q / 2 ^ 34` of independent uniform ones for an attack that asks for `q` of them, plus its advantage against
the PRF. -/
theorem c92_pseudorandom {m : Nat} (F : Bytes → Bytes → Bytes) (h0 : 0 < G.r) (h2 : G.r < 2 ^ 256) {q : Nat} {A : Att Bytes Int} (hA : AtMost q A) :
    |E (fun k : Block m => play (pseudoRandomZR G (F (toBytes k))) A) - fresh (fun y : Fin G.r => ((y : Nat) : Int)) [] A|
      ≤ advPrf (m := m) F prfSize (through (fun b => (beNat b : Int) % G.r) A) + q / 2 ^ 34 := by
  have hne : Nonempty (Fin G.r) := ⟨⟨0, h0⟩⟩
  have hM : (0 : Nat) < 256 ^ prfSize := Nat.pow_pos (by norm_num)
  rw [← mul_one_div]
  refine prf_close (m := m) F (f := fun b => (beNat b : Int) % G.r) (v := fun y : Fin G.r => ((y : Nat) : Int)) (by positivity) (fun t ht => ?_) hA
  have e : E (fun b : Block prfSize => t ((fun b => (beNat b : Int) % G.r) (toBytes b)))
      = flat (256 ^ prfSize) (fun x => (fun y : Nat => t (y : Int)) (x % G.r)) := by
    rw [← E_number]
    exact congrArg E (funext fun b => congrArg t (by norm_cast))
  rw [e, E_fin G.r (fun y : Nat => t (y : Int))]
  refine le_trans (mod_close h0 hM (f := fun y : Nat => t (y : Int)) fun y => ht _) (le_trans (dist_le h0 hM) ?_)
  have h : (G.r : ℚ) ≤ 2 ^ 256 := by exact_mod_cast h2.le
  rw [div_le_div_iff₀ (by positivity) (by positivity)]
  have e4 : (4 : ℚ) * ((256 ^ prfSize : Nat) : ℚ) = 2 ^ 256 * 2 ^ 34 := by unfold prfSize; norm_num
  rw [e4, one_mul]
  exact mul_le_mul_of_nonneg_right h (by positivity)

/-! Examples: a prime order of 8 bits, and an attack that compares two scalars. -/

def compare : Att Bytes Int := .ask [1] fun x => .ask [2] fun y => .done (x == y)

theorem compare_two : AtMost 2 compare := .ask fun _ => .ask fun _ => .done _

example (F : Bytes → Bytes → Bytes) := c92_pseudorandom (m := 32) toy F (by decide) (by decide) compare_two
example := c92_random_false { toy with r := order254 } rfl

/-- With the order 251 of 8 bits the distance is `5 * 246 / (256 * 251)`. -/
example : ∃ f : Int → ℚ, Test f ∧ E (fun x : Fin (2 ^ Nat.size toy.r) => f (randomZR toy x)) - E (fun y : Fin toy.r => f (y : Nat)) = 5 * 246 / (256 * 251) := by
  obtain ⟨f, f1, f2⟩ := (c92_random_exact toy (by decide)).2
  refine ⟨f, f1, ?_⟩
  rw [f2, show Nat.size toy.r = 8 from le_antisymm (Nat.size_le.2 (by decide)) (Nat.lt_size.2 (by decide)), show toy.r = 251 from rfl]
  norm_num

end Verif.Ppke
