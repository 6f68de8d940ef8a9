import Verif.Aez.Field
import Verif.Aez.SpecMasked

/-!
# The offsets differ

As multiples of a block that is not 0 the offsets of different keyed functions with the same AES rounds differ, up to 1000 pairs.
-/

namespace Verif.AezMask

open Verif Verif.AezWide

/-- The offset as a multiple. -/
def mk (t v : Nat) : Nat := if t < 8 then AezSpec.times t v else if t < 16 then AezSpec.times (t - 8) v else AezSpec.off v ((t - 16) / 2)

theorem offset_mk (k : AezSpec.Key) (t : Nat) : offset k t = mk t (if 8 ≤ t ∧ t < 16 then k.J else k.I) := by
  unfold offset mk
  by_cases h1 : t < 8
  · rw [if_pos h1, if_pos h1, if_neg (by omega)]
  · by_cases h2 : t < 16
    · rw [if_neg h1, if_neg h1, if_pos h2, if_pos h2, if_pos ⟨by omega, h2⟩]
    · rw [if_neg h1, if_neg h1, if_neg h2, if_neg h2, if_neg (by omega)]

theorem times_lin (n v : Nat) : AezSpec.times n v = lin 3 v n := by
  unfold AezSpec.times lin lin lin lin
  rw [Nat.xor_zero, Nat.xor_assoc, Nat.div_div_eq_div_mul]

theorem lin_left {a b : Nat} (ha : a < 2 ^ 128) (hb : b < 2 ^ 128) : ∀ n c, lin n (a ^^^ b) c = lin n a c ^^^ lin n b c := by
  intro n
  induction n generalizing a b with
  | zero => intro c; unfold lin; exact (Nat.xor_self 0).symm
  | succ n ih =>
    intro c
    unfold lin
    rw [double_xor ha hb, ih (double_lt ha) (double_lt hb)]
    generalize lin n (AezSpec.double a) (c / 2) = P
    generalize lin n (AezSpec.double b) (c / 2) = Q
    split
    · rw [Nat.xor_assoc, Nat.xor_assoc, xor_left b P]
    · rw [Nat.zero_xor, Nat.zero_xor, Nat.zero_xor]

theorem lin_twice {a : Nat} (ha : a < 2 ^ 128) : ∀ n c, lin n (AezSpec.double a) c = AezSpec.double (lin n a c) := by
  intro n
  induction n generalizing a with
  | zero => intro c; unfold lin; rfl
  | succ n ih =>
    intro c
    unfold lin
    rw [ih (double_lt ha), double_xor (by split; exacts [ha, Nat.two_pow_pos 128]) (lin_lt (double_lt ha) _ _)]
    congr 1
    split
    · rfl
    · rfl

theorem mk_lt {v : Nat} (h : v < 2 ^ 128) (t : Nat) : mk t v < 2 ^ 128 := by
  unfold mk AezSpec.off
  rw [times_lin, times_lin, times_lin]
  split
  · exact lin_lt h _ _
  · split
    · exact lin_lt h _ _
    · exact Nat.xor_lt_two_pow (shift_lt h _) (lin_lt h _ _)

theorem mk_xor {v w : Nat} (hv : v < 2 ^ 128) (hw : w < 2 ^ 128) (t : Nat) : mk t (v ^^^ w) = mk t v ^^^ mk t w := by
  unfold mk AezSpec.off
  rw [times_lin, times_lin, times_lin, times_lin, times_lin, times_lin, times_lin, times_lin, times_lin]
  rw [lin_left hv hw, lin_left hv hw, lin_left hv hw, shift_xor hv hw]
  split
  · rfl
  · split
    · rfl
    · rw [Nat.xor_assoc, Nat.xor_assoc, xor_left (AezSpec.shift _ w)]

theorem mk_double {v : Nat} (hv : v < 2 ^ 128) (t : Nat) : mk t (AezSpec.double v) = AezSpec.double (mk t v) := by
  unfold mk AezSpec.off
  rw [times_lin, times_lin, times_lin, times_lin, times_lin, times_lin]
  rw [lin_twice hv, lin_twice hv, lin_twice hv, shift_double]
  split
  · rfl
  · split
    · rfl
    · rw [double_xor (shift_lt hv _) (lin_lt hv _ _)]

theorem mk_shift {v : Nat} (hv : v < 2 ^ 128) (t : Nat) : ∀ e, mk t (AezSpec.shift e v) = AezSpec.shift e (mk t v)
  | 0 => rfl
  | e + 1 => by
    show mk t (AezSpec.double _) = AezSpec.double _
    rw [mk_double (shift_lt hv e), mk_shift hv t e]

theorem times_one : ∀ n < 8, AezSpec.times n 1 = n := by decide

theorem mk_one {t : Nat} (h : t ≤ 2017) :
    mk t 1 = if t < 8 then t else if t < 16 then t - 8 else 2 ^ (3 + ((t - 16) / 2 - 1) / 8) + ((t - 16) / 2 - 1) % 8 := by
  unfold mk
  by_cases h1 : t < 8
  · rw [if_pos h1, if_pos h1, times_one t h1]
  · by_cases h2 : t < 16
    · rw [if_neg h1, if_neg h1, if_pos h2, if_pos h2, times_one _ (by omega)]
    · rw [if_neg h1, if_neg h1, if_neg h2, if_neg h2]
      unfold AezSpec.off
      have hb : ((t - 16) / 2 - 1) % 8 < 8 := Nat.mod_lt _ (by norm_num)
      rw [shift_one _ (by omega), times_one _ hb]
      generalize ((t - 16) / 2 - 1) % 8 = b at hb
      generalize ((t - 16) / 2 - 1) / 8 = e
      have hlt : b < 2 ^ (3 + e) := lt_of_lt_of_le hb (by rw [pow_add]; have := Nat.one_le_two_pow (n := e); omega)
      have := split_top (n := 3 + e) (v := 2 ^ (3 + e) + b) (by omega) (by omega)
      rw [show 2 ^ (3 + e) + b - 2 ^ (3 + e) = b by omega] at this
      exact this.symm

/-- The functions that are used. -/
def Span (t : Nat) : Prop := t < 16 ∨ 18 ≤ t ∧ t ≤ 2017

theorem mk_one_inj {t t' : Nat} (h : Span t) (h' : Span t') (hw : which t = which t') (he : mk t 1 = mk t' 1) : t = t' := by
  unfold Span at h h'
  rw [mk_one (by omega), mk_one (by omega)] at he
  unfold which at hw
  have big : ∀ e b : Nat, b < 8 → 8 ≤ 2 ^ (3 + e) + b := fun e b _ => by
    rw [pow_add]
    have := Nat.one_le_two_pow (n := e)
    omega
  by_cases a1 : t < 8
  · rw [if_pos a1] at he hw
    by_cases b1 : t' < 8
    · rw [if_pos b1] at he
      exact he
    · rw [if_neg b1] at he hw
      by_cases b2 : t' < 16
      · rw [if_pos b2] at hw
        exact absurd hw (by decide)
      · rw [if_neg b2] at he
        have := big (((t' - 16) / 2 - 1) / 8) (((t' - 16) / 2 - 1) % 8) (Nat.mod_lt _ (by norm_num))
        omega
  · rw [if_neg a1] at he hw
    by_cases a2 : t < 16
    · rw [if_pos a2] at he hw
      by_cases b1 : t' < 8
      · rw [if_pos b1] at hw
        exact absurd hw (by decide)
      · rw [if_neg b1] at he hw
        by_cases b2 : t' < 16
        · rw [if_pos b2] at he
          omega
        · rw [if_neg b2] at hw
          split at hw <;> exact absurd hw (by decide)
    · rw [if_neg a2] at he hw
      by_cases b1 : t' < 8
      · rw [if_pos b1] at he
        have := big (((t - 16) / 2 - 1) / 8) (((t - 16) / 2 - 1) % 8) (Nat.mod_lt _ (by norm_num))
        omega
      · rw [if_neg b1] at he hw
        by_cases b2 : t' < 16
        · rw [if_pos b2] at hw
          split at hw <;> exact absurd hw (by decide)
        · rw [if_neg b2] at he hw
          have hpar : t % 2 = t' % 2 := by
            by_cases c : t % 2 = 0 <;> by_cases c' : t' % 2 = 0
            · omega
            · rw [if_pos c, if_neg c'] at hw; exact absurd hw (by decide)
            · rw [if_neg c, if_pos c'] at hw; exact absurd hw (by decide)
            · omega
          rw [pow_add, pow_add] at he
          have e1 : ((t - 16) / 2 - 1) % 8 = ((t' - 16) / 2 - 1) % 8 := by omega
          have e2 : 2 ^ (((t - 16) / 2 - 1) / 8) = 2 ^ (((t' - 16) / 2 - 1) / 8) := by omega
          have e3 := Nat.pow_right_injective le_rfl e2
          omega

theorem mk_inj {t t' v : Nat} (h : Span t) (h' : Span t') (hw : which t = which t') (hv : v < 2 ^ 128) (h0 : v ≠ 0) (he : mk t v = mk t' v) : t = t' := by
  obtain ⟨e, rfl⟩ := exists_shift h0 hv
  rw [mk_shift (by norm_num), mk_shift (by norm_num)] at he
  exact mk_one_inj h h' hw (shift_inj e (mk_lt (by norm_num) t) (mk_lt (by norm_num) t') he)

end Verif.AezMask
