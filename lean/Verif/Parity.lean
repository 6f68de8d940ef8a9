import Mathlib.GroupTheory.Perm.Sign
import Mathlib.Tactic.Linarith
import Mathlib.Tactic.Ring

/-!
# Feistel networks are even permutations

Nothing in this file speaks of the code.
-/

namespace Verif.Parity

open Equiv Equiv.Perm

variable {h : Nat}

def xr (a b : Fin (2 ^ h)) : Fin (2 ^ h) := ⟨a.1 ^^^ b.1, Nat.xor_lt_two_pow a.2 b.2⟩

/-- Adding `c`. -/
def add (c : Fin (2 ^ h)) : Perm (Fin (2 ^ h)) where
  toFun a := xr a c
  invFun a := xr a c
  left_inv a := Fin.ext (by show a.1 ^^^ c.1 ^^^ c.1 = a.1; rw [Nat.xor_assoc, Nat.xor_self, Nat.xor_zero])
  right_inv a := Fin.ext (by show a.1 ^^^ c.1 ^^^ c.1 = a.1; rw [Nat.xor_assoc, Nat.xor_self, Nat.xor_zero])

theorem add_clear {c : Fin (2 ^ h)} {j : Nat} (hj : j < h) (hc : c.1.testBit j = false) : sign (add c) = 1 := by
  have hp : 2 ^ j < 2 ^ h := Nat.pow_lt_pow_right (by decide) hj
  let g : Fin (2 ^ h) → Fin (2 ^ h) := fun a => if a.1.testBit j then xr (xr a ⟨2 ^ j, hp⟩) c else xr a ⟨2 ^ j, hp⟩
  have hg : ∀ a, g (g a) = add c a := by
    intro a
    by_cases ha : a.1.testBit j = true
    · have e1 : g a = xr (xr a ⟨2 ^ j, hp⟩) c := if_pos ha
      have e2 : (xr (xr a ⟨2 ^ j, hp⟩) c).1.testBit j = false := by
        show (a.1 ^^^ 2 ^ j ^^^ c.1).testBit j = false
        rw [Nat.testBit_xor, Nat.testBit_xor, Nat.testBit_two_pow_self, ha, hc]; rfl
      rw [e1]
      show (if _ then _ else _) = _
      rw [if_neg (by rw [e2]; decide)]
      refine Fin.ext ?_
      show a.1 ^^^ 2 ^ j ^^^ c.1 ^^^ 2 ^ j = a.1 ^^^ c.1
      rw [Nat.xor_assoc, Nat.xor_assoc, Nat.xor_comm c.1, ← Nat.xor_assoc (2 ^ j), Nat.xor_self, Nat.zero_xor]
    · have ha' : a.1.testBit j = false := by simpa using ha
      have e1 : g a = xr a ⟨2 ^ j, hp⟩ := if_neg ha
      have e2 : (xr a ⟨2 ^ j, hp⟩).1.testBit j = true := by
        show (a.1 ^^^ 2 ^ j).testBit j = true
        rw [Nat.testBit_xor, Nat.testBit_two_pow_self, ha']; rfl
      rw [e1]
      show (if _ then _ else _) = _
      rw [if_pos e2]
      refine Fin.ext ?_
      show a.1 ^^^ 2 ^ j ^^^ 2 ^ j ^^^ c.1 = a.1 ^^^ c.1
      rw [Nat.xor_assoc a.1, Nat.xor_self, Nat.xor_zero]
  have hb : Function.Bijective g := by
    refine ⟨fun a b e => ?_, fun b => ⟨g ((add c).symm b), by rw [hg, Equiv.apply_symm_apply]⟩⟩
    have := congrArg g e
    rw [hg, hg] at this
    exact (add c).injective this
  have : add c = ofBijective g hb * ofBijective g hb := Equiv.ext fun a => (hg a).symm
  rw [this, sign_mul]
  exact Int.units_mul_self _

theorem add_even (hh : 2 ≤ h) (c : Fin (2 ^ h)) : sign (add c) = 1 := by
  have h4 : 2 ^ 2 ≤ 2 ^ h := Nat.pow_le_pow_right (by decide) hh
  let a : Fin (2 ^ h) := ⟨c.1 % 2, by omega⟩
  let b : Fin (2 ^ h) := ⟨2 * (c.1 / 2), by have := c.2; omega⟩
  have ha : a.1.testBit 1 = false := by
    show (c.1 % 2).testBit 1 = false
    exact Nat.testBit_lt_two_pow (by omega)
  have hb : b.1.testBit 0 = false := by
    show (2 * (c.1 / 2)).testBit 0 = false
    rw [Nat.testBit_zero]
    simp
  have e : add c = add a * add b := by
    refine Equiv.ext fun x => Fin.ext ?_
    show x.1 ^^^ c.1 = x.1 ^^^ 2 * (c.1 / 2) ^^^ c.1 % 2
    have : 2 * (c.1 / 2) ^^^ c.1 % 2 = c.1 := by
      apply Nat.eq_of_testBit_eq
      intro k
      rw [Nat.testBit_xor]
      cases k with
      | zero => simp
      | succ k =>
        rw [Nat.testBit_succ, Nat.testBit_succ, Nat.mul_div_cancel_left _ (by decide : 0 < 2), show c.1 % 2 / 2 = 0 by omega, Nat.zero_testBit, Bool.xor_false,
          Nat.testBit_succ]
    rw [Nat.xor_assoc, this]
  rw [e, sign_mul, add_clear (by omega) ha, add_clear (by omega) hb, mul_one]

/-- Adding a function of the right half to the left half, and the other way round. -/
def left (f : Fin (2 ^ h) → Fin (2 ^ h)) : Perm (Fin (2 ^ h) × Fin (2 ^ h)) := prodCongrLeft fun b => add (f b)
def right (f : Fin (2 ^ h) → Fin (2 ^ h)) : Perm (Fin (2 ^ h) × Fin (2 ^ h)) := prodCongrRight fun a => add (f a)

theorem left_even (hh : 2 ≤ h) (f : Fin (2 ^ h) → Fin (2 ^ h)) : sign (left f) = 1 := by
  unfold left
  rw [sign_prodCongrLeft]
  exact Finset.prod_eq_one fun b _ => add_even hh _

theorem right_even (hh : 2 ≤ h) (f : Fin (2 ^ h) → Fin (2 ^ h)) : sign (right f) = 1 := by
  unfold right
  rw [sign_prodCongrRight]
  exact Finset.prod_eq_one fun b _ => add_even hh _

/-- Exchanging the halves. -/
def exch : Perm (Fin (2 ^ h) × Fin (2 ^ h)) := prodComm _ _

theorem exch_even (hh : 2 ≤ h) : sign (exch (h := h)) = 1 := by
  have e : exch (h := h) = right id * left id * right id := by
    refine Equiv.ext fun p => ?_
    obtain ⟨a, b⟩ := p
    show (b, a) = (xr a (xr b a), xr (xr b a) (xr a (xr b a)))
    have e1 : xr a (xr b a) = b := Fin.ext (by
      show a.1 ^^^ (b.1 ^^^ a.1) = b.1
      rw [Nat.xor_comm b.1, ← Nat.xor_assoc, Nat.xor_self, Nat.zero_xor])
    have e2 : xr (xr b a) b = a := Fin.ext (by
      show b.1 ^^^ a.1 ^^^ b.1 = a.1
      rw [Nat.xor_comm b.1, Nat.xor_assoc, Nat.xor_self, Nat.xor_zero])
    rw [e1, e2]
  rw [e, sign_mul, sign_mul, left_even hh, right_even hh, mul_one, mul_one]

/-- One round. -/
def round (f : Fin (2 ^ h) → Fin (2 ^ h)) : Perm (Fin (2 ^ h) × Fin (2 ^ h)) := exch * left f

theorem round_apply (f : Fin (2 ^ h) → Fin (2 ^ h)) (p : Fin (2 ^ h) × Fin (2 ^ h)) : round f p = (p.2, xr p.1 (f p.2)) := rfl

/-- Several rounds, the first one first. -/
def network : List (Fin (2 ^ h) → Fin (2 ^ h)) → Perm (Fin (2 ^ h) × Fin (2 ^ h))
  | [] => 1
  | f :: l => network l * round f

/-- A Feistel network with halves of at least two bits is even. -/
theorem network_even (hh : 2 ≤ h) : ∀ l : List (Fin (2 ^ h) → Fin (2 ^ h)), sign (network l) = 1
  | [] => sign_one
  | f :: l => by
    rw [network, sign_mul, network_even hh l, round, sign_mul, exch_even hh, left_even hh, mul_one, mul_one]

/-- Exchanging the two elements of the pairs with `b`. -/
def flips {N : Nat} (b : Fin N → Bool) : Perm (Fin 2 × Fin N) := prodCongrLeft fun z => if b z then swap 0 1 else 1

theorem flips_apply {N : Nat} (b : Fin N → Bool) (t : Fin 2) (z : Fin N) : flips b (t, z) = ((if b z then swap 0 1 else 1 : Perm (Fin 2)) t, z) := rfl

theorem flips_sign {N : Nat} (b : Fin N → Bool) : sign (flips b) = ∏ z, if b z then -1 else 1 := by
  unfold flips
  rw [sign_prodCongrLeft]
  refine Finset.prod_congr rfl fun z _ => ?_
  by_cases h : b z = true
  · rw [if_pos h, if_pos h]
    exact sign_swap (by decide)
  · rw [if_neg h, if_neg h, sign_one]

end Verif.Parity
