import Verif.Aez.Model

/-! Lemmas about blocks, loads and stores, and the loops. -/

namespace Verif.Aez

open Verif

theorem bx_comm (a b : Block) : bx a b = bx b a := by
  funext i; exact UInt8.xor_comm _ _

theorem bx_assoc (a b c : Block) : bx (bx a b) c = bx a (bx b c) := by
  funext i; exact UInt8.xor_assoc _ _ _

theorem bx_left_comm (a b c : Block) : bx a (bx b c) = bx b (bx a c) := by
  rw [← bx_assoc, bx_comm a b, bx_assoc]

@[simp] theorem bx_self (a : Block) : bx a a = bzero := by
  funext i; exact UInt8.xor_self

@[simp] theorem bx_zero (a : Block) : bx a bzero = a := by
  funext i; exact UInt8.xor_zero

@[simp] theorem zero_bx (a : Block) : bx bzero a = a := by
  rw [bx_comm]; exact bx_zero a

@[simp] theorem bx_cancel (a b : Block) : bx a (bx a b) = b := by
  rw [← bx_assoc, bx_self, zero_bx]

@[simp] theorem bx_cancel_right (a b : Block) : bx (bx a b) b = a := by
  rw [bx_assoc, bx_self, bx_zero]

section
variable (R : Block → Block)

/-- The function `aes4(·, J, I, L, 0)`. -/
def F (c : Ctx) (x : Block) : Block := aes4 R x c.J0 c.I0 c.L bzero

theorem aes4_eq (c : Ctx) (x v : Block) : aes4 R x c.J0 c.I0 c.L v = bx (F R c x) v := by
  simp [F, aes4, aesenc]

/-! ## Memory -/

theorem ld_ok {b : Buf} {off : Nat} (h : off + 16 ≤ b.size) : ld b off = .ok (blk b.data off) := by
  simp [ld, h]

/-- The data after a store. -/
def put (f : Nat → UInt8) (off : Nat) (x : Block) : Nat → UInt8 :=
  fun i => if h : off ≤ i ∧ i < off + 16 then x ⟨i - off, by omega⟩ else f i

theorem st_ok {b : Buf} {off : Nat} (x : Block) (h : off + 16 ≤ b.size) : st b off x = .ok ⟨b.size, put b.data off x⟩ := by
  simp only [st, h, if_true]; rfl

theorem blk_put_same (f : Nat → UInt8) (off : Nat) (x : Block) : blk (put f off x) off = x := by
  funext i
  have := i.2
  simp only [blk, put]
  rw [dif_pos ⟨by omega, by omega⟩]
  congr 1
  apply Fin.ext; simp

theorem put_other {f : Nat → UInt8} {off : Nat} {x : Block} {i : Nat} (h : i < off ∨ off + 16 ≤ i) : put f off x i = f i := by
  simp only [put]; rw [dif_neg (by omega)]

theorem blk_congr {f g : Nat → UInt8} {off : Nat} (h : ∀ i, off ≤ i → i < off + 16 → f i = g i) : blk f off = blk g off := by
  funext i
  exact h _ (by omega) (by omega)

theorem blk_put_other {f : Nat → UInt8} {off off' : Nat} {x : Block} (h : off' + 16 ≤ off ∨ off + 16 ≤ off') :
    blk (put f off x) off' = blk f off' :=
  blk_congr fun _ _ _ => put_other (by omega)

/-! ## Loops -/

theorem loopN_inv {σ : Type} (f : Nat → σ → Res σ) (P : Nat → σ → Prop) (n : Nat) (s : σ) (h0 : P 0 s)
    (hs : ∀ k, k < n → ∀ s, P k s → ∃ s', f k s = .ok s' ∧ P (k + 1) s') : ∃ s', loopN f n s = .ok s' ∧ P n s' := by
  induction n with
  | zero => exact ⟨s, rfl, h0⟩
  | succ n ih =>
    obtain ⟨s1, e1, p1⟩ := ih fun k hk => hs k (by omega)
    obtain ⟨s2, e2, p2⟩ := hs n (by omega) s1 p1
    exact ⟨s2, by rw [loopN, e1]; exact e2, p2⟩

/-- Exclusive or of `f 0` … `f (n-1)`. -/
def xsum (f : Nat → Block) : Nat → Block
  | 0 => bzero
  | n + 1 => bx (xsum f n) (f n)

theorem xsum_congr {f g : Nat → Block} (n : Nat) (h : ∀ k, k < n → f k = g k) : xsum f n = xsum g n := by
  induction n with
  | zero => rfl
  | succ n ih => rw [xsum, xsum, ih fun k hk => h k (by omega), h n (by omega)]

theorem xsum_add (f : Nat → Block) (m n : Nat) : xsum f (m + n) = bx (xsum f m) (xsum (fun k => f (m + k)) n) := by
  induction n with
  | zero => simp [xsum]
  | succ n ih => rw [← Nat.add_assoc, xsum, ih, xsum, bx_assoc]

end

end Verif.Aez
