import Verif.Parity
import Verif.Average
import Mathlib.Logic.Equiv.Fintype
import Mathlib.Logic.Equiv.Prod

/-!
# Changing some bytes by a function of the others is an even permutation

Nothing in this file speaks of the code.
-/

namespace Verif.ParityBytes

open Equiv Equiv.Perm Verif.Avg

/-- Bytes as numbers. -/
def num : Fin (2 ^ 8) ≃ UInt8 where
  toFun x := UInt8.ofNat x.1
  invFun x := ⟨x.toNat, x.toNat_lt⟩
  left_inv x := Fin.ext (by show (UInt8.ofNat x.1).toNat = x.1; rw [UInt8.toNat_ofNat']; exact Nat.mod_eq_of_lt x.2)
  right_inv x := UInt8.ofNat_toNat

theorem xor_twice (x c : UInt8) : x ^^^ c ^^^ c = x := by rw [UInt8.xor_assoc, UInt8.xor_self, UInt8.xor_zero]

/-- Adding `c` to a byte. -/
def xor8 (c : UInt8) : Perm UInt8 where
  toFun x := x ^^^ c
  invFun x := x ^^^ c
  left_inv x := xor_twice x c
  right_inv x := xor_twice x c

theorem xor8_even (c : UInt8) : sign (xor8 c) = 1 := by
  have e : xor8 c = num.permCongr (Parity.add (num.symm c)) := by
    refine Equiv.ext fun x => ?_
    rw [Equiv.permCongr_apply]
    show x ^^^ c = UInt8.ofNat (x.toNat ^^^ c.toNat)
    rw [← UInt8.toNat_xor, UInt8.ofNat_toNat]
  rw [e, sign_permCongr, Parity.add_even (by decide)]

variable {n : Nat}

/-- Adding to the byte `q` a function of the others. -/
def xorAt (q : Fin n) (g : Block n → UInt8) (hg : ∀ b x, g (Function.update b q x) = g b) : Perm (Block n) where
  toFun b := Function.update b q (b q ^^^ g b)
  invFun b := Function.update b q (b q ^^^ g b)
  left_inv b := by
    beta_reduce
    rw [hg, Function.update_idem, Function.update_self, xor_twice, Function.update_eq_self]
  right_inv b := by
    beta_reduce
    rw [hg, Function.update_idem, Function.update_self, xor_twice, Function.update_eq_self]

theorem xorAt_even (q : Fin n) (g : Block n → UInt8) (hg : ∀ b x, g (Function.update b q x) = g b) : sign (xorAt q g hg) = 1 := by
  let e := Equiv.funSplitAt q UInt8
  have h : xorAt q g hg = e.symm.permCongr (prodCongrLeft fun r => xor8 (g (e.symm (0, r)))) := by
    refine Equiv.ext fun b => ?_
    rw [Equiv.permCongr_apply, Equiv.eq_symm_apply]
    have hb : e.symm (0, fun j => b j) = Function.update b q 0 := by
      rw [Equiv.symm_apply_eq]
      refine Prod.ext ?_ (funext fun j => ?_)
      · show _ = Function.update b q 0 q
        rw [Function.update_self]
      · show _ = Function.update b q 0 j
        rw [Function.update_of_ne j.2]
    refine Prod.ext ?_ (funext fun j => ?_)
    · show Function.update b q _ q = b q ^^^ g (e.symm (0, fun j => b j))
      rw [hb, hg, Function.update_self]
    · show Function.update b q _ j = b j
      rw [Function.update_of_ne j.2]
  rw [h, sign_permCongr, sign_prodCongrLeft]
  exact Finset.prod_eq_one fun r _ => xor8_even _

/-- Adding `G` to the bytes at the positions `p`. -/
def stepF (p : Nat → Bool) (G : (Nat → UInt8) → Nat → UInt8) (P : Nat → UInt8) : Nat → UInt8 := fun i => if p i then P i ^^^ G P i else P i

/-- At the positions `p` the function `G` depends on the other positions only. -/
def Free (p : Nat → Bool) (G : (Nat → UInt8) → Nat → UInt8) : Prop :=
  ∀ P P' : Nat → UInt8, (∀ i, p i = false → P i = P' i) → ∀ i, p i = true → G P i = G P' i

/-- The bytes of a block, with zeros behind it. -/
def rd (b : Block n) : Nat → UInt8 := fun i => if h : i < n then b ⟨i, h⟩ else 0

theorem rd_at (b : Block n) (i : Fin n) : rd b i.1 = b i := dif_pos i.2

variable {p : Nat → Bool} {G : (Nat → UInt8) → Nat → UInt8}

theorem stepF_twice (hf : Free p G) (P : Nat → UInt8) : stepF p G (stepF p G P) = P := by
  funext i
  unfold stepF
  by_cases h : p i = true
  · simp only [h, if_true]
    rw [hf (fun i => if p i = true then P i ^^^ G P i else P i) P (fun j hj => by simp only [hj, Bool.false_eq_true, if_false]) i h, xor_twice]
  · simp only [h, Bool.false_eq_true, if_false]

theorem rd_stepF (hp : ∀ i, n ≤ i → p i = false) (b : Block n) : rd (fun i : Fin n => stepF p G (rd b) i.1) = stepF p G (rd b) := by
  funext i
  by_cases h : i < n
  · exact dif_pos h
  · unfold stepF
    rw [hp i (by omega)]
    simp only [Bool.false_eq_true, if_false]
    unfold rd
    rw [dif_neg h, dif_neg h]

/-- The step as a permutation. -/
def step (hf : Free p G) (hp : ∀ i, n ≤ i → p i = false) : Perm (Block n) :=
  Function.Involutive.toPerm (fun b i => stepF p G (rd b) i.1) fun b => by
    funext i
    beta_reduce
    rw [rd_stepF hp, stepF_twice hf, rd_at]

theorem rd_step (hf : Free p G) (hp : ∀ i, n ≤ i → p i = false) (b : Block n) : rd (step hf hp b) = stepF p G (rd b) := rd_stepF hp b

theorem step_at (hf : Free p G) (hp : ∀ i, n ≤ i → p i = false) (b : Block n) (i : Fin n) : step hf hp b i = stepF p G (rd b) i.1 := rfl

theorem free_sub {p' : Nat → Bool} (h : ∀ i, p' i = true → p i = true) (hf : Free p G) : Free p' G := fun P P' hP i hi =>
  hf P P' (fun j hj => hP j (by cases hj' : p' j with
    | false => rfl
    | true => rw [h j hj'] at hj; exact absurd hj (by decide))) i (h i hi)

/-- The positions below `k`. -/
def below (p : Nat → Bool) (k : Nat) (i : Nat) : Bool := p i && decide (i < k)

theorem below_sub (p : Nat → Bool) (k i : Nat) (h : below p k i = true) : p i = true := by
  unfold below at h
  rw [Bool.and_eq_true] at h
  exact h.1

theorem below_out (hp : ∀ i, n ≤ i → p i = false) (k : Nat) (i : Nat) (h : n ≤ i) : below p k i = false := by
  unfold below
  rw [hp i h, Bool.false_and]

theorem step_below (hf : Free p G) (hp : ∀ i, n ≤ i → p i = false) (k : Nat) (hk : k ≤ n) :
    sign (step (n := n) (free_sub (below_sub p k) hf) (below_out hp k)) = 1 := by
  induction k with
  | zero =>
    have : step (n := n) (free_sub (below_sub p 0) hf) (below_out hp 0) = 1 := by
      refine Equiv.ext fun b => funext fun i => ?_
      rw [step_at]
      unfold stepF below
      rw [if_neg (by simp), rd_at]
      rfl
    rw [this, sign_one]
  | succ k ih =>
    have hs : ∀ j, j ≠ k → below p (k + 1) j = below p k j := by
      intro j hj
      unfold below
      congr 1
      refine decide_eq_decide.2 ?_
      omega
    have h0 : below p k k = false := by unfold below; simp
    by_cases h : p k = true
    · have hg : ∀ (b : Block n) x, G (rd (Function.update b (⟨k, hk⟩ : Fin n) x)) k = G (rd b) k := fun b x =>
        hf _ _ (fun j hj => by
          have hne : j ≠ k := fun e => by rw [e, h] at hj; exact absurd hj (by decide)
          unfold rd
          by_cases hj' : j < n
          · rw [dif_pos hj', dif_pos hj', Function.update_of_ne (fun e => hne (Fin.ext_iff.1 e))]
          · rw [dif_neg hj', dif_neg hj']) k h
      have e : step (n := n) (free_sub (below_sub p (k + 1)) hf) (below_out hp (k + 1)) =
          step (n := n) (free_sub (below_sub p k) hf) (below_out hp k) * xorAt ⟨k, hk⟩ (fun b => G (rd b) k) hg := by
        refine Equiv.ext fun b => funext fun i => ?_
        rw [Equiv.Perm.mul_apply, step_at, step_at]
        have hx : xorAt ⟨k, hk⟩ (fun b => G (rd b) k) hg b = Function.update b ⟨k, hk⟩ (b ⟨k, hk⟩ ^^^ G (rd b) k) := rfl
        rw [hx]
        unfold stepF
        by_cases hi : i.1 = k
        · have hi' : i = ⟨k, hk⟩ := Fin.ext hi
          subst hi'
          rw [if_pos (by unfold below; simp [h]), if_neg (by rw [h0]; decide), rd_at, rd_at, Function.update_self]
        · rw [hs _ hi, rd_at, rd_at, Function.update_of_ne (fun e => hi (Fin.ext_iff.1 e))]
          by_cases hb : below p k i.1 = true
          · rw [if_pos hb, if_pos hb]
            refine congrArg _ (hf _ _ (fun j hj => ?_) _ (below_sub p k _ hb))
            have hne : j ≠ k := fun e => by rw [e, h] at hj; exact absurd hj (by decide)
            unfold rd
            by_cases hj' : j < n
            · rw [dif_pos hj', dif_pos hj', Function.update_of_ne (fun e => hne (Fin.ext_iff.1 e))]
            · rw [dif_neg hj', dif_neg hj']
          · rw [if_neg hb, if_neg hb]
      rw [e, sign_mul, ih (by omega), xorAt_even, mul_one]
    · have e : step (n := n) (free_sub (below_sub p (k + 1)) hf) (below_out hp (k + 1)) =
          step (n := n) (free_sub (below_sub p k) hf) (below_out hp k) := by
        refine Equiv.ext fun b => funext fun i => ?_
        rw [step_at, step_at]
        unfold stepF
        by_cases hi : i.1 = k
        · rw [hi, h0, if_neg (by unfold below; simp [h]), if_neg (by decide)]
        · rw [hs _ hi]
      rw [e, ih (by omega)]

/-- Adding to some bytes a function of the others is an even permutation. -/
theorem step_even (hf : Free p G) (hp : ∀ i, n ≤ i → p i = false) : sign (step (n := n) hf hp) = 1 := by
  have e : step (n := n) hf hp = step (n := n) (free_sub (below_sub p n) hf) (below_out hp n) := by
    refine Equiv.ext fun b => funext fun i => ?_
    rw [step_at, step_at]
    unfold stepF below
    rw [decide_eq_true i.2, Bool.and_true]
  rw [e, step_below hf hp n (Nat.le_refl _)]

end Verif.ParityBytes
