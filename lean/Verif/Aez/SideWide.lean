import Verif.WideList
import Verif.Aez.StringWide
import Mathlib.Data.ZMod.Basic
import Mathlib.Algebra.Ring.Pi

/-!
# AEZ-core with any functions is a wide permutation
-/

namespace Verif.AezWide

open Verif Verif.Avg Verif.Oracle Verif.AezRandom Verif.Wide

/-! ## Blocks -/

/-- A block of 128 bits. -/
abbrev V := Fin 128 → ZMod 2

instance : Fact ((2 : V) = 0) := ⟨by
  funext i
  show ((2 : Nat) : ZMod 2) = 0
  exact ZMod.natCast_self 2⟩

instance : Fintype V := Pi.instFintype

theorem card_V : Fintype.card V = 2 ^ 128 := by
  rw [Fintype.card_fun, ZMod.card, Fintype.card_fin]

def bits (n : Nat) : V := fun i => if n.testBit i.1 then 1 else 0

theorem bits_xor (a b : Nat) : bits (a ^^^ b) = bits a + bits b := by
  funext i
  have h : (1 : ZMod 2) + 1 = 0 := by decide
  show (if (a ^^^ b).testBit i.1 then (1 : ZMod 2) else 0) = (if a.testBit i.1 then 1 else 0) + if b.testBit i.1 then 1 else 0
  rw [Nat.testBit_xor]
  cases a.testBit i.1 <;> cases b.testBit i.1 <;> simp [h]

theorem bits_zero : bits 0 = 0 := by
  funext i
  show (if (0 : Nat).testBit i.1 then (1 : ZMod 2) else 0) = 0
  rw [Nat.zero_testBit]
  rfl

theorem bits_inj {a b : Nat} (ha : a < 2 ^ 128) (hb : b < 2 ^ 128) (h : bits a = bits b) : a = b := by
  apply Nat.eq_of_testBit_eq
  intro i
  by_cases hi : i < 128
  · have := congrFun h ⟨i, hi⟩
    unfold bits at this
    simp only at this
    have h1 : (1 : ZMod 2) ≠ 0 := by decide
    cases e1 : a.testBit i <;> cases e2 : b.testBit i <;> simp_all
  · rw [Nat.testBit_lt_two_pow (lt_of_lt_of_le ha (Nat.pow_le_pow_right (by decide) (by omega))),
      Nat.testBit_lt_two_pow (lt_of_lt_of_le hb (Nat.pow_le_pow_right (by decide) (by omega)))]

theorem bits_bij : Function.Bijective (fun x : Fin (2 ^ 128) => bits x.1) := by
  rw [Fintype.bijective_iff_injective_and_card]
  exact ⟨fun a b h => Fin.ext (bits_inj a.2 b.2 h), by rw [card_V, Fintype.card_fin]⟩

noncomputable def blocks : Fin (2 ^ 128) ≃ V := Equiv.ofBijective _ bits_bij

noncomputable def num (v : V) : Nat := (blocks.symm v).1

theorem num_lt (v : V) : num v < 2 ^ 128 := (blocks.symm v).2

theorem bits_num (v : V) : bits (num v) = v := blocks.apply_symm_apply v

theorem num_bits {x : Nat} (h : x < 2 ^ 128) : num (bits x) = x := bits_inj (num_lt _) h (bits_num _)

/-! ## Functions -/

section
variable {ℓ : Nat}

/-- The function with an index. -/
def tag (t : Nat) : Tag ℓ :=
  if t = 1 then .f false else if t = 2 then .f true else if t = 4 then .u else if t = 5 then .v else if t = 9 then .g false else if t = 10 then .g true
  else if t = 12 then .cu else if t = 13 then .cv
  else if h : (t - 18) / 2 < ℓ then (if t < 18 then .e else if t % 2 = 0 then .h ⟨(t - 18) / 2, h⟩ else .k ⟨(t - 18) / 2, h⟩) else .e

theorem tag_0 : tag (ℓ := ℓ) 0 = .e := by unfold tag; simp
theorem tag_h {i : Nat} (h1 : 1 ≤ i) (h2 : i ≤ ℓ) : tag (ℓ := ℓ) (16 + 2 * i) = .h ⟨i - 1, by omega⟩ := by
  unfold tag
  have e : (16 + 2 * i - 18) / 2 = i - 1 := by omega
  rw [if_neg (by omega), if_neg (by omega), if_neg (by omega), if_neg (by omega), if_neg (by omega), if_neg (by omega), if_neg (by omega), if_neg (by omega),
    dif_pos (by omega), if_neg (by omega), if_pos (by omega)]
  congr 2
theorem tag_k {i : Nat} (h1 : 1 ≤ i) (h2 : i ≤ ℓ) : tag (ℓ := ℓ) (17 + 2 * i) = .k ⟨i - 1, by omega⟩ := by
  unfold tag
  have e : (17 + 2 * i - 18) / 2 = i - 1 := by omega
  rw [if_neg (by omega), if_neg (by omega), if_neg (by omega), if_neg (by omega), if_neg (by omega), if_neg (by omega), if_neg (by omega), if_neg (by omega),
    dif_pos (by omega), if_neg (by omega), if_neg (by omega)]
  congr 2

/-- The functions on numbers. -/
noncomputable def onNum (ω : Fn ℓ V) (a : Nat × Nat) : Nat := num (ω (tag a.1, bits a.2))

theorem onNum_lt (ω : Fn ℓ V) (a : Nat × Nat) : onNum ω a < 2 ^ 128 := num_lt _

theorem bits_onNum (ω : Fn ℓ V) (t x : Nat) : bits (onNum ω (t, x)) = ω (tag t, bits x) := bits_num _

/-! ## Strings -/

/-- The parts of a string. -/
def side (ℓ : Nat) (M : Bytes) : Side ℓ V where
  x := bits (AezSpec.block M (M.length - 32))
  y := bits (AezSpec.block M (M.length - 16))
  blk j := if j.1 < AezSpec.pairs M then some (bits (AezSpec.block M (32 * j.1)), bits (AezSpec.block M (32 * j.1 + 16))) else none
  u := if M.length % 32 = 0 then none else if M.length % 32 < 16 then some (bits (AezSpec.pad10 (AezSpec.uPart M))) else some (bits (beNat (AezSpec.uPart M)))
  v := if M.length % 32 < 16 then none else some (bits (AezSpec.pad10 (AezSpec.vPart M)))

/-- The values that change a partial block as required. -/
noncomputable def masks (a b : Bytes) : Finset V := Finset.univ.filter fun v => AezSpec.xorBytes a (beBytes 16 (num v)) = b

theorem mem_masks {a b : Bytes} {v : V} : v ∈ masks a b ↔ AezSpec.xorBytes a (beBytes 16 (num v)) = b := by
  unfold masks
  simp only [Finset.mem_filter, Finset.mem_univ, true_and]

theorem sum_xorSum (f : Nat → Nat) : ∀ m, bits (AezSpec.xorSum f m) = ∑ i ∈ Finset.range m, bits (f (i + 1))
  | 0 => bits_zero
  | m + 1 => by
    rw [Finset.sum_range_succ, ← sum_xorSum f m]
    exact bits_xor _ _

theorem sum_some {m : Nat} (hm : m ≤ ℓ) (g : Nat → V) : (∑ j : Fin ℓ, if j.1 < m then g j.1 else 0) = ∑ i ∈ Finset.range m, g i := by
  rw [Fin.sum_univ_eq_sum_range (fun i => if i < m then g i else 0) ℓ]
  rw [← Finset.sum_subset (s₁ := Finset.range m) (fun i hi => Finset.mem_range.2 (lt_of_lt_of_le (Finset.mem_range.1 hi) hm))]
  · exact Finset.sum_congr rfl fun i hi => if_pos (Finset.mem_range.1 hi)
  · intro i _ hi
    exact if_neg fun h => hi (Finset.mem_range.2 h)

variable (ω : Fn ℓ V)

theorem w_side (M : Bytes) (j : Fin ℓ) :
    w ω (j, bits (AezSpec.block M (32 * j.1)), bits (AezSpec.block M (32 * j.1 + 16))) = bits (wT (onNum ω) M (j.1 + 1)) := by
  unfold w wT
  rw [bits_xor, bits_onNum, tag_h (by omega) j.2]
  rfl

theorem X_side (M : Bytes) (j : Fin ℓ) :
    X ω (j, bits (AezSpec.block M (32 * j.1)), bits (AezSpec.block M (32 * j.1 + 16))) = bits (xT (onNum ω) M (j.1 + 1)) := by
  unfold X xT
  rw [bits_xor, bits_onNum, tag_0, w_side]
  rfl

theorem term_side (M : Bytes) : term ω .u (side ℓ M).u + term ω .v (side ℓ M).v = bits (uvT (onNum ω) M.length (AezSpec.uPart M) (AezSpec.vPart M)) := by
  unfold side uvT
  by_cases h0 : M.length % 32 = 0
  · simp only [h0, if_true, Nat.ofNat_pos]
    rw [bits_zero]
    exact add_zero _
  · by_cases h1 : M.length % 32 < 16
    · simp only [h0, h1, if_true, if_false]
      rw [bits_onNum]
      exact add_zero _
    · simp only [h0, h1, if_false]
      rw [bits_xor, bits_onNum, bits_onNum]
      rfl

theorem pairs_le {M : Bytes} (h : M.length < 32 * ℓ + 64) : AezSpec.pairs M ≤ ℓ := by
  unfold AezSpec.pairs
  omega

theorem blk_side {M : Bytes} {j : Fin ℓ} (h : j.1 < AezSpec.pairs M) :
    (side ℓ M).blk j = some (bits (AezSpec.block M (32 * j.1)), bits (AezSpec.block M (32 * j.1 + 16))) := if_pos h

theorem sum_side {M : Bytes} (h : M.length < 32 * ℓ + 64) (d : Bool) : Wide.sum ω d (side ℓ M) = bits (sxT (onNum ω) (if d then 2 else 1) M) := by
  unfold Wide.sum sxT
  rw [bits_xor, bits_xor, bits_xor, bits_onNum, ← term_side, sum_xorSum, ← sum_some (pairs_le h)]
  have e1 : (∑ j : Fin ℓ, ((side ℓ M).blk j).elim 0 fun p => X ω (j, p)) =
      ∑ j : Fin ℓ, if j.1 < AezSpec.pairs M then bits (xT (onNum ω) M (j.1 + 1)) else 0 := by
    refine Finset.sum_congr rfl fun j _ => ?_
    unfold side
    simp only
    split
    · rw [← X_side]; rfl
    · rfl
  have e2 : tag (ℓ := ℓ) (if d then 2 else 1) = .f d := by cases d <;> rfl
  rw [e1, e2]
  show bits _ + ω (.f d, bits _) + _ + _ + _ = _
  ring

/-- Functions that meet the conditions map the string to its image. -/
theorem core_of_meets {M C : Bytes} (h32 : 32 ≤ M.length) (hM : M.length < 32 * ℓ + 64) (hl : C.length = M.length) {d : Bool} {bu bv : Finset V}
    (hbu : ∀ v ∈ bu, AezSpec.xorBytes (AezSpec.uPart M) (beBytes 16 (num v)) = AezSpec.uPart C)
    (hbv : ∀ v ∈ bv, AezSpec.xorBytes (AezSpec.vPart M) (beBytes 16 (num v)) = AezSpec.vPart C) (h : Meets ω ⟨d, side ℓ M, side ℓ C, bu, bv⟩) :
    coreT (onNum ω) 1 2 M = C := by
  have t2 := two (V := V)
  have hT := onNum_lt ω
  have hC : C.length < 32 * ℓ + 64 := by omega
  have hp : AezSpec.pairs C = AezSpec.pairs M := by unfold AezSpec.pairs; rw [hl]
  obtain ⟨he, hc⟩ := h
  have sM : bits (sxT (onNum ω) 1 M) = Wide.sum ω false (side ℓ M) := (sum_side ω hM false).symm
  have hgf := hc _ (List.mem_cons_self)
  have hgt := hc _ (List.mem_cons_of_mem _ List.mem_cons_self)
  have hcu := hc _ (List.mem_cons_of_mem _ (List.mem_cons_of_mem _ List.mem_cons_self))
  have hcv := hc _ (List.mem_cons_of_mem _ (List.mem_cons_of_mem _ (List.mem_cons_of_mem _ List.mem_cons_self)))
  have hk : ∀ j p q, (side ℓ M).blk j = some p → (side ℓ C).blk j = some q →
      ω (.k j, Wide.sum ω false (side ℓ M) + Wide.sum ω true (side ℓ C)) + (w ω (j, p) + X ω (j, q)) = 0 := by
    intro j p q h1 h2
    have := hc _ (List.mem_cons_of_mem _ (List.mem_cons_of_mem _ (List.mem_cons_of_mem _ (List.mem_cons_of_mem _
      (List.mem_map.2 ⟨(j, p, q), mem_pos.2 ⟨h1, h2⟩, rfl⟩)))))
    exact Finset.mem_singleton.1 this
  have ho : ∀ j p q, (side ℓ M).blk j = some p → (side ℓ C).blk j = some q → X ω (j, p) + w ω (j, p) = X ω (j, q) + w ω (j, q) := by
    intro j p q h1 h2
    have := he _ (List.mem_map.2 ⟨(j, p, q), mem_pos.2 ⟨h1, h2⟩, rfl⟩)
    unfold orient at this
    cases d
    · exact this
    · exact Eq.symm this
  clear hc he
  have hgf : ω (.g false, Wide.sum ω false (side ℓ M)) + ((side ℓ M).y + Wide.sum ω true (side ℓ C)) = 0 := Finset.mem_singleton.1 hgf
  have hgt : ω (.g true, Wide.sum ω true (side ℓ C)) + ((side ℓ C).y + Wide.sum ω false (side ℓ M)) = 0 := Finset.mem_singleton.1 hgt
  have hcu : ω (.cu, Wide.sum ω false (side ℓ M) + Wide.sum ω true (side ℓ C)) + 0 ∈ bu := hcu
  have hcv : ω (.cv, Wide.sum ω false (side ℓ M) + Wide.sum ω true (side ℓ C)) + 0 ∈ bv := hcv
  have sY : bits (syT (onNum ω) 1 M) = Wide.sum ω true (side ℓ C) := by
    unfold syT
    rw [bits_xor, bits_onNum, sM, show tag (ℓ := ℓ) (8 + 1) = .g false from rfl]
    have : (side ℓ M).y = bits (AezSpec.block M (M.length - 16)) := rfl
    rw [← this]
    linear_combination hgf - Wide.sum ω true (side ℓ C) * t2
  have sS : bits (sT (onNum ω) 1 M) = Wide.sum ω false (side ℓ M) + Wide.sum ω true (side ℓ C) := by
    unfold sT
    rw [bits_xor, sM, sY]
  have cy : cyT (onNum ω) 1 2 M = AezSpec.block C (C.length - 16) := by
    refine bits_inj (cyT_lt hT _ _ _) (block_lt _ _) ?_
    unfold cyT
    rw [bits_xor, bits_onNum, sM, sY, show tag (ℓ := ℓ) (8 + 2) = .g true from rfl]
    show _ = (side ℓ C).y
    linear_combination hgt - (side ℓ C).y * t2
  have cu : cuT (onNum ω) 1 M = AezSpec.uPart C := by
    rw [add_zero] at hcu
    have := hbu _ hcu
    rw [← sS] at this
    exact this
  have cv : cvT (onNum ω) 1 M = AezSpec.vPart C := by
    rw [add_zero] at hcv
    have := hbv _ hcv
    rw [← sS] at this
    exact this
  have key : ∀ i, 1 ≤ i → i ≤ AezSpec.pairs M → bits (yT (onNum ω) 1 M i) = bits (xT (onNum ω) C i) ∧ bits (zT (onNum ω) 1 M i) = bits (wT (onNum ω) C i) := by
    intro i h1 h2
    have hi : i ≤ ℓ := le_trans h2 (pairs_le hM)
    have bM := blk_side (ℓ := ℓ) (M := M) (j := ⟨i - 1, by omega⟩) (show i - 1 < _ by omega)
    have bC := blk_side (ℓ := ℓ) (M := C) (j := ⟨i - 1, by omega⟩) (show i - 1 < _ by omega)
    have k1 := hk _ _ _ bM bC
    have k2 := ho _ _ _ bM bC
    rw [X_side, w_side] at k1
    rw [X_side, w_side, X_side, w_side] at k2
    simp only [show i - 1 + 1 = i by omega] at k1 k2
    unfold yT zT
    rw [bits_xor, bits_xor, bits_onNum, sS, tag_k h1 hi]
    constructor
    · linear_combination k1 - bits (xT (onNum ω) C i) * t2
    · linear_combination k1 + k2 - bits (wT (onNum ω) M i) * t2
  have c1 : ∀ i, 1 ≤ i → i ≤ AezSpec.pairs M → c1T (onNum ω) 1 M i = AezSpec.block C (32 * (i - 1) + 16) := by
    intro i h1 h2
    obtain ⟨k1, k2⟩ := key i h1 h2
    refine bits_inj (c1T_lt hT _ _ _) (block_lt _ _) ?_
    unfold c1T
    rw [bits_xor, bits_onNum, k1, k2]
    conv_lhs => rw [xT, bits_xor, bits_onNum]
    linear_combination ω (tag 0, bits (wT (onNum ω) C i)) * t2
  have c0 : ∀ i, 1 ≤ i → i ≤ AezSpec.pairs M → c0T (onNum ω) 1 M i = AezSpec.block C (32 * (i - 1)) := by
    intro i h1 h2
    obtain ⟨k1, k2⟩ := key i h1 h2
    refine bits_inj (c0T_lt hT _ _ _) (block_lt _ _) ?_
    unfold c0T
    rw [bits_xor, bits_onNum, k2, c1 i h1 h2]
    conv_lhs => rw [wT, bits_xor, bits_onNum]
    linear_combination ω (tag (16 + 2 * i), bits (AezSpec.block C (32 * (i - 1) + 16))) * t2
  have cx : cxT (onNum ω) 1 2 M = AezSpec.block C (C.length - 32) := by
    refine bits_inj (cxT_lt hT _ _ _) (block_lt _ _) ?_
    unfold cxT
    rw [bits_xor, bits_xor, bits_xor, bits_onNum, sY, cy, cu, cv]
    have e : bits (AezSpec.xorSum (yT (onNum ω) 1 M) (AezSpec.pairs M)) = bits (AezSpec.xorSum (xT (onNum ω) C) (AezSpec.pairs C)) := by
      rw [sum_xorSum, sum_xorSum, hp]
      exact Finset.sum_congr rfl fun i hi => (key (i + 1) (by omega) (by have := Finset.mem_range.1 hi; omega)).1
    have s := sum_side ω hC true
    unfold sxT at s
    rw [bits_xor, bits_xor, bits_xor, bits_onNum, if_pos rfl] at s
    rw [e, s, ← hl]
    linear_combination (bits (AezSpec.xorSum (xT (onNum ω) C) (AezSpec.pairs C)) + bits (uvT (onNum ω) C.length (AezSpec.uPart C) (AezSpec.vPart C)) +
      ω (tag 2, bits (AezSpec.block C (C.length - 16)))) * t2
  conv_rhs => rw [← asm_parts (M := C) (by omega)]
  unfold coreT
  rw [cu, cv, cx, cy, hp]
  exact asm_congr (fun i h1 h2 => by rw [c0 i h1 h2, c1 i h1 h2]) _ _ _ _

end

end Verif.AezWide
