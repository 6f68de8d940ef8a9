import Verif.Aez.Props
import Mathlib.Logic.Function.Iterate
import Mathlib.Tactic.NormNum

/-!
# The key schedule (C62)

`double_block` on byte-reversed blocks is multiplication by `x` in GF(2^128), and the multiples kept in the context are 2I, 4I, 2J, 4J.
-/

namespace Verif.Aez

open Verif

/-! ## Specification -/

namespace Spec

/-- Doubling in GF(2^128) with the polynomial x^128 + x^7 + x^2 + x + 1, on integers below 2^128. -/
def double (v : Nat) : Nat := if v < 2 ^ 127 then 2 * v else (2 * v - 2 ^ 128) ^^^ 0x87

/-- The integer of a block, most significant byte first (the convention of AEZ). -/
def val (b : Block) : Nat := beNat (List.ofFn b)

end Spec

/-! ## Bits, least significant first -/

/-- Bit `k` of a block read as a little-endian integer. -/
def lb (x : Block) (k : Nat) : Bool := if h : k < 128 then (x ⟨k / 8, by omega⟩).toNat.testBit (k % 8) else false

theorem testBit_leNat (l : Bytes) (k : Nat) : (leNat l).testBit k = (l.getD (k / 8) 0).toNat.testBit (k % 8) := by
  induction l generalizing k with
  | nil => simp [leNat]
  | cons b l ih =>
    have hb : b.toNat < 2 ^ 8 := b.toNat_lt
    rw [leNat, Nat.add_comm, show 256 = 2 ^ 8 from rfl, Nat.testBit_two_pow_mul_add _ hb]
    by_cases h : k < 8
    · rw [if_pos h, show k / 8 = 0 by omega, show k % 8 = k by omega]; rfl
    · rw [if_neg h, ih, show k / 8 = (k - 8) / 8 + 1 by omega, show k % 8 = (k - 8) % 8 by omega]; rfl

theorem leNat_ofFn_testBit (x : Block) (k : Nat) : (leNat (List.ofFn x)).testBit k = lb x k := by
  rw [testBit_leNat, lb]
  by_cases h : k < 128
  · have h16 : k / 8 < 16 := by omega
    rw [dif_pos h, List.getD_eq_getElem?_getD, List.getElem?_ofFn, dif_pos h16]; rfl
  · have h16 : ¬ k / 8 < 16 := by omega
    rw [dif_neg h, List.getD_eq_getElem?_getD, List.getElem?_ofFn, dif_neg h16]; simp

theorem leNat_ofFn_lt (x : Block) : leNat (List.ofFn x) < 2 ^ 128 := by
  have := leNat_lt (List.ofFn x)
  rwa [List.length_ofFn] at this

/-- Bit `j` of lane `k`. -/
theorem lane_testBit (x : Block) (k : Fin 4) (j : Nat) (h : j < 32) : (lane x k).toNat.testBit j = lb x (32 * k.1 + j) := by
  have hk := k.2
  rw [lb, dif_pos (by omega)]
  simp only [lane, UInt32.toNat_or, UInt32.toNat_shiftLeft, UInt8.toNat_toUInt32, Nat.testBit_or, Nat.testBit_mod_two_pow,
    Nat.testBit_shiftLeft, h, decide_true, Bool.true_and]
  have hlt : ∀ (b : UInt8) (i : Nat), 8 ≤ i → b.toNat.testBit i = false := fun b i hi =>
    Nat.testBit_lt_two_pow (Nat.lt_of_lt_of_le b.toNat_lt (Nat.pow_le_pow_right (by omega) hi))
  have e8 : (8 : UInt32).toNat % 32 = 8 := rfl
  have e16 : (16 : UInt32).toNat % 32 = 16 := rfl
  have e24 : (24 : UInt32).toNat % 32 = 24 := rfl
  simp only [e8, e16, e24]
  have hq : j < 8 ∨ (8 ≤ j ∧ j < 16) ∨ (16 ≤ j ∧ j < 24) ∨ 24 ≤ j := by omega
  rcases hq with hq | hq | hq | hq
  · have e : (⟨(32 * k.1 + j) / 8, by omega⟩ : Fin 16) = ⟨4 * k.1, by omega⟩ := Fin.ext (by simp only; omega)
    rw [e, show (32 * k.1 + j) % 8 = j by omega]
    simp [show ¬ 8 ≤ j by omega, show ¬ 16 ≤ j by omega, show ¬ 24 ≤ j by omega]
  · have e : (⟨(32 * k.1 + j) / 8, by omega⟩ : Fin 16) = ⟨4 * k.1 + 1, by omega⟩ := Fin.ext (by simp only; omega)
    rw [e, show (32 * k.1 + j) % 8 = j - 8 by omega, hlt _ j (by omega)]
    simp [show 8 ≤ j by omega, show ¬ 16 ≤ j by omega, show ¬ 24 ≤ j by omega]
  · have e : (⟨(32 * k.1 + j) / 8, by omega⟩ : Fin 16) = ⟨4 * k.1 + 2, by omega⟩ := Fin.ext (by simp only; omega)
    rw [e, show (32 * k.1 + j) % 8 = j - 16 by omega, hlt _ j (by omega), hlt _ (j - 8) (by omega)]
    simp [show 8 ≤ j by omega, show 16 ≤ j by omega, show ¬ 24 ≤ j by omega]
  · have e : (⟨(32 * k.1 + j) / 8, by omega⟩ : Fin 16) = ⟨4 * k.1 + 3, by omega⟩ := Fin.ext (by simp only; omega)
    rw [e, show (32 * k.1 + j) % 8 = j - 24 by omega, hlt _ j (by omega), hlt _ (j - 8) (by omega), hlt _ (j - 16) (by omega)]
    simp [show 8 ≤ j by omega, show 16 ≤ j by omega, show 24 ≤ j by omega]

theorem ofLanes_testBit (f : Fin 4 → UInt32) (k : Nat) (h : k < 128) :
    lb (ofLanes f) k = (f ⟨k / 32, by omega⟩).toNat.testBit (k % 32) := by
  rw [lb, dif_pos h]
  simp only [ofLanes, UInt32.toNat_toUInt8, UInt32.toNat_shiftRight, Nat.testBit_mod_two_pow, Nat.testBit_shiftRight]
  have h4 : k / 8 % 4 < 4 := by omega
  have hm : (8 * UInt32.ofNat (k / 8 % 4)).toNat % 32 = 8 * (k / 8 % 4) := by
    generalize k / 8 % 4 = q at h4
    match q, h4 with
    | 0, _ | 1, _ | 2, _ | 3, _ => rfl
  have e : (⟨k / 8 / 4, by omega⟩ : Fin 4) = ⟨k / 32, by omega⟩ := Fin.ext (by simp only; omega)
  rw [hm, e, show 8 * (k / 8 % 4) + k % 8 = k % 32 by omega]
  simp [show k % 8 < 8 by omega]

theorem signMask_testBit (v : UInt32) (j : Nat) (h : j < 32) : (signMask v).toNat.testBit j = v.toNat.testBit 31 := by
  have h2 : v.toNat.testBit 31 = decide (v ≥ 0x80000000) := by
    have hv := v.toNat_lt
    have : (v ≥ 0x80000000) ↔ 2147483648 ≤ v.toNat := by
      rw [ge_iff_le, UInt32.le_iff_toNat_le]; rfl
    rw [Nat.testBit_eq_decide_div_mod_eq]
    simp only [this]
    congr 1
    apply propext
    omega
  rw [h2, signMask]
  by_cases hs : v ≥ 0x80000000
  · rw [if_pos hs]
    simp only [hs, decide_true]
    rw [show (0xffffffff : UInt32).toNat = 2 ^ 32 - 1 from rfl, Nat.testBit_two_pow_sub_one]
    simp [h]
  · rw [if_neg hs]
    simp [hs]

/-- The bits of the doubled block. -/
theorem lb_dbl (b : Block) (k : Nat) (h : k < 128) :
    lb (dbl b) k = ((decide (0 < k) && lb b (k - 1)) ^^ (lb b 127 && (0x87 : Nat).testBit k)) := by
  have hk4 : k / 32 < 4 := by omega
  have hj : k % 32 < 32 := by omega
  rw [dbl, ofLanes_testBit _ _ h]
  simp only [UInt32.toNat_xor, UInt32.toNat_and, UInt32.toNat_shiftLeft, Nat.testBit_xor, Nat.testBit_and, Nat.testBit_mod_two_pow,
    Nat.testBit_shiftLeft, show (1 : UInt32).toNat % 32 = 1 from rfl, hj, decide_true, Bool.true_and, signMask_testBit _ _ hj]
  have h87 : ∀ i, 8 ≤ i → (0x87 : Nat).testBit i = false := fun i hi =>
    Nat.testBit_lt_two_pow (Nat.lt_of_lt_of_le (by decide : 0x87 < 2 ^ 8) (Nat.pow_le_pow_right (by omega) hi))
  rw [lane_testBit _ _ 31 (by omega)]
  by_cases h0 : k / 32 = 0
  · have e : (⟨k / 32, hk4⟩ : Fin 4) = 0 := Fin.ext h0
    have e3 : (⟨(k / 32 + 3) % 4, by omega⟩ : Fin 4) = 3 := Fin.ext (by simp only [h0]; rfl)
    rw [e3, e]
    have h32 : k % 32 = k := by omega
    rw [h32]
    by_cases hz : k = 0
    · subst hz; simp; rfl
    · simp only [show k ≥ 1 by omega, show 0 < k by omega, decide_true, Bool.true_and]
      rw [lane_testBit _ _ _ (by omega)]
      simp
      rfl
  · have e3 : (⟨(k / 32 + 3) % 4, by omega⟩ : Fin 4) ≠ 3 := fun he => by
      have := congrArg Fin.val he
      simp only at this
      change (k / 32 + 3) % 4 = 3 at this
      omega
    rw [if_neg e3, show (1 : UInt32).toNat = 1 from rfl, h87 k (by omega), Bool.and_false, Bool.xor_false]
    simp only [show 0 < k by omega, decide_true, Bool.true_and]
    by_cases hz : k % 32 = 0
    · rw [hz]
      simp only [ge_iff_le, show ¬ 1 ≤ 0 by omega, decide_false, Bool.false_and, Bool.false_xor]
      rw [show (1 : Nat).testBit 0 = true from rfl, Bool.and_true]
      congr 1
      omega
    · simp only [ge_iff_le, show 1 ≤ k % 32 by omega, decide_true, Bool.true_and]
      have h1 : (1 : Nat).testBit (k % 32) = false :=
        Nat.testBit_lt_two_pow (Nat.lt_of_lt_of_le (by decide : 1 < 2 ^ 1) (Nat.pow_le_pow_right (by omega) (by omega)))
      rw [h1, Bool.and_false, Bool.xor_false, lane_testBit _ _ _ (by omega)]
      congr 1
      simp only
      omega

theorem leNat_dbl (b : Block) : leNat (List.ofFn (dbl b)) = Spec.double (leNat (List.ofFn b)) := by
  have hlt := leNat_ofFn_lt b
  have htop : lb b 127 = decide (¬ leNat (List.ofFn b) < 2 ^ 127) := by
    rw [← leNat_ofFn_testBit, Nat.testBit_eq_decide_div_mod_eq]
    congr 1
    apply propext
    generalize leNat (List.ofFn b) = v at hlt
    norm_num at hlt ⊢
    omega
  apply Nat.eq_of_testBit_eq
  intro k
  rw [leNat_ofFn_testBit]
  have h87 : ∀ i, 8 ≤ i → (0x87 : Nat).testBit i = false := fun i hi =>
    Nat.testBit_lt_two_pow (Nat.lt_of_lt_of_le (by decide : 0x87 < 2 ^ 8) (Nat.pow_le_pow_right (by omega) hi))
  by_cases hk : k < 128
  · rw [lb_dbl b k hk, htop, Spec.double]
    by_cases hs : leNat (List.ofFn b) < 2 ^ 127
    · simp only [hs, not_true_eq_false, decide_false, Bool.false_and, Bool.xor_false, if_true]
      by_cases hz : k = 0
      · subst hz; simp [Nat.testBit_zero]
      · simp only [show 0 < k by omega, decide_true, Bool.true_and]
        rw [← leNat_ofFn_testBit, show k = (k - 1) + 1 by omega, Nat.testBit_succ, Nat.add_sub_cancel,
          Nat.mul_div_cancel_left _ (by omega)]
    · simp only [hs, not_false_eq_true, decide_true, Bool.true_and, if_false, Nat.testBit_xor]
      congr 1
      have e : 2 * leNat (List.ofFn b) - 2 ^ 128 = 2 * (leNat (List.ofFn b) - 2 ^ 127) := by omega
      rw [e]
      by_cases hz : k = 0
      · subst hz; simp [Nat.testBit_zero]
      · simp only [show 0 < k by omega, decide_true, Bool.true_and]
        rw [show k = (k - 1) + 1 by omega, Nat.testBit_succ, Nat.add_sub_cancel, Nat.mul_div_cancel_left _ (by omega),
          ← leNat_ofFn_testBit]
        have : leNat (List.ofFn b) = 2 ^ 127 * 1 + (leNat (List.ofFn b) - 2 ^ 127) := by omega
        rw [this, Nat.testBit_two_pow_mul_add _ (by omega), if_pos (by omega), ← this]
  · rw [lb, dif_neg hk]
    symm
    apply Nat.testBit_lt_two_pow
    refine Nat.lt_of_lt_of_le ?_ (Nat.pow_le_pow_right (by omega) (show 128 ≤ k by omega))
    rw [Spec.double]
    by_cases hs : leNat (List.ofFn b) < 2 ^ 127
    · rw [if_pos hs]; omega
    · rw [if_neg hs]
      exact Nat.xor_lt_two_pow (by omega) (by omega)

theorem val_eq (b : Block) : Spec.val b = leNat (List.ofFn (bswap b)) := by
  rw [Spec.val, beNat_eq_leNat_reverse]
  congr 1

theorem bswap_bswap (b : Block) : bswap (bswap b) = b := by
  funext i
  simp only [bswap]
  congr 1
  apply Fin.ext
  simp only
  omega

theorem val_dbl (b : Block) : Spec.val (bswap (dbl (bswap b))) = Spec.double (Spec.val b) := by
  rw [val_eq, bswap_bswap, leNat_dbl, ← val_eq]

theorem val_inj {a b : Block} (h : Spec.val a = Spec.val b) : a = b := by
  have h1 := beBytes_beNat (List.ofFn a)
  have h2 := beBytes_beNat (List.ofFn b)
  simp only [Spec.val] at h
  rw [List.length_ofFn] at h1 h2
  rw [h, h2] at h1
  funext i
  have := congrArg (fun l : Bytes => l[i.1]?) h1
  simp only [List.getElem?_ofFn, i.2, dite_true, Option.some.injEq] at this
  exact this.symm

theorem double_inj {u v : Nat} (hu : u < 2 ^ 128) (hv : v < 2 ^ 128) (h : Spec.double u = Spec.double v) : u = v := by
  have bit0 : ∀ w, (Spec.double w).testBit 0 = decide (¬ w < 2 ^ 127) := by
    intro w
    rw [Spec.double]
    by_cases hs : w < 2 ^ 127
    · rw [if_pos hs, decide_eq_false (not_not.2 hs)]; simp [Nat.testBit_zero]
    · rw [if_neg hs, Nat.testBit_xor, decide_eq_true hs]
      have e : 2 * w - 2 ^ 128 = 2 * (w - 2 ^ 127) := by omega
      rw [e]
      simp [Nat.testBit_zero]
  have hb : (¬ u < 2 ^ 127) ↔ (¬ v < 2 ^ 127) := by
    have := bit0 u
    rw [h, bit0 v] at this
    simpa [eq_comm] using this
  simp only [Spec.double] at h
  by_cases hs : u < 2 ^ 127
  · have hs' : v < 2 ^ 127 := by omega
    rw [if_pos hs, if_pos hs'] at h
    omega
  · have hs' : ¬ v < 2 ^ 127 := by omega
    rw [if_neg hs, if_neg hs'] at h
    have := congrArg (· ^^^ 0x87) h
    simp only [Nat.xor_assoc, Nat.xor_self, Nat.xor_zero] at this
    omega

/-- C62: for every key the context holds I, 2I, 4I, J, 2J, 4J in GF(2^128), and L. -/
theorem c62_schedule (key : Nat → UInt8) :
    (setup key).I0 = blk key 0 ∧ (setup key).J0 = blk key 16 ∧ (setup key).L = blk key 32 ∧
    Spec.val (setup key).I1 = Spec.double (Spec.val (blk key 0)) ∧
    Spec.val (setup key).I2 = Spec.double (Spec.double (Spec.val (blk key 0))) ∧
    Spec.val (setup key).J1 = Spec.double (Spec.val (blk key 16)) ∧
    Spec.val (setup key).J2 = Spec.double (Spec.double (Spec.val (blk key 16))) := by
  have h4 : ∀ b, Spec.val (bswap (dbl (dbl (bswap b)))) = Spec.double (Spec.double (Spec.val b)) := by
    intro b
    have := val_dbl (bswap (dbl (bswap b)))
    rwa [bswap_bswap, val_dbl] at this
  exact ⟨rfl, rfl, rfl, val_dbl _, h4 _, val_dbl _, h4 _⟩

/-- C62: the doubling of the context is a permutation of the blocks, so no information of the key is lost, and the multiple is zero
only for the zero block. -/
theorem c62_doubling (a b : Block) :
    (bswap (dbl (bswap a)) = bswap (dbl (bswap b)) ↔ a = b) ∧ (bswap (dbl (bswap a)) = bzero ↔ a = bzero) := by
  have inj : ∀ a b, bswap (dbl (bswap a)) = bswap (dbl (bswap b)) → a = b := by
    intro a b h
    have := congrArg Spec.val h
    rw [val_dbl, val_dbl] at this
    refine val_inj (double_inj ?_ ?_ this)
    · rw [val_eq]; exact leNat_ofFn_lt _
    · rw [val_eq]; exact leNat_ofFn_lt _
  have hz : bswap (dbl (bswap bzero)) = bzero := by
    apply val_inj
    rw [val_dbl]
    have : Spec.val bzero = 0 := by decide +kernel
    rw [this]; rfl
  refine ⟨⟨inj a b, fun h => by rw [h]⟩, ⟨fun h => inj a bzero (by rw [h, hz]), fun h => by rw [h, hz]⟩⟩

/-- The offsets of the groups are 8I, 16I, 32I, … -/
theorem c62_offsets (key : Nat → UInt8) (g : Nat) :
    Spec.val (base (setup key) g) = Spec.double^[g + 3] (Spec.val (blk key 0)) := by
  have h : ∀ g, Spec.val (base (setup key) (g + 1)) = Spec.double (Spec.val (base (setup key) g)) := by
    intro g
    have := val_dbl (base (setup key) g)
    rw [show bswap (base (setup key) g) = ifd (setup key) g from bswap_bswap _] at this
    exact this
  induction g with
  | zero =>
    have := val_dbl (setup key).I2
    rw [(c62_schedule key).2.2.2.2.1] at this
    exact this
  | succ g ih => rw [h, ih, ← Function.iterate_succ_apply' Spec.double]

/-! ## The offset of each pair -/

theorem offOf_append_lt : ∀ {gs hs : List Group} {q M : Nat}, Consec gs q M → ∀ j, q ≤ j → j < M →
    offOf (gs ++ hs) j = offOf gs j := by
  intro gs
  induction gs with
  | nil => intro hs q M h j h1 h2; cases h; omega
  | cons g gs ih =>
    intro hs q M h j h1 h2
    obtain ⟨hq, h⟩ := h
    rw [List.cons_append, offOf, offOf]
    by_cases hj : j < g.first + g.count
    · rw [if_pos hj, if_pos hj]
    · rw [if_neg hj, if_neg hj]
      exact ih h j (by omega) h2

theorem offOf_append_ge : ∀ {gs hs : List Group} {q M : Nat}, Consec gs q M → ∀ j, M ≤ j → offOf (gs ++ hs) j = offOf hs j := by
  intro gs
  induction gs with
  | nil => intro hs q M h j _; rfl
  | cons g gs ih =>
    intro hs q M h j h1
    obtain ⟨hq, h⟩ := h
    have hle : ∀ (gs : List Group) (q : Nat), Consec gs q M → q ≤ M := by
      intro gs
      induction gs with
      | nil => intro q h; cases h; omega
      | cons a gs ih => intro q h; have := ih _ h.2; omega
    have := hle gs _ h
    rw [List.cons_append, offOf, if_neg (by omega)]
    exact ih h j h1

theorem offOf_full (c : Ctx) (n : Nat) : ∀ a j, 8 * a ≤ j → j < 8 * (a + n) →
    offOf ((List.range' a n).map fun g => (⟨8 * g, 8, groupOff c (base c g)⟩ : Group)) j = groupOff c (base c (j / 8)) (j % 8) := by
  induction n with
  | zero => intro a j h1 h2; omega
  | succ n ih =>
    intro a j h1 h2
    rw [List.range'_succ, List.map_cons, offOf]
    by_cases hj : j < 8 * a + 8
    · rw [if_pos hj, show j / 8 = a by omega, show j % 8 = j - 8 * a by omega]
    · rw [if_neg hj]
      exact ih (a + 1) j (by omega) (by omega)

theorem offOf_tail (c : Ctx) (G rem : Nat) (o : Block) (h : rem < 256) (hd : rem % 32 = 0) (j : Nat) (h1 : 8 * G ≤ j)
    (h2 : j < 8 * G + rem / 32) : offOf (tailGroups c (8 * G) rem o) j = groupOff c o (j % 8) := by
  obtain ⟨k, rfl, hk⟩ : ∃ k, rem = 32 * k ∧ k < 8 := ⟨rem / 32, by omega, by omega⟩
  obtain ⟨i, rfl⟩ : ∃ i, j = 8 * G + i := ⟨j - 8 * G, by omega⟩
  have hi : i < k := by omega
  rw [show (8 * G + i) % 8 = i by omega]
  clear h1 h2 h hd
  have key : ∀ k, k < 8 → ∀ i, i < k → offOf (tailGroups c (8 * G) (32 * k) o) (8 * G + i) = groupOff c o i := by
    intro k hk i hi
    match k, hk with
    | 0, _ => omega
    | 1, _ => (match i, hi with | 0, _ => simp [tailGroups, offOf, groupOff])
    | 2, _ => (match i, hi with | 0, _ | 1, _ => simp [tailGroups, offOf, groupOff])
    | 3, _ => (match i, hi with | 0, _ | 1, _ | 2, _ => simp [tailGroups, offOf, groupOff])
    | 4, _ => (match i, hi with | 0, _ | 1, _ | 2, _ | 3, _ => simp [tailGroups, offOf, groupOff])
    | 5, _ => (match i, hi with | 0, _ | 1, _ | 2, _ | 3, _ | 4, _ => simp [tailGroups, offOf, groupOff])
    | 6, _ => (match i, hi with
      | 0, _ | 1, _ | 2, _ | 3, _ | 4, _ | 5, _ =>
        simp [tailGroups, offOf, groupOff, bx_comm, bx_left_comm])
    | 7, _ => (match i, hi with
      | 0, _ | 1, _ | 2, _ | 3, _ | 4, _ | 5, _ | 6, _ =>
        simp [tailGroups, offOf, groupOff, bx_comm, bx_left_comm])
  exact key k hk i hi

/-- C62: in both passes and for every message length, the offset of the pair number `j` is 2^(j/8+3) I plus the multiples of I
selected by the three bits of `j` mod 8; it does not depend on the length of the message. -/
theorem c62_pair_offset (c : Ctx) (bytes j : Nat) (hd : bytes % 32 = 0) (hj : j < bytes / 32) :
    offs c bytes j = groupOff c (base c (j / 8)) (j % 8) := by
  have hfull := consec_full c (bytes / 256) 0
  rw [Nat.mul_zero, Nat.zero_add] at hfull
  rw [offs, groups, List.range_eq_range']
  by_cases h : j < 8 * (bytes / 256)
  · rw [offOf_append_lt hfull j (by omega) h]
    exact offOf_full c _ 0 j (by omega) (by omega)
  · rw [offOf_append_ge hfull j (by omega), offOf_tail c _ _ _ (by omega) (by omega) j (by omega) (by omega)]
    congr 2
    omega

theorem val_bx (a b : Block) : Spec.val (bx a b) = Spec.val a ^^^ Spec.val b := by
  have hb : bswap (bx a b) = bx (bswap a) (bswap b) := rfl
  rw [val_eq, val_eq, val_eq, hb]
  apply Nat.eq_of_testBit_eq
  intro k
  rw [Nat.testBit_xor, leNat_ofFn_testBit, leNat_ofFn_testBit, leNat_ofFn_testBit]
  by_cases h : k < 128 <;> simp [lb, bx, h]

/-- The offset of pair `j` for the key part `v` = I: 2^(j/8+3) v + (j mod 8) v, where the product by `j` mod 8 is the sum of the
multiples selected by its bits. -/
def Spec.offset (v j : Nat) : Nat :=
  Spec.double^[j / 8 + 3] v ^^^ (if j % 2 = 1 then v else 0) ^^^ (if j / 2 % 2 = 1 then Spec.double v else 0) ^^^
    (if j / 4 % 2 = 1 then Spec.double (Spec.double v) else 0)

/-- C62: for every key and message length, both passes use for pair `j` the offset `Spec.offset I j`. -/
theorem c62_pair_value (key : Nat → UInt8) (bytes j : Nat) (hd : bytes % 32 = 0) (hj : j < bytes / 32) :
    Spec.val (offs (setup key) bytes j) = Spec.offset (Spec.val (blk key 0)) j := by
  rw [c62_pair_offset _ bytes j hd hj, Spec.offset, ← c62_offsets]
  obtain ⟨h0, -, -, h1, h2, -, -⟩ := c62_schedule key
  rw [← h2, ← h1, ← h0]
  have h8 : j % 8 < 8 := by omega
  have e1 : j % 2 = j % 8 % 2 := by omega
  have e2 : j / 2 % 2 = j % 8 / 2 % 2 := by omega
  have e3 : j / 4 % 2 = j % 8 / 4 := by omega
  rw [e1, e2, e3]
  generalize j % 8 = i at h8
  match i, h8 with
  | 0, _ | 1, _ | 2, _ | 3, _ | 4, _ | 5, _ | 6, _ | 7, _ => simp [groupOff, val_bx, Nat.xor_assoc]

example : Spec.double 1 = 2 ∧ Spec.double (2 ^ 127) = 0x87 ∧ Spec.double (2 ^ 127 + 2 ^ 6) = 0x07 := by decide
example : Spec.val (setup fun i => if i = 15 then 3 else 0).I2 = 12 := by
  rw [(c62_schedule _).2.2.2.2.1]; decide +kernel

end Verif.Aez
