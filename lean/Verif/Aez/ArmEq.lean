import Verif.Aez.ModelArm
import Verif.Aez.Doubling

/-!
# The ARMv8 branch of `aez.c` computes what the AES-NI branch computes: the helpers (for C79)
-/

namespace Verif.Aez.Arm

open Verif

/-! ## Bytes -/

theorem byte_ext {a b : UInt8} (h : ∀ j, j < 8 → a.toNat.testBit j = b.toNat.testBit j) : a = b := by
  apply UInt8.toNat_inj.mp
  apply Nat.eq_of_testBit_eq
  intro j
  by_cases hj : j < 8
  · exact h j hj
  · have hlt : ∀ (b : UInt8), b.toNat.testBit j = false := fun b =>
      Nat.testBit_lt_two_pow (Nat.lt_of_lt_of_le b.toNat_lt (Nat.pow_le_pow_right (by omega) (by omega)))
    rw [hlt, hlt]

theorem byte_high (a : UInt8) (j : Nat) (hj : 8 ≤ j) : a.toNat.testBit j = false :=
  Nat.testBit_lt_two_pow (Nat.lt_of_lt_of_le a.toNat_lt (Nat.pow_le_pow_right (by omega) hj))

theorem all_bytes {p : UInt8 → Prop} [DecidablePred p] (h : ∀ n : Fin 256, p (UInt8.ofNat n.1)) (a : UInt8) : p a := by
  have := h ⟨a.toNat, a.toNat_lt⟩
  simpa using this

/-- The high half of a byte. -/
theorem sar4 (a : UInt8) : ((a >>> 4) ||| (if a ≥ 128 then ~~~ ((0xff : UInt8) >>> (4 : UInt8)) else 0)) &&& (15 : UInt8) = a >>> 4 :=
  all_bytes (p := fun a => ((a >>> 4) ||| (if a ≥ 128 then ~~~ ((0xff : UInt8) >>> (4 : UInt8)) else 0)) &&& (15 : UInt8) = a >>> 4) (by decide +kernel) a

/-- The sign of a byte in all bits. -/
theorem sar7 (a : UInt8) : (a >>> 7) ||| (if a ≥ 128 then ~~~ ((0xff : UInt8) >>> (7 : UInt8)) else 0) = if a ≥ 128 then (0xff : UInt8) else 0 :=
  all_bytes (p := fun a => (a >>> 7) ||| (if a ≥ 128 then ~~~ ((0xff : UInt8) >>> (7 : UInt8)) else 0) = if a ≥ 128 then (0xff : UInt8) else 0) (by decide +kernel) a

theorem low4 (a : UInt8) : (a &&& 15) <<< 4 = a <<< 4 :=
  all_bytes (p := fun a => (a &&& 15) <<< 4 = a <<< 4) (by decide +kernel) a

theorem shl_testBit (a : UInt8) (n : Nat) (hn : n < 8) (j : Nat) (hj : j < 8) :
    (a <<< UInt8.ofNat n).toNat.testBit j = (decide (n ≤ j) && a.toNat.testBit (j - n)) := by
  rw [UInt8.toNat_shiftLeft, show (UInt8.ofNat n).toNat % 8 = n by
    rw [UInt8.toNat_ofNat_of_lt' (by simp [UInt8.size]; omega)]; exact Nat.mod_eq_of_lt hn, Nat.testBit_mod_two_pow, Nat.testBit_shiftLeft]
  simp [hj]

theorem shr_testBit (a : UInt8) (n : Nat) (hn : n < 8) (j : Nat) :
    (a >>> UInt8.ofNat n).toNat.testBit j = a.toNat.testBit (n + j) := by
  rw [UInt8.toNat_shiftRight, show (UInt8.ofNat n).toNat % 8 = n by
    rw [UInt8.toNat_ofNat_of_lt' (by simp [UInt8.size]; omega)]; exact Nat.mod_eq_of_lt hn, Nat.testBit_shiftRight]

/-- The two halves of a byte do not meet. -/
theorem nibbles (a b : UInt8) : (a >>> 4) ^^^ (b <<< 4) = (b <<< 4) ||| (a >>> 4) := by
  apply byte_ext
  intro j hj
  rw [UInt8.toNat_xor, UInt8.toNat_or, Nat.testBit_xor, Nat.testBit_or]
  rw [show (4 : UInt8) = UInt8.ofNat 4 from rfl, shl_testBit b 4 (by omega) j hj, shr_testBit a 4 (by omega) j]
  by_cases h : 4 ≤ j
  · rw [byte_high a (4 + j) (by omega)]; simp
  · simp [h]

/-! ## Shifts and doubling -/

theorem vec_get (l : Bytes) (i : Fin 16) : vec l i = l.getD i.1 0 := rfl

/-- `srl4` on ARM is `srl4` between two `bswap16` on x86. -/
theorem srl4_eq (x : Block) : srl4 x = Aez.bswap (Aez.srl4 (Aez.bswap x)) := by
  funext i
  have hi := i.2
  show (((vext x x 1 i >>> 4) ||| (if vext x x 1 i ≥ 128 then ~~~ ((0xff : UInt8) >>> (4 : UInt8)) else 0)) &&& vec _ i) ^^^ (x i <<< 4) = _
  simp only [Aez.bswap, Aez.srl4]
  by_cases h : i.1 < 15
  · have hm : vec [15, 15, 15, 15, 15, 15, 15, 15, 15, 15, 15, 15, 15, 15, 15, 0] i = 15 := by
      have : ∀ i : Fin 16, i.1 < 15 → vec [15, 15, 15, 15, 15, 15, 15, 15, 15, 15, 15, 15, 15, 15, 15, 0] i = 15 := by decide
      exact this i h
    rw [hm, sar4, nibbles, if_pos (by omega : 0 < 15 - i.1)]
    have e1 : (⟨15 - (15 - i.1), by omega⟩ : Fin 16) = i := Fin.ext (by simp only; omega)
    have e2 : vext x x 1 i = x ⟨15 - (15 - i.1 - 1), by omega⟩ := by
      rw [vext, dif_pos (by omega)]; exact congrArg x (Fin.ext (by simp only; omega))
    rw [e1, e2]
  · have h15 : i = 15 := Fin.ext (show i.1 = 15 by omega)
    subst h15
    have hm : vec [15, 15, 15, 15, 15, 15, 15, 15, 15, 15, 15, 15, 15, 15, 15, 0] 15 = 0 := rfl
    rw [hm, UInt8.and_zero, UInt8.zero_xor]
    show x 15 <<< 4 = x 15 <<< 4 ||| 0
    rw [UInt8.or_zero]

/-- `sll4` on ARM is `sll4` between two `bswap16` on x86. -/
theorem sll4_eq (x : Block) : sll4 x = Aez.bswap (Aez.sll4 (Aez.bswap x)) := by
  funext i
  have hi := i.2
  show ((vext x x 15 i &&& vec _ i) <<< 4) ^^^ (x i >>> 4) = _
  simp only [Aez.bswap, Aez.sll4]
  have e1 : (⟨15 - (15 - i.1), by omega⟩ : Fin 16) = i := Fin.ext (by simp only; omega)
  by_cases h : 0 < i.1
  · have hm : vec [0, 15, 15, 15, 15, 15, 15, 15, 15, 15, 15, 15, 15, 15, 15, 15] i = 15 := by
      have : ∀ i : Fin 16, 0 < i.1 → vec [0, 15, 15, 15, 15, 15, 15, 15, 15, 15, 15, 15, 15, 15, 15, 15] i = 15 := by decide
      exact this i h
    rw [hm, low4, dif_pos (by omega : 15 - i.1 < 15), UInt8.xor_comm, nibbles, UInt8.or_comm]
    have e2 : vext x x 15 i = x ⟨15 - (15 - i.1 + 1), by omega⟩ := by
      rw [vext, dif_neg (by omega)]; exact congrArg x (Fin.ext (by simp only; omega))
    rw [e1, e2]
  · have h0 : i = 0 := Fin.ext (show i.1 = 0 by omega)
    subst h0
    have hm : vec [0, 15, 15, 15, 15, 15, 15, 15, 15, 15, 15, 15, 15, 15, 15, 15] 0 = 0 := rfl
    rw [hm]
    simp

theorem lb_ext {x y : Block} (h : ∀ k, k < 128 → lb x k = lb y k) : x = y := by
  funext i
  apply byte_ext
  intro j hj
  have hi := i.2
  have := h (8 * i.1 + j) (by omega)
  rw [lb, lb, dif_pos (by omega), dif_pos (by omega)] at this
  have e : (⟨(8 * i.1 + j) / 8, by omega⟩ : Fin 16) = i := Fin.ext (by simp only; omega)
  rw [e, show (8 * i.1 + j) % 8 = j by omega] at this
  exact this

/-- The byte at `i` after doubling on ARM. -/
theorem dbl_byte (x : Block) (i : Fin 16) :
    dbl x i = ((if x ⟨(i.1 + 1) % 16, Nat.mod_lt _ (by decide)⟩ ≥ 128 then (0xff : UInt8) else 0) &&& (if i.1 = 15 then (135 : UInt8) else 1)) ^^^ (x i <<< 1) := by
  have hi := i.2
  show (vext _ _ 1 i) ^^^ (x i <<< 1) = _
  congr 1
  have e : vext (band (vshrS x 7) (vec [135, 1, 1, 1, 1, 1, 1, 1, 1, 1, 1, 1, 1, 1, 1, 1]))
      (band (vshrS x 7) (vec [135, 1, 1, 1, 1, 1, 1, 1, 1, 1, 1, 1, 1, 1, 1, 1])) 1 i =
      band (vshrS x 7) (vec [135, 1, 1, 1, 1, 1, 1, 1, 1, 1, 1, 1, 1, 1, 1, 1]) ⟨(i.1 + 1) % 16, Nat.mod_lt _ (by decide)⟩ := by
    rw [vext]
    by_cases h : i.1 + 1 < 16
    · rw [dif_pos h]; exact congrArg _ (Fin.ext (by simp only; omega))
    · rw [dif_neg h]; exact congrArg _ (Fin.ext (by simp only; omega))
  rw [e]
  have hm : ∀ i : Fin 16, vec [135, 1, 1, 1, 1, 1, 1, 1, 1, 1, 1, 1, 1, 1, 1, 1] ⟨(i.1 + 1) % 16, Nat.mod_lt _ (by decide)⟩ =
      if i.1 = 15 then (135 : UInt8) else 1 := by decide
  rw [band, hm i, vshrS, sar7]

theorem top_bit (a : UInt8) : a.toNat.testBit 7 = decide (a ≥ 128) :=
  all_bytes (p := fun a => a.toNat.testBit 7 = decide (a ≥ 128)) (by decide +kernel) a

theorem sign_testBit (a m : UInt8) (j : Nat) (hj : j < 8) :
    ((if a ≥ 128 then (0xff : UInt8) else 0) &&& m).toNat.testBit j = (a.toNat.testBit 7 && m.toNat.testBit j) := by
  rw [UInt8.toNat_and, Nat.testBit_and, top_bit]
  by_cases h : a ≥ 128
  · have : (0xff : UInt8).toNat.testBit j = true := by
      rw [show (0xff : UInt8).toNat = 2 ^ 8 - 1 from rfl, Nat.testBit_two_pow_sub_one]; simp [hj]
    rw [if_pos h, this]; simp [h]
  · rw [if_neg h]; simp [h]

/-- `double_block` on ARM is `double_block` between two `bswap16` on x86. -/
theorem dbl_eq (x : Block) : dbl x = Aez.bswap (Aez.dbl (Aez.bswap x)) := by
  have key : Aez.bswap (dbl x) = Aez.dbl (Aez.bswap x) := by
    apply lb_ext
    intro k hk
    rw [lb_dbl _ k hk]
    rw [lb, dif_pos hk]
    simp only [Aez.bswap]
    rw [dbl_byte, UInt8.toNat_xor, Nat.testBit_xor, sign_testBit _ _ _ (by omega), show (1 : UInt8) = UInt8.ofNat 1 from rfl,
      shl_testBit _ 1 (by omega) _ (by omega), Bool.xor_comm]
    simp only [lb, Aez.bswap, show (127 : Nat) < 128 by omega, dite_true]
    rw [dif_pos (show k - 1 < 128 by omega)]
    by_cases h8 : k < 8
    · -- the last byte
      have e0 : 15 - k / 8 = 15 := by omega
      simp only [e0, if_true]
      have e1 : (135 : UInt8).toNat.testBit (k % 8) = (0x87 : Nat).testBit k := by
        rw [show (135 : UInt8).toNat = 0x87 from rfl, show k % 8 = k by omega]
      rw [e1]
      by_cases hz : k = 0
      · subst hz; simp
      · simp only [show 1 ≤ k % 8 by omega, show 0 < k by omega, decide_true, Bool.true_and, show (k - 1) / 8 = 0 by omega,
          show k % 8 - 1 = (k - 1) % 8 by omega]
    · have h87 : (0x87 : Nat).testBit k = false :=
        Nat.testBit_lt_two_pow (Nat.lt_of_lt_of_le (by decide : 0x87 < 2 ^ 8) (Nat.pow_le_pow_right (by omega) (by omega)))
      have e0 : 15 - k / 8 ≠ 15 := by omega
      rw [h87, if_neg e0, Bool.and_false, Bool.xor_false]
      simp only [show 0 < k by omega, decide_true, Bool.true_and]
      by_cases hz : k % 8 = 0
      · simp only [hz, show ¬ 1 ≤ 0 by omega, decide_false, Bool.false_and, Bool.false_xor]
        rw [show (UInt8.ofNat 1).toNat.testBit 0 = true from rfl, Bool.and_true, show (k - 1) % 8 = 7 by omega]
        congr 2
        exact congrArg x (Fin.ext (by simp only; omega))
      · have h1 : (UInt8.ofNat 1).toNat.testBit (k % 8) = false :=
          Nat.testBit_lt_two_pow (Nat.lt_of_lt_of_le (by decide : 1 < 2 ^ 1) (Nat.pow_le_pow_right (by omega) (by omega)))
        rw [h1, Bool.and_false, Bool.xor_false]
        simp only [show 1 ≤ k % 8 by omega, decide_true, Bool.true_and, show (k - 1) / 8 = k / 8 by omega,
          show k % 8 - 1 = (k - 1) % 8 by omega]
  rw [← key, bswap_bswap]

end Verif.Aez.Arm
