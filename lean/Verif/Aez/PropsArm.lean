import Verif.Aez.ArmFun
import Verif.Aez.AesRound

/-!
# The PRP is the same function on ARMv8 and on x86-64 (C79)

`Arm.*` is aez.c with the helpers of the branch for `__ARM_FEATURE_CRYPTO`, with `S` and `M` for what `vaeseq_u8` does after the addition of
the key and what `vaesmcq_u8` does; the functions without `Arm.` are aez.c with the helpers for AES-NI, with `R` for what `_mm_aesenc_si128`
does before the addition of the key.
-/

namespace Verif.Aez

open Verif

section
variable {R S M : Block → Block} (hR : ∀ x, R x = M (S x))
include hR

/-- The round of one processor in terms of the instructions of the other. -/
theorem round_eq : (fun x => M (S x)) = R := funext fun x => (hR x).symm

/-- Contexts: the same for every key. -/
theorem c79_context (avail : Bool) (key : Option Bytes) : Arm.mkPrp avail key = mkPrp avail key := by rw [Arm.mkPrp_eq]

/-- Strings: the same result, exception included, for every context, direction and string. -/
theorem c79_string (avail : Bool) (ctx : Option Ctx) (junk : Nat → UInt8) (d : Bool) (s : Bytes) :
    Arm.prpString S M avail ctx junk d s = prpString R avail ctx junk d s := by
  rw [Arm.prpString_eq, round_eq hR]

/-- Integers. -/
theorem c79_integer (avail : Bool) (ctx : Option Ctx) (junk : Nat → UInt8) (d : Bool) (n x : Nat) :
    Arm.prpInt S M avail ctx junk d n x = prpInt R avail ctx junk d n x := by
  rw [Arm.prpInt_eq, round_eq hR]

/-- Memory: the same bytes in the same places, for separate buffers and in place, and undefined behaviour for the same arguments. -/
theorem c79_memory (c : Ctx) (d al : Bool) (bytes : Nat) (m : Mem) : Arm.aez S M c d al bytes m = aez R c d al bytes m := by
  rw [Arm.aez_eq, round_eq hR]

/-- What one machine encrypts the other decrypts, with contexts each machine made from the same key, in both directions. -/
theorem c79_exchange (key : Bytes) (junk junk' : Nat → UInt8) (d : Bool) (s : Bytes) (h : s.length ≤ 4294967295) :
    ∃ cx ca, mkPrp true (some key) = .ok cx ∧ Arm.mkPrp true (some key) = .ok ca ∧
      (∃ r, prpString R true (some cx) junk d s = .ok r ∧ r.length = s.length ∧ Arm.prpString S M true (some ca) junk' (!d) r = .ok s) ∧
      (∃ r, Arm.prpString S M true (some ca) junk d s = .ok r ∧ r.length = s.length ∧ prpString R true (some cx) junk' (!d) r = .ok s) := by
  obtain ⟨c, r, h1, h2, h3, h4⟩ := c30_from_key R key junk junk' d s h
  refine ⟨c, c, h1, by rw [Arm.mkPrp_eq, h1], ⟨r, h2, h3, ?_⟩, ⟨r, ?_, h3, h4⟩⟩
  · rw [c79_string hR, h4]
  · rw [c79_string hR, h2]

end

/-! ## With AES -/

/-- SubBytes and ShiftRows. -/
def AesSpec.subShift (b : Block) : Block := fun k => UInt8.ofNat (AesSpec.shifted b (k.1 % 4) (k.1 / 4))

/-- MixColumns. -/
def AesSpec.mixCols (b : Block) : Block := fun k =>
  let i := k.1 % 4
  let j := k.1 / 4
  UInt8.ofNat (AesSpec.gmul (AesSpec.state b i j) 2 ^^^ AesSpec.gmul (AesSpec.state b ((i + 1) % 4) j) 3 ^^^
    AesSpec.state b ((i + 2) % 4) j ^^^ AesSpec.state b ((i + 3) % 4) j)

theorem xtime_lt {a : Nat} (h : a < 256) : AesSpec.xtime a < 256 := by
  unfold AesSpec.xtime
  split
  · omega
  · exact Nat.xor_lt_two_pow (n := 8) (by omega) (by decide)

theorem mul_lt : ∀ (n a b : Nat), a < 256 → AesSpec.mul a n b < 256
  | 0, _, _, _ => Nat.zero_lt_succ 255
  | n + 1, a, b, h => Nat.xor_lt_two_pow (n := 8) (by split <;> omega) (mul_lt n _ _ (xtime_lt h))

theorem inv_lt {a : Nat} (h : a < 256) : AesSpec.inv a < 256 := by
  have : ∀ (l : List Nat) (x : Nat), x < 256 → l.foldl (fun x _ => AesSpec.gmul x a) x < 256 := by
    intro l
    induction l with
    | nil => exact fun x hx => hx
    | cons _ l ih => exact fun x hx => ih _ (mul_lt 8 x a hx)
  exact this _ _ h

theorem rotl_lt {b : Nat} (h : b < 256) : AesSpec.rotl b 1 < 256 ∧ AesSpec.rotl b 2 < 256 ∧ AesSpec.rotl b 3 < 256 ∧ AesSpec.rotl b 4 < 256 := by
  simp only [AesSpec.rotl, show (2 : Nat) ^ 1 = 2 by decide, show (2 : Nat) ^ (8 - 1) = 128 by decide, show (2 : Nat) ^ 2 = 4 by decide,
    show (2 : Nat) ^ (8 - 2) = 64 by decide, show (2 : Nat) ^ 3 = 8 by decide, show (2 : Nat) ^ (8 - 3) = 32 by decide,
    show (2 : Nat) ^ 4 = 16 by decide]
  omega

theorem sbox_lt {a : Nat} (h : a < 256) : AesSpec.sboxOf a < 256 := by
  have hb := inv_lt h
  obtain ⟨h1, h2, h3, h4⟩ := rotl_lt hb
  exact Nat.xor_lt_two_pow (n := 8) (Nat.xor_lt_two_pow (n := 8) (Nat.xor_lt_two_pow (n := 8) (Nat.xor_lt_two_pow (n := 8)
    (Nat.xor_lt_two_pow (n := 8) hb h1) h2) h3) h4) (by decide)

theorem state_subShift (b : Block) (i j : Nat) (hi : i < 4) (hj : j < 4) :
    AesSpec.state (AesSpec.subShift b) i j = AesSpec.shifted b i j := by
  have hk : (Fin.ofNat 16 (i + 4 * j)).1 = i + 4 * j := Nat.mod_eq_of_lt (by omega)
  rw [AesSpec.state, AesSpec.subShift, hk, show (i + 4 * j) % 4 = i by omega, show (i + 4 * j) / 4 = j by omega]
  have hlt : AesSpec.shifted b i j < 256 := sbox_lt (b _).toNat_lt
  rw [UInt8.toNat_ofNat']
  exact Nat.mod_eq_of_lt hlt

/-- The round of FIPS 197 is MixColumns after ShiftRows and SubBytes. -/
theorem aes_split (b : Block) : AesSpec.round b = AesSpec.mixCols (AesSpec.subShift b) := by
  funext k
  have hk := k.2
  simp only [AesSpec.round, AesSpec.mixed, AesSpec.mixCols]
  rw [state_subShift _ _ _ (by omega) (by omega), state_subShift _ _ _ (by omega) (by omega), state_subShift _ _ _ (by omega) (by omega),
    state_subShift _ _ _ (by omega) (by omega)]

/-- With AES on the processor: on ARMv8, for every 48-byte key and every string, the two functions are AEZ as published, over AES. -/
theorem c79_aes {key : Bytes} (hk : key.length = 48) (junk : Nat → UInt8) (s : Bytes) (h : s.length ≤ 4294967295) :
    ∃ c, Arm.mkPrp true (some key) = .ok c ∧
      Arm.prpString AesSpec.subShift AesSpec.mixCols true (some c) junk false s = .ok (AezSpec.encipher (roundNat AesSpec.round) (AezSpec.key key) s) ∧
      Arm.prpString AesSpec.subShift AesSpec.mixCols true (some c) junk true s = .ok (AezSpec.decipher (roundNat AesSpec.round) (AezSpec.key key) s) := by
  obtain ⟨c, h1, h2, h3⟩ := c70_aes hk junk s h
  refine ⟨c, by rw [Arm.mkPrp_eq, h1], ?_, ?_⟩
  · rw [c79_string aes_split, h2]
  · rw [c79_string aes_split, h3]

/-! ## Helpers -/

/-- `double_block` on ARMv8, without any reversal of bytes, doubles in GF(2^128) with the first byte the most significant. -/
theorem c79_double (x : Block) : Spec.val (Arm.dbl x) = Spec.double (Spec.val x) := by
  rw [Arm.dbl_eq, val_dbl]

/-- The shifts by four bits: to the left and to the right, with the first byte the most significant, on both processors. -/
theorem c79_shift (x : Block) :
    Arm.bswap (Arm.srl4 (Arm.bswap x)) = bswap (srl4 (bswap x)) ∧ Arm.bswap (Arm.sll4 (Arm.bswap x)) = bswap (sll4 (bswap x)) :=
  ⟨Arm.srl4_eq x, Arm.sll4_eq x⟩

/-- `is_zero` on ARMv8. -/
theorem c79_is_zero (x : Block) : Arm.isZero x = true ↔ ∀ i, x i = 0 := by
  rw [Arm.isZero_iff]
  exact ⟨fun h i => by rw [h]; rfl, fun h => funext h⟩

/-- Line 743 applies `sll4` without the reversals around it. On the masks that occur both processors give the same. -/
theorem c79_masks {bytes : Nat} (h : bytes < 32) : Arm.tinyMasks bytes = tinyMasks bytes := Arm.tinyMasks_eq h

/-- In general they do not: a one in the lowest bit of byte 3 goes to byte 4 on ARMv8 and to byte 2 on x86-64. -/
theorem c79_sll4_differs : Arm.sll4 (zeroSetByte 1 3) ≠ sll4 (zeroSetByte 1 3) := fun h => absurd (congrFun h 4) (by decide)

/-! ## Examples -/

example (x : Block) : AesSpec.round x = AesSpec.mixCols (AesSpec.subShift x) := aes_split x

example : List.ofFn (Arm.dbl (AesSpec.ofBytes [0x80, 0, 0, 0, 0x80, 0, 0, 0, 0, 0, 0, 0, 0, 0, 0, 1])) =
    [0, 0, 0, 1, 0, 0, 0, 0, 0, 0, 0, 0, 0, 0, 0, 0x85] := by decide

/-- One string of three bytes, encrypted with AES-NI and decrypted with the instructions of ARMv8. -/
example : ∃ cx ca, mkPrp true (some exKey48) = .ok cx ∧ Arm.mkPrp true (some exKey48) = .ok ca ∧
    (∃ r, prpString AesSpec.round true (some cx) (fun _ => 0) false [1, 2, 3] = .ok r ∧ r.length = 3 ∧
      Arm.prpString AesSpec.subShift AesSpec.mixCols true (some ca) (fun _ => 1) true r = .ok [1, 2, 3]) ∧
    (∃ r, Arm.prpString AesSpec.subShift AesSpec.mixCols true (some ca) (fun _ => 0) false [1, 2, 3] = .ok r ∧ r.length = 3 ∧
      prpString AesSpec.round true (some cx) (fun _ => 1) true r = .ok [1, 2, 3]) :=
  c79_exchange aes_split exKey48 _ _ false [1, 2, 3] (by decide)

example : ∃ c, Arm.mkPrp true (some exKey48) = .ok c ∧
      Arm.prpString AesSpec.subShift AesSpec.mixCols true (some c) (fun _ => 0) false [1, 2, 3] = .ok (AezSpec.encipher (roundNat AesSpec.round) (AezSpec.key exKey48) [1, 2, 3]) ∧
      Arm.prpString AesSpec.subShift AesSpec.mixCols true (some c) (fun _ => 0) true [1, 2, 3] = .ok (AezSpec.decipher (roundNat AesSpec.round) (AezSpec.key exKey48) [1, 2, 3]) :=
  c79_aes (by decide) _ _ (by decide)

example (c : Ctx) : Arm.prpInt AesSpec.subShift AesSpec.mixCols true (some c) (fun _ => 0) false 4 77 =
    prpInt AesSpec.round true (some c) (fun _ => 0) false 4 77 := c79_integer aes_split true (some c) _ false 4 77

example (c : Ctx) : Arm.aez AesSpec.subShift AesSpec.mixCols c false true 1000 ⟨Buf.ofList [], Buf.ofList (List.replicate 1000 7)⟩ =
    aez AesSpec.round c false true 1000 ⟨Buf.ofList [], Buf.ofList (List.replicate 1000 7)⟩ := c79_memory aes_split c false true 1000 _

/-- The masks for five bytes. -/
example : (fun p : Block × Block => (List.ofFn p.1, List.ofFn p.2)) <$> Arm.tinyMasks 5 =
    Res.ok ([0xff, 0xff, 0xf0, 0, 0, 0, 0, 0, 0, 0, 0, 0, 0, 0, 0, 0], [0, 0, 8, 0, 0, 0, 0, 0, 0, 0, 0, 0, 0, 0, 0, 0]) := by decide

example : Arm.isZero (fun i => if i.1 = 11 then 1 else 0) = false := by decide

end Verif.Aez
