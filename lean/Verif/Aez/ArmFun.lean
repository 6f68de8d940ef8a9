import Verif.Aez.ArmEq

/-!
# The ARMv8 branch of `aez.c` computes what the AES-NI branch computes: the functions (for C79)
-/

namespace Verif.Aez.Arm

open Verif

theorem dbl_between (x : Block) : bswap (dbl (bswap x)) = Aez.bswap (Aez.dbl (Aez.bswap x)) := dbl_eq x

section
variable (S M : Block → Block)

theorem aes4_eq : aes4 S M = Aez.aes4 (fun x => M (S x)) := by
  funext x a b c d
  simp only [aes4, round, Aez.aes4, aesenc, bx_zero]

theorem aes_eq : aes S M = Aez.aes (fun x => M (S x)) := by
  funext c x fk
  simp only [aes, round, Aez.aes, aesenc]

theorem setup_eq (key : Nat → UInt8) : setup key = Aez.setup key := by
  simp only [setup, Aez.setup, bswap, dbl_eq, bswap_bswap]

theorem hash_eq (c : Ctx) : hash S M c = Aez.hash (fun x => M (S x)) c := by
  simp only [hash, Aez.hash, bswap, dbl_eq, bswap_bswap, aes4_eq]

theorem ifd_eq (c : Ctx) : ∀ g, ifd c g = Aez.bswap (Aez.ifd c g)
  | 0 => by simp only [ifd, Aez.ifd, bswap, dbl_eq]
  | g + 1 => by rw [ifd, Aez.ifd, ifd_eq c g, dbl_eq, bswap_bswap]

theorem base_eq (c : Ctx) : base c = Aez.base c := by
  funext g
  rw [base, Aez.base, bswap, ifd_eq]

theorem groups_eq (c : Ctx) (bytes : Nat) : groups c bytes = Aez.groups c bytes := by
  simp only [groups, Aez.groups, base_eq]

theorem oneA_eq : oneA S M = Aez.oneA (fun x => M (S x)) := by
  funext c al g k m
  simp only [oneA, Aez.oneA, aes4_eq]

theorem oneB_eq : oneB S M = Aez.oneB (fun x => M (S x)) := by
  funext c al g k s
  simp only [oneB, Aez.oneB, aes4_eq]

theorem oneGroup_eq : oneGroup S M = Aez.oneGroup (fun x => M (S x)) := by
  funext c al g s
  simp only [oneGroup, Aez.oneGroup, oneA_eq, oneB_eq]

theorem passOne_eq : passOne S M = Aez.passOne (fun x => M (S x)) := by
  funext c al bytes m
  simp only [passOne, Aez.passOne, oneGroup_eq, groups_eq]

theorem twoA_eq : twoA S M = Aez.twoA (fun x => M (S x)) := by
  funext c s g k v
  simp only [twoA, Aez.twoA, aes4_eq]

theorem twoB_eq : twoB S M = Aez.twoB (fun x => M (S x)) := by
  funext c tmp g k m
  simp only [twoB, Aez.twoB, aes4_eq]

theorem twoC_eq : twoC S M = Aez.twoC (fun x => M (S x)) := by
  funext c g k m
  simp only [twoC, Aez.twoC, aes4_eq]

theorem twoGroup_eq : twoGroup S M = Aez.twoGroup (fun x => M (S x)) := by
  funext c s g v
  simp only [twoGroup, Aez.twoGroup, twoA_eq, twoB_eq, twoC_eq]

theorem passTwo_eq : passTwo S M = Aez.passTwo (fun x => M (S x)) := by
  funext c s bytes m
  simp only [passTwo, Aez.passTwo, twoGroup_eq, groups_eq]

theorem coreFrag_eq : coreFrag S M = Aez.coreFrag (fun x => M (S x)) := by
  funext c al m initial frag x
  simp only [coreFrag, Aez.coreFrag, aes4_eq]

theorem coreFragOut_eq : coreFragOut S M = Aez.coreFragOut (fun x => M (S x)) := by
  funext c m s f0 f1 initial frag y
  simp only [coreFragOut, Aez.coreFragOut, aes4_eq, aes_eq]

theorem core_eq : core S M = Aez.core (fun x => M (S x)) := by
  funext c t d al bytes m
  simp only [core, Aez.core, passOne_eq, passTwo_eq, coreFrag_eq, coreFragOut_eq, aes4_eq, aes_eq]

/-! ## Short messages -/

/-- `sll4` without `bswap16` gives the same on both if all low halves of the bytes are zero. -/
theorem sll4_single {x : Block} (h : ∀ i, x i <<< 4 = 0) : sll4 x = Aez.sll4 x := by
  funext i
  rw [sll4_eq]
  simp only [Aez.bswap, Aez.sll4, h]
  have e1 : (⟨15 - (15 - i.1), by omega⟩ : Fin 16) = i := Fin.ext (by simp only; omega)
  rw [e1]
  simp

theorem pad_low (i : Nat) (h : 16 ≤ i) : pad.data i <<< 4 = 0 := by
  show (if i < 16 then (0xff : UInt8) else if i = 32 then 0x80 else 0) <<< 4 = 0
  rw [if_neg (by omega)]
  by_cases h32 : i = 32
  · rw [if_pos h32]; rfl
  · rw [if_neg h32]; rfl

theorem tinyMasks_eq {bytes : Nat} (h : bytes < 32) : tinyMasks bytes = Aez.tinyMasks bytes := by
  simp only [tinyMasks, Aez.tinyMasks]
  have hl : ld pad (32 - bytes / 2) = .ok (blk pad.data (32 - bytes / 2)) := by
    rw [ld, if_pos (show 32 - bytes / 2 + 16 ≤ pad.size from (by omega : 32 - bytes / 2 + 16 ≤ 48))]
  have hs : sll4 (blk pad.data (32 - bytes / 2)) = Aez.sll4 (blk pad.data (32 - bytes / 2)) :=
    sll4_single fun i => pad_low _ (by omega)
  rw [hl]
  cases ld pad (16 - bytes / 2) with
  | ub => rfl
  | exc e => rfl
  | ok ff => simp only [Res.bind_ok, hs]

theorem tinyRight_eq : tinyRight = Aez.tinyRight := by
  funext bytes buf
  simp only [tinyRight, Aez.tinyRight, bswap, srl4_eq]

theorem tinyJoin_eq : tinyJoin = Aez.tinyJoin := by
  funext bytes buf l r
  simp only [tinyJoin, Aez.tinyJoin, bswap, sll4_eq]

theorem feistel_eq (c : Ctx) (t ff m10 one : Block) : ∀ n rcon lr,
    feistel S M c t ff m10 one n rcon lr = Aez.feistel (fun x => M (S x)) c t ff m10 one n rcon lr
  | 0, _, _ => by simp only [feistel, Aez.feistel]
  | n + 1, rcon, (l, r) => by simp only [feistel, Aez.feistel, aes4_eq, feistel_eq c t ff m10 one n]

theorem topBit_eq : topBit S M = Aez.topBit (fun x => M (S x)) := by
  funext c t0 x
  simp only [topBit, Aez.topBit, aes4_eq]

theorem tinyLeft_eq : tinyLeft S M = Aez.tinyLeft (fun x => M (S x)) := by
  funext c t0 d bytes l
  simp only [tinyLeft, Aez.tinyLeft, topBit_eq]

theorem tinyFinish_eq : tinyFinish S M = Aez.tinyFinish (fun x => M (S x)) := by
  funext c t0 d bytes buf
  simp only [tinyFinish, Aez.tinyFinish, topBit_eq]

theorem tiny_eq (c : Ctx) (t : Block) (d al : Bool) {bytes : Nat} (h : bytes < 32) (m : Mem) :
    tiny S M c t d al bytes m = Aez.tiny (fun x => M (S x)) c t d al bytes m := by
  simp only [tiny, Aez.tiny, tinyMasks_eq h, tinyRight_eq, tinyJoin_eq, feistel_eq, tinyLeft_eq, tinyFinish_eq]

theorem aez_eq : aez S M = Aez.aez (fun x => M (S x)) := by
  funext c d al bytes m
  simp only [aez, Aez.aez, hash_eq, core_eq]
  by_cases h : bytes < 32
  · simp only [tiny_eq S M _ _ _ _ h]
  · simp only [if_neg h]

theorem prpBuf_eq : prpBuf S M = Aez.prpBuf (fun x => M (S x)) := by
  funext avail ctx d al len m
  cases ctx <;> simp only [prpBuf, Aez.prpBuf, aez_eq]

theorem prpString_eq : prpString S M = Aez.prpString (fun x => M (S x)) := by
  funext avail ctx junk d inp
  simp only [prpString, Aez.prpString, prpBuf_eq]

theorem prpInt_eq : prpInt S M = Aez.prpInt (fun x => M (S x)) := by
  funext avail ctx junk d n x
  simp only [prpInt, Aez.prpInt, prpBuf_eq]

end

theorem mkPrp_eq : mkPrp = Aez.mkPrp := by
  funext avail key
  cases key <;> simp only [mkPrp, Aez.mkPrp, setup_eq]

/-! ## `is_zero` -/

theorem leNat_zero : ∀ (l : Bytes), leNat l = 0 ↔ ∀ b ∈ l, b = 0
  | [] => by simp [leNat]
  | b :: l => by
    rw [leNat, Nat.add_eq_zero_iff, Nat.mul_eq_zero, leNat_zero l]
    constructor
    · rintro ⟨h, h'⟩
      intro c hc
      rcases List.mem_cons.mp hc with hc | hc
      · rw [hc]; exact UInt8.toNat_inj.mp h
      · rcases h' with h' | h'
        · exact absurd h' (by decide)
        · exact h' c hc
    · intro h
      exact ⟨by rw [h b (by simp)]; rfl, Or.inr fun c hc => h c (by simp [hc])⟩

theorem or_zero {a b : UInt8} : a ||| b = 0 ↔ a = 0 ∧ b = 0 := by
  constructor
  · intro h
    have h' := congrArg UInt8.toNat h
    rw [UInt8.toNat_or] at h'
    have := Nat.or_eq_zero_iff.mp h'
    exact ⟨UInt8.toNat_inj.mp this.1, UInt8.toNat_inj.mp this.2⟩
  · rintro ⟨rfl, rfl⟩; rfl

theorem isZero_iff (x : Block) : isZero x = true ↔ x = bzero := by
  rw [isZero, beq_iff_eq, leNat_zero]
  constructor
  · intro h
    have h8 : ∀ i, i < 8 → x (Fin.ofNat 16 (i + 8)) = 0 ∧ x (Fin.ofNat 16 i) = 0 := fun i hi =>
      or_zero.mp (h _ (List.mem_map.mpr ⟨i, List.mem_range.mpr hi, rfl⟩))
    funext i
    have hi := i.2
    by_cases hi8 : i.1 < 8
    · have := (h8 i.1 hi8).2
      rw [show Fin.ofNat 16 i.1 = i from Fin.ext (Nat.mod_eq_of_lt hi)] at this
      exact this
    · have := (h8 (i.1 - 8) (by omega)).1
      rw [show Fin.ofNat 16 (i.1 - 8 + 8) = i from Fin.ext (by show (i.1 - 8 + 8) % 16 = i.1; omega)] at this
      exact this
  · rintro rfl b hb
    obtain ⟨i, _, rfl⟩ := List.mem_map.mp hb
    exact or_zero.mpr ⟨rfl, rfl⟩

end Verif.Aez.Arm
