import Verif.Aez.Doubling
import Verif.Aez.Spec

/-! The core computes the specification: values of blocks, and the output of messages of 32 bytes and more. -/

namespace Verif.Aez

open Verif

/-- The message as a function of the position. -/
abbrev fn (M : Bytes) : Nat → UInt8 := fun i => M.getD i 0

theorem getD_append_lt (a b : Bytes) (i : Nat) (z : UInt8) (h : i < a.length) : (a ++ b).getD i z = a.getD i z := by
  rw [List.getD_eq_getElem?_getD, List.getD_eq_getElem?_getD, List.getElem?_append_left h]

theorem getD_append_ge (a b : Bytes) (i : Nat) (z : UInt8) (h : a.length ≤ i) : (a ++ b).getD i z = b.getD (i - a.length) z := by
  rw [List.getD_eq_getElem?_getD, List.getD_eq_getElem?_getD, List.getElem?_append_right h]

theorem ofFn_blk (M : Bytes) {o : Nat} (h : o + 16 ≤ M.length) : List.ofFn (blk (fn M) o) = (M.drop o).take 16 := by
  apply List.ext_getElem
  · simp; omega
  · intro i h1 h2
    simp only [List.length_ofFn] at h1
    rw [List.getElem_ofFn, List.getElem_take, List.getElem_drop]
    simp only [blk, fn]
    rw [List.getD_eq_getElem?_getD, List.getElem?_eq_getElem (by omega)]
    rfl

theorem val_blk (M : Bytes) {o : Nat} (h : o + 16 ≤ M.length) : Spec.val (blk (fn M) o) = AezSpec.block M o := by
  rw [Spec.val, ofFn_blk M h, AezSpec.block]

theorem val_lt (b : Block) : Spec.val b < 2 ^ 128 := by rw [val_eq]; exact leNat_ofFn_lt _

theorem beBytes_val (b : Block) : beBytes 16 (Spec.val b) = List.ofFn b := by
  have := beBytes_beNat (List.ofFn b)
  rwa [List.length_ofFn] at this

@[simp] theorem val_zero : Spec.val bzero = 0 := by decide +kernel

/-- The context made from a key. -/
abbrev ctxOf (key : Bytes) : Ctx := setup (fn key)

theorem times_1 (v : Nat) : AezSpec.times 1 v = v := by simp [AezSpec.times]
theorem times_2 (v : Nat) : AezSpec.times 2 v = AezSpec.double v := by simp [AezSpec.times]
theorem times_3 (v : Nat) : AezSpec.times 3 v = v ^^^ AezSpec.double v := by simp [AezSpec.times]
theorem times_4 (v : Nat) : AezSpec.times 4 v = AezSpec.double (AezSpec.double v) := by simp [AezSpec.times]
theorem times_5 (v : Nat) : AezSpec.times 5 v = AezSpec.double (AezSpec.double v) ^^^ v := by rw [Nat.xor_comm]; simp [AezSpec.times]
theorem times_6 (v : Nat) : AezSpec.times 6 v = AezSpec.double v ^^^ AezSpec.double (AezSpec.double v) := by simp [AezSpec.times]
theorem times_7 (v : Nat) : AezSpec.times 7 v = v ^^^ (AezSpec.double v ^^^ AezSpec.double (AezSpec.double v)) := by
  rw [← Nat.xor_assoc]; simp [AezSpec.times]

section
variable {R : Block → Block} {r : Nat → Nat} (hr : ∀ b, Spec.val (R b) = r (Spec.val b)) {key : Bytes} (hk : key.length = 48)
include hr hk

omit hr in
theorem vI0 : Spec.val (ctxOf key).I0 = (AezSpec.key key).I := by
  rw [(c62_schedule _).1, val_blk _ (by omega)]; rfl
omit hr in
theorem vJ0 : Spec.val (ctxOf key).J0 = (AezSpec.key key).J := by
  rw [(c62_schedule _).2.1, val_blk _ (by omega)]; rfl
omit hr in
theorem vL : Spec.val (ctxOf key).L = (AezSpec.key key).L := by
  rw [(c62_schedule _).2.2.1, val_blk _ (by omega)]; rfl
omit hr in
theorem vI1 : Spec.val (ctxOf key).I1 = AezSpec.double (AezSpec.key key).I := by
  rw [(c62_schedule _).2.2.2.1, val_blk _ (by omega)]; rfl
omit hr in
theorem vI2 : Spec.val (ctxOf key).I2 = AezSpec.double (AezSpec.double (AezSpec.key key).I) := by
  rw [(c62_schedule _).2.2.2.2.1, val_blk _ (by omega)]; rfl
omit hr in
theorem vJ1 : Spec.val (ctxOf key).J1 = AezSpec.double (AezSpec.key key).J := by
  rw [(c62_schedule _).2.2.2.2.2.1, val_blk _ (by omega)]; rfl
omit hr in
theorem vJ2 : Spec.val (ctxOf key).J2 = AezSpec.double (AezSpec.double (AezSpec.key key).J) := by
  rw [(c62_schedule _).2.2.2.2.2.2, val_blk _ (by omega)]; rfl

omit hk in
theorem vEnc (x k : Block) : Spec.val (aesenc R x k) = r (Spec.val x) ^^^ Spec.val k := by
  rw [aesenc, val_bx, hr]

theorem vF (x : Block) : Spec.val (F R (ctxOf key) x) =
    AezSpec.aesRounds r (Spec.val x) [(AezSpec.key key).J, (AezSpec.key key).I, (AezSpec.key key).L, 0] := by
  simp only [F, aes4, vEnc hr, vI0 hk, vJ0 hk, vL hk, val_zero, AezSpec.aesRounds, List.foldl_cons, List.foldl_nil]

theorem vAes (x f : Block) : Spec.val (aes R (ctxOf key) x f) =
    AezSpec.aesRounds r (Spec.val x ^^^ Spec.val f) [(AezSpec.key key).I, (AezSpec.key key).J, (AezSpec.key key).L, (AezSpec.key key).I,
      (AezSpec.key key).J, (AezSpec.key key).L, (AezSpec.key key).I, (AezSpec.key key).J, (AezSpec.key key).L, (AezSpec.key key).I] := by
  simp only [aes, vEnc hr, val_bx, vI0 hk, vJ0 hk, vL hk, AezSpec.aesRounds, List.foldl_cons, List.foldl_nil]

theorem vF0 (x : Block) : Spec.val (F R (ctxOf key) x) = AezSpec.E0 r (AezSpec.key key) 0 (Spec.val x) := by
  rw [vF hr hk, AezSpec.E0]; simp [AezSpec.times]

theorem vF1 (x : Block) (d : Bool) :
    Spec.val (F R (ctxOf key) (bx x ((ctxOf key).Id d))) = AezSpec.E0 r (AezSpec.key key) (if d then 2 else 1) (Spec.val x) := by
  cases d
  · rw [vF hr hk, AezSpec.E0, Ctx.Id]; simp [AezSpec.times, val_bx, vI0 hk]
  · rw [vF hr hk, AezSpec.E0, Ctx.Id]; simp [AezSpec.times, val_bx, vI1 hk]

theorem vF3 (x : Block) : Spec.val (F R (ctxOf key) (bx x (bx (ctxOf key).I0 (ctxOf key).I1))) = AezSpec.E0 r (AezSpec.key key) 3 (Spec.val x) := by
  rw [vF hr hk, AezSpec.E0]; simp [AezSpec.times, val_bx, vI0 hk, vI1 hk]

theorem vF4 (x : Block) : Spec.val (F R (ctxOf key) (bx x (ctxOf key).I2)) = AezSpec.E0 r (AezSpec.key key) 4 (Spec.val x) := by
  rw [vF hr hk, AezSpec.E0]; simp [AezSpec.times, val_bx, vI2 hk]

theorem vF5 (x : Block) : Spec.val (F R (ctxOf key) (bx (bx x (ctxOf key).I2) (ctxOf key).I0)) = AezSpec.E0 r (AezSpec.key key) 5 (Spec.val x) := by
  rw [vF hr hk, AezSpec.E0, times_5, val_bx, val_bx, vI2 hk, vI0 hk, Nat.xor_assoc]

theorem vF67 (x t : Block) (n : Nat) : Spec.val (F R (ctxOf key) (bx (tinyTweak (ctxOf key) t n) x)) =
    AezSpec.E0 r (AezSpec.key key) (if n < 16 then 7 else 6) (Spec.val t ^^^ Spec.val x) := by
  rw [vF hr hk, AezSpec.E0, tinyTweak]
  by_cases h : n < 16
  · rw [if_neg (by omega), if_pos h, times_7]
    simp only [val_bx, vI2 hk, vI1 hk, vI0 hk]
    congr 1
    simp only [Nat.xor_assoc, Nat.xor_comm (Spec.val x)]
  · rw [if_pos (by omega), if_neg h, times_6]
    simp only [val_bx, vI2 hk, vI1 hk]
    congr 1
    simp only [Nat.xor_assoc, Nat.xor_comm (Spec.val x)]

theorem vA1 (x : Block) (d : Bool) :
    Spec.val (aes R (ctxOf key) x ((ctxOf key).Jd d)) = AezSpec.Em1 r (AezSpec.key key) (if d then 2 else 1) (Spec.val x) := by
  cases d
  · rw [vAes hr hk, AezSpec.Em1, Ctx.Jd]; simp [AezSpec.times, vJ0 hk]
  · rw [vAes hr hk, AezSpec.Em1, Ctx.Jd]; simp [AezSpec.times, vJ1 hk]

theorem vA4 (x : Block) : Spec.val (aes R (ctxOf key) x (ctxOf key).J2) = AezSpec.Em1 r (AezSpec.key key) 4 (Spec.val x) := by
  rw [vAes hr hk, AezSpec.Em1]; simp [AezSpec.times, vJ2 hk]

theorem vA5 (x : Block) : Spec.val (aes R (ctxOf key) x (bx (ctxOf key).J2 (ctxOf key).J0)) = AezSpec.Em1 r (AezSpec.key key) 5 (Spec.val x) := by
  rw [vAes hr hk, AezSpec.Em1, times_5, val_bx, vJ2 hk, vJ0 hk]

omit hr hk in
theorem shift_eq (e v : Nat) : AezSpec.shift e v = Spec.double^[e] v := by
  induction e with
  | zero => rfl
  | succ e ih => rw [Function.iterate_succ_apply', AezSpec.shift, ih]; rfl

omit hr in
theorem vOff {bytes j : Nat} (hd : bytes % 32 = 0) (hj : j < bytes / 32) :
    Spec.val (offs (ctxOf key) bytes j) = AezSpec.off (AezSpec.key key).I (j + 1) := by
  rw [c62_pair_value _ bytes j hd hj, val_blk _ (by omega), AezSpec.off, shift_eq, Spec.offset, AezSpec.times, Nat.add_sub_cancel, Nat.add_comm 3]
  rw [show j % 8 % 2 = j % 2 by omega, show j % 8 / 2 % 2 = j / 2 % 2 by omega, show j % 8 / 4 % 2 = j / 4 % 2 by omega]
  simp only [Nat.xor_assoc]
  rfl

theorem vE1 {bytes j : Nat} (hd : bytes % 32 = 0) (hj : j < bytes / 32) (x : Block) :
    Spec.val (F R (ctxOf key) (bx x (offs (ctxOf key) bytes j))) = AezSpec.E1 r (AezSpec.key key) (j + 1) (Spec.val x) := by
  rw [vF hr hk, val_bx, vOff hk hd hj, AezSpec.E1]

theorem vE2 {bytes j : Nat} (hd : bytes % 32 = 0) (hj : j < bytes / 32) (x : Block) :
    Spec.val (G R (ctxOf key) (bx x (offs (ctxOf key) bytes j))) = AezSpec.E2 r (AezSpec.key key) (j + 1) (Spec.val x) := by
  simp only [G, aes4, vEnc hr, val_bx, vOff hk hd hj, vI0 hk, vJ0 hk, vL hk, AezSpec.E2, AezSpec.aesRounds, List.foldl_cons, List.foldl_nil]

/-- The hash. -/
theorem vHash {t : Block} (ht : hash R (ctxOf key) = .ok t) : Spec.val t = AezSpec.delta r (AezSpec.key key) := by
  rw [hash, oneZeroPad_eq bzero 16 0 rfl (by omega), ld_ok (show 32 + 16 ≤ 48 by omega)] at ht
  simp only [Res.bind_ok, Res.pure_eq] at ht
  cases ht
  have hz : ozp bzero 16 = bzero := val_inj (by decide +kernel)
  have hz2 : zeroSetByte 0 15 = bzero := val_inj (by decide +kernel)
  have hp : Spec.val (blk pad.data 32) = 2 ^ 127 := by decide +kernel
  have h8 : Spec.val (bswap (dbl (bswap (ctxOf key).J2))) = AezSpec.shift 3 (AezSpec.key key).J := by
    rw [val_dbl, vJ2 hk]; rfl
  have h2 : Spec.val (bswap (dbl (bswap (ctxOf key).L))) = AezSpec.shift 1 (AezSpec.key key).L := by
    rw [val_dbl, vL hk]; rfl
  have h4 : Spec.val (bswap (dbl (dbl (bswap (ctxOf key).L)))) = AezSpec.shift 2 (AezSpec.key key).L := by
    have := val_dbl (bswap (dbl (bswap (ctxOf key).L)))
    rw [bswap_bswap, val_dbl, vL hk] at this
    exact this
  have hoff : AezSpec.off (AezSpec.key key).J 1 = AezSpec.shift 3 (AezSpec.key key).J := by
    rw [AezSpec.off, show AezSpec.times ((1 - 1) % 8) (AezSpec.key key).J = 0 from by simp [AezSpec.times], Nat.xor_zero]
  have o3 : AezSpec.offH (AezSpec.key key) 3 1 = (AezSpec.key key).L ^^^ AezSpec.shift 3 (AezSpec.key key).J := by
    rw [AezSpec.offH, if_neg (by omega), hoff]; rfl
  have o4 : AezSpec.offH (AezSpec.key key) 4 1 = AezSpec.shift 1 (AezSpec.key key).L ^^^ AezSpec.shift 3 (AezSpec.key key).J := by
    rw [AezSpec.offH, if_neg (by omega), hoff]
  have o5 : AezSpec.offH (AezSpec.key key) 5 0 = AezSpec.shift 2 (AezSpec.key key).L := by
    rw [AezSpec.offH, if_pos rfl, Nat.xor_zero]
  rw [hz, hz2, AezSpec.delta, AezSpec.EH, AezSpec.EH, AezSpec.EH, o3, o4, o5, Nat.zero_xor, Nat.zero_xor, Nat.xor_comm (2 ^ 127)]
  simp only [aes4, val_bx, vEnc hr, h8, h2, h4, hp, vI0 hk, vJ0 hk, vL hk, val_zero, AezSpec.aesRounds, List.foldl_cons, List.foldl_nil, Nat.xor_zero]

/-! ## The core -/

omit hr hk in
theorem xor_swap (a b c : Nat) : a ^^^ b ^^^ c = a ^^^ c ^^^ b := by rw [Nat.xor_assoc, Nat.xor_comm b, ← Nat.xor_assoc]

omit hr hk in
theorem xor_swap4 (a b c e : Nat) : a ^^^ b ^^^ c ^^^ e = a ^^^ c ^^^ e ^^^ b := by rw [xor_swap a b c, xor_swap _ b e]

omit hr hk in
theorem byteOf_getD (b : Block) {i : Nat} (h : i < 16) : byteOf b i = (List.ofFn b).getD i 0 := by
  rw [byteOf_of_lt b h, List.getD_eq_getElem?_getD, List.getElem?_ofFn, dif_pos h]; rfl

omit hr hk in
theorem vOzp (b : Block) {l : Nat} (h : l < 16) : Spec.val (ozp b l) = AezSpec.pad10 ((List.ofFn b).take l) := by
  rw [Spec.val, AezSpec.pad10]
  congr 1
  have hl : ((List.ofFn b).take l).length = l := by simp; omega
  apply List.ext_getElem
  · simp; omega
  · intro i h1 h2
    simp only [List.length_ofFn] at h1
    rw [List.getElem_ofFn]
    simp only [ozp]
    by_cases hi : i < l
    · rw [if_pos hi, List.getElem_append_left (by omega), List.getElem_take, List.getElem_ofFn]
    · rw [if_neg hi, List.getElem_append_right (by omega)]
      by_cases he : i = l
      · subst he; rw [if_pos rfl]; simp only [hl, Nat.sub_self, List.getElem_cons_zero]
      · rw [if_neg he, List.getElem_cons, dif_neg (by omega), List.getElem_replicate]

omit hr hk in
theorem take_bx (a b : Block) (l : Nat) : (List.ofFn (bx a b)).take l = AezSpec.xorBytes ((List.ofFn a).take l) (List.ofFn b) := by
  apply List.ext_getElem
  · simp [AezSpec.xorBytes]
  · intro i h1 h2
    simp only [AezSpec.xorBytes, bx, List.getElem_take, List.getElem_ofFn, List.getElem_zipWith]

omit hr hk in
theorem take_ozp (b : Block) {l : Nat} (h : l < 16) : (List.ofFn (ozp b l)).take l = (List.ofFn b).take l := by
  apply List.ext_getElem
  · simp
  · intro i h1 h2
    simp only [List.length_take, List.length_ofFn] at h1
    simp only [ozp, List.getElem_take, List.getElem_ofFn, show i < l by omega, if_true]

omit hr hk in
theorem take_blk (M : Bytes) {o l : Nat} (h : o + 16 ≤ M.length) (hl : l ≤ 16) : (List.ofFn (blk (fn M) o)).take l = (M.drop o).take l := by
  rw [ofFn_blk M h, List.take_take, Nat.min_eq_left hl]

omit hr hk in
theorem initN_pairs (M : Bytes) (h : 32 ≤ M.length) : initN M.length = 32 * AezSpec.pairs M ∧ 32 * AezSpec.pairs M + M.length % 32 + 32 = M.length := by
  simp only [initN, AezSpec.pairs]; omega

omit hr hk in
theorem val_xsum {f : Nat → Block} {g : Nat → Nat} : ∀ {m : Nat}, (∀ j, j < m → Spec.val (f j) = g (j + 1)) → Spec.val (xsum f m) = AezSpec.xorSum g m := by
  intro m
  induction m with
  | zero => intro _; exact val_zero
  | succ m ih => intro h; rw [xsum, val_bx, AezSpec.xorSum, ih fun j hj => h j (by omega), h m (by omega)]

variable {D : Nat} (M : Bytes) (hM : 32 ≤ M.length)
include hM

theorem vW {j : Nat} (hj : j < AezSpec.pairs M) :
    Spec.val (W R (ctxOf key) (offs (ctxOf key) (initN M.length)) (fn M) j) = AezSpec.wOf r (AezSpec.key key) M (j + 1) := by
  obtain ⟨e, e2⟩ := initN_pairs M hM
  rw [W, val_bx, vE1 hr hk (by omega) (by omega), val_blk _ (by omega), val_blk _ (by omega), AezSpec.wOf, Nat.add_sub_cancel, Nat.xor_comm]

theorem vX {j : Nat} (hj : j < AezSpec.pairs M) :
    Spec.val (X R (ctxOf key) (offs (ctxOf key) (initN M.length)) (fn M) j) = AezSpec.xOf r (AezSpec.key key) M (j + 1) := by
  obtain ⟨e, e2⟩ := initN_pairs M hM
  rw [X, val_bx, vF0 hr hk, vW hr hk M hM hj, val_blk _ (by omega), AezSpec.xOf, Nat.add_sub_cancel, Nat.xor_comm]

omit hr hk in
theorem u_take : (List.ofFn (blk (fn M) (initN M.length))).take (min 16 (M.length % 32)) = AezSpec.uPart M := by
  obtain ⟨e, e2⟩ := initN_pairs M hM
  rw [take_blk M (by omega) (by omega), e, AezSpec.uPart]

omit hr hk in
theorem v_take : (List.ofFn (blk (fn M) (initN M.length + 16))).take (M.length % 32 - 16) = AezSpec.vPart M := by
  obtain ⟨e, e2⟩ := initN_pairs M hM
  rw [take_blk M (by omega) (by omega), e, AezSpec.vPart]

/-- The contribution of the fragments, for fragments `f0`, `f1` that hold `u` and `v`. -/
theorem vFx (f0 f1 x : Block) (u v : Bytes) (n : Nat) (h0 : n % 32 ≠ 0 → n % 32 < 16 → Spec.val f0 = AezSpec.pad10 u)
    (h1 : 16 ≤ n % 32 → Spec.val f0 = beNat u ∧ Spec.val f1 = AezSpec.pad10 v) :
    Spec.val (fx R (ctxOf key) n f0 f1 x) = Spec.val x ^^^ AezSpec.uvSum r (AezSpec.key key) n u v := by
  rw [fx, AezSpec.uvSum, fragN]
  by_cases hz : n % 32 = 0
  · rw [if_neg (by omega), if_neg (by omega), if_pos hz, Nat.xor_zero]
  · by_cases h16 : n % 32 < 16
    · rw [if_neg (by omega), if_pos hz, if_neg hz, if_pos h16, val_bx, vF4 hr hk, h0 hz h16, Nat.xor_comm]
    · rw [if_pos (by omega), if_neg hz, if_neg h16, val_bx, val_bx, vF4 hr hk, vF5 hr hk, (h1 (by omega)).1, (h1 (by omega)).2, Nat.xor_comm _ (Spec.val x),
        Nat.xor_assoc]

theorem vFxIn (x : Block) : Spec.val (fx R (ctxOf key) M.length (fr0 M.length (fn M)) (fr1 M.length (fn M)) x) =
    Spec.val x ^^^ AezSpec.uvSum r (AezSpec.key key) M.length (AezSpec.uPart M) (AezSpec.vPart M) := by
  refine vFx hr hk M hM _ _ _ _ _ _ (fun hz h16 => ?_) fun h16 => ⟨?_, ?_⟩
  · rw [fr0, fragN, if_neg (by omega), if_pos hz, vOzp _ h16, ← u_take M hM, Nat.min_eq_right (by omega)]
  · rw [fr0, fragN, if_pos h16, ← u_take M hM, Nat.min_eq_left (by omega), List.take_of_length_le (by simp), Spec.val]
  · rw [fr1, fragN, if_pos h16, vOzp _ (by omega), v_take M hM]

/-- The values of the last two blocks, and `S`. -/
theorem vVals {t : Block} (ht : Spec.val t = D) (d : Bool) :
    Spec.val (vals R (ctxOf key) t d M.length (fn M)).f0' = AezSpec.sxOf r (AezSpec.key key) D (if d then 2 else 1) M ∧
    Spec.val (vals R (ctxOf key) t d M.length (fn M)).f1' = AezSpec.syOf r (AezSpec.key key) D (if d then 2 else 1) M ∧
    Spec.val (vals R (ctxOf key) t d M.length (fn M)).s = AezSpec.sOf r (AezSpec.key key) D (if d then 2 else 1) M := by
  obtain ⟨e, e2⟩ := initN_pairs M hM
  have h0 : Spec.val (vals R (ctxOf key) t d M.length (fn M)).f0' = AezSpec.sxOf r (AezSpec.key key) D (if d then 2 else 1) M := by
    simp only [vals]
    rw [val_bx, vF1 hr hk, val_bx, val_bx, vFxIn hr hk M hM, val_xsum (g := AezSpec.xOf r (AezSpec.key key) M) fun j hj => vX hr hk M hM (by omega), ht,
      val_blk _ (by omega), val_blk _ (by omega), e, Nat.mul_div_cancel_left _ (by omega), show M.length - 32 + 16 = M.length - 16 by omega,
      AezSpec.sxOf, Nat.xor_comm (AezSpec.E0 _ _ _ _)]
    congr 1
    exact xor_swap _ _ _
  have h1 : Spec.val (vals R (ctxOf key) t d M.length (fn M)).f1' = AezSpec.syOf r (AezSpec.key key) D (if d then 2 else 1) M := by
    have : (vals R (ctxOf key) t d M.length (fn M)).f1' =
      bx (blk (fn M) (M.length - 32 + 16)) (aes R (ctxOf key) (vals R (ctxOf key) t d M.length (fn M)).f0' ((ctxOf key).Jd d)) := rfl
    rw [this, val_bx, vA1 hr hk, h0, val_blk _ (by omega), show M.length - 32 + 16 = M.length - 16 by omega, AezSpec.syOf]
  refine ⟨h0, h1, ?_⟩
  have : (vals R (ctxOf key) t d M.length (fn M)).s = bx (vals R (ctxOf key) t d M.length (fn M)).f0' (vals R (ctxOf key) t d M.length (fn M)).f1' := rfl
  rw [this, val_bx, h0, h1, AezSpec.sOf]

/-- The fragments of the output. -/
theorem fo_take {s : Block} {a : Nat} (hs : Spec.val s = AezSpec.sOf r (AezSpec.key key) D a M) :
    (List.ofFn (fo0 R (ctxOf key) M.length s (fr0 M.length (fn M)))).take (min 16 (M.length % 32)) = AezSpec.cuOf r (AezSpec.key key) D a M ∧
    (List.ofFn (fo1 R (ctxOf key) M.length s (fr1 M.length (fn M)))).take (M.length % 32 - 16) = AezSpec.cvOf r (AezSpec.key key) D a M := by
  have hu := u_take M hM
  have hv := v_take M hM
  have e4 : beBytes 16 (AezSpec.Em1 r (AezSpec.key key) 4 (AezSpec.sOf r (AezSpec.key key) D a M)) = List.ofFn (aes R (ctxOf key) s (ctxOf key).J2) := by
    rw [← beBytes_val, vA4 hr hk, hs]
  have e5 : beBytes 16 (AezSpec.Em1 r (AezSpec.key key) 5 (AezSpec.sOf r (AezSpec.key key) D a M)) =
      List.ofFn (aes R (ctxOf key) s (bx (ctxOf key).J2 (ctxOf key).J0)) := by
    rw [← beBytes_val, vA5 hr hk, hs]
  rw [AezSpec.cuOf, AezSpec.cvOf, e4, e5, ← hu, ← hv]
  refine ⟨?_, ?_⟩
  · rw [fo0, fr0, fragN]
    by_cases h16 : M.length % 32 ≥ 16
    · rw [if_pos h16, if_pos h16, take_bx]
    · rw [if_neg h16, if_neg h16]
      by_cases hz : M.length % 32 ≠ 0
      · rw [if_pos hz, if_pos hz, Nat.min_eq_right (by omega), take_ozp _ (by omega), take_bx, take_ozp _ (by omega)]
      · rw [if_neg hz, not_not.1 hz]; simp only [Nat.min_zero, List.take_zero, AezSpec.xorBytes, List.zipWith_nil_left]
  · rw [fo1, fr1, fragN]
    by_cases h16 : M.length % 32 ≥ 16
    · rw [if_pos h16, if_pos h16, take_ozp _ (by omega), take_bx, take_ozp _ (by omega)]
    · rw [if_neg h16, show M.length % 32 - 16 = 0 by omega]; simp only [List.take_zero, AezSpec.xorBytes, List.zipWith_nil_left]

theorem vFxOut {s : Block} {a : Nat} (hs : Spec.val s = AezSpec.sOf r (AezSpec.key key) D a M) (x : Block) :
    Spec.val (fx R (ctxOf key) M.length (fo0 R (ctxOf key) M.length s (fr0 M.length (fn M))) (fo1 R (ctxOf key) M.length s (fr1 M.length (fn M))) x) =
    Spec.val x ^^^ AezSpec.uvSum r (AezSpec.key key) M.length (AezSpec.cuOf r (AezSpec.key key) D a M) (AezSpec.cvOf r (AezSpec.key key) D a M) := by
  obtain ⟨h0, h1⟩ := fo_take hr hk M hM hs
  refine vFx hr hk M hM _ _ _ _ _ _ (fun hz h16 => ?_) fun h16 => ⟨?_, ?_⟩
  · rw [← h0, Nat.min_eq_right (by omega), fo0, fragN, if_neg (by omega), if_pos hz, vOzp _ h16, take_ozp _ h16]
  · rw [← h0, Nat.min_eq_left (by omega), List.take_of_length_le (by simp), Spec.val]
  · rw [← h1, fo1, fragN, if_pos h16, vOzp _ (by omega), take_ozp _ (by omega)]

omit hr hk hM in
theorem flatMap_getD (f : Nat → Bytes) (hf : ∀ j, (f j).length = 32) : ∀ (m i : Nat), i < 32 * m →
    ((List.range m).flatMap f).getD i 0 = (f (i / 32)).getD (i % 32) 0 := by
  have hlen : ∀ m, ((List.range m).flatMap f).length = 32 * m := by
    intro m
    induction m with
    | zero => rfl
    | succ m ih => rw [List.range_succ, List.flatMap_append, List.length_append, ih]; simp [hf]; omega
  intro m
  induction m with
  | zero => intro i h; omega
  | succ m ih =>
    intro i hi
    rw [List.range_succ, List.flatMap_append]
    by_cases h : i < 32 * m
    · rw [getD_append_lt _ _ _ _ (by rw [hlen]; exact h), ih i h]
    · rw [getD_append_ge _ _ _ _ (by rw [hlen]; omega), hlen]
      simp only [List.flatMap_cons, List.flatMap_nil, List.append_nil]
      rw [show i / 32 = m by omega, show i % 32 = i - 32 * m by omega]

omit hr hk hM in
theorem flatMap_length (f : Nat → Bytes) (hf : ∀ j, (f j).length = 32) (m : Nat) : ((List.range m).flatMap f).length = 32 * m := by
  induction m with
  | zero => rfl
  | succ m ih => rw [List.range_succ, List.flatMap_append, List.length_append, ih]; simp [hf]; omega

theorem coreFn_spec {t : Block} (ht : Spec.val t = D) (d : Bool) {i : Nat} (hi : i < M.length) :
    coreFn R (ctxOf key) t d M.length (fn M) i =
      (AezSpec.core r (AezSpec.key key) D (if d then 2 else 1) (if d then 1 else 2) M).getD i 0 := by
  obtain ⟨e, e2⟩ := initN_pairs M hM
  obtain ⟨v0, v1, vs⟩ := vVals hr hk M hM ht d
  obtain ⟨hu, hv⟩ := fo_take hr hk M hM vs
  generalize hV : vals R (ctxOf key) t d M.length (fn M) = V at *
  have hT : ∀ w : Nat → Block, ∀ g : Nat → Nat, ∀ j, j < AezSpec.pairs M → Spec.val (w j) = g (j + 1) →
      Spec.val (T R (ctxOf key) (offs (ctxOf key) (initN M.length)) V.s w j) =
        g (j + 1) ^^^ AezSpec.E2 r (AezSpec.key key) (j + 1) (AezSpec.sOf r (AezSpec.key key) D (if d then 2 else 1) M) := by
    intro w g j hj hw
    rw [T, val_bx, hw, vE2 hr hk (by omega) (by omega), vs]
  have hY := fun j hj => hT _ (AezSpec.wOf r (AezSpec.key key) M) j hj (vW hr hk M hM hj)
  have hZ := fun j hj => hT _ (AezSpec.xOf r (AezSpec.key key) M) j hj (vX hr hk M hM hj)
  have hC1 : ∀ j, j < AezSpec.pairs M → Spec.val (C1 R (ctxOf key) (offs (ctxOf key) (initN M.length)) V.s (W R (ctxOf key) (offs (ctxOf key) (initN M.length)) (fn M))
      (X R (ctxOf key) (offs (ctxOf key) (initN M.length)) (fn M)) j) = AezSpec.c1Of r (AezSpec.key key) D (if d then 2 else 1) M (j + 1) := by
    intro j hj
    rw [C1, val_bx, vF0 hr hk, hZ j hj, hY j hj, AezSpec.c1Of, Nat.xor_comm]; rfl
  have hC0 : ∀ j, j < AezSpec.pairs M → Spec.val (C0 R (ctxOf key) (offs (ctxOf key) (initN M.length)) V.s (W R (ctxOf key) (offs (ctxOf key) (initN M.length)) (fn M))
      (X R (ctxOf key) (offs (ctxOf key) (initN M.length)) (fn M)) j) = AezSpec.c0Of r (AezSpec.key key) D (if d then 2 else 1) M (j + 1) := by
    intro j hj
    rw [C0, val_bx, vE1 hr hk (by omega) (by omega), hC1 j hj, hZ j hj, AezSpec.c0Of, Nat.xor_comm]; rfl
  have hif : ∀ b : Bool, (if (!b) = true then 2 else 1) = (if b = true then 1 else 2) := by intro b; cases b <;> rfl
  have hcy : Spec.val V.f0'' = AezSpec.cyOf r (AezSpec.key key) D (if d then 2 else 1) (if d then 1 else 2) M := by
    have : V.f0'' = bx V.f0' (aes R (ctxOf key) V.f1' ((ctxOf key).Jd (!d))) := by rw [← hV]; rfl
    rw [this, val_bx, vA1 hr hk, v0, v1, AezSpec.cyOf, hif]
  have hcx : Spec.val (bx (bx V.f1'' V.y) t) = AezSpec.cxOf r (AezSpec.key key) D (if d then 2 else 1) (if d then 1 else 2) M := by
    have h1 : V.f1'' = bx (F R (ctxOf key) (bx V.f0'' ((ctxOf key).Id (!d)))) V.f1' := by rw [← hV]; rfl
    have h2 : V.y = fx R (ctxOf key) M.length (fo0 R (ctxOf key) M.length V.s (fr0 M.length (fn M))) (fo1 R (ctxOf key) M.length V.s (fr1 M.length (fn M)))
      (xsum (T R (ctxOf key) (offs (ctxOf key) (initN M.length)) V.s (W R (ctxOf key) (offs (ctxOf key) (initN M.length)) (fn M))) (initN M.length / 32)) := by
      rw [← hV]; rfl
    rw [val_bx, val_bx, h1, val_bx, vF1 hr hk, hcy, v1, h2, vFxOut hr hk M hM vs,
      val_xsum (g := AezSpec.yOf r (AezSpec.key key) D (if d then 2 else 1) M) fun j hj => hY j (by omega), ht, e, Nat.mul_div_cancel_left _ (by omega),
      AezSpec.cxOf, hif, Nat.xor_comm (AezSpec.E0 _ _ _ _)]
    rw [xor_swap, xor_swap4]
  have hb : ∀ (b : Block) (k : Nat), k < 16 → byteOf b k = (beBytes 16 (Spec.val b)).getD k 0 := by
    intro b k hk'; rw [beBytes_val, byteOf_getD b hk']
  simp only [coreFn, hV]
  have hf : ∀ j, (beBytes 16 (AezSpec.c0Of r (AezSpec.key key) D (if d then 2 else 1) M (j + 1)) ++
      beBytes 16 (AezSpec.c1Of r (AezSpec.key key) D (if d then 2 else 1) M (j + 1))).length = 32 := by intro j; simp
  have hA := flatMap_length _ hf (AezSpec.pairs M)
  have hB : (AezSpec.cuOf r (AezSpec.key key) D (if d then 2 else 1) M).length = min 16 (M.length % 32) := by
    rw [← hu]; simp
  have hC : (AezSpec.cvOf r (AezSpec.key key) D (if d then 2 else 1) M).length = M.length % 32 - 16 := by
    rw [← hv]; simp; omega
  rw [AezSpec.core, List.append_assoc, List.append_assoc, List.append_assoc]
  by_cases h1 : i < initN M.length
  · rw [if_pos h1, getD_append_lt _ _ _ _ (by rw [hA]; omega), flatMap_getD _ hf _ _ (by omega)]
    by_cases h2 : i % 32 < 16
    · rw [if_pos h2, hb _ _ h2, hC0 _ (by omega), getD_append_lt _ _ _ _ (by simp; omega)]
    · rw [if_neg h2, hb _ _ (by omega), hC1 _ (by omega), getD_append_ge _ _ _ _ (by simp; omega), beBytes_length]
  · rw [if_neg h1, getD_append_ge _ _ _ _ (by rw [hA]; omega), hA]
    by_cases h2 : i < initN M.length + fragN M.length
    · rw [if_pos h2]
      simp only [fragN] at h2
      by_cases h3 : i - initN M.length < 16
      · rw [if_pos h3, getD_append_lt _ _ _ _ (by rw [hB]; omega), ← hu, byteOf_getD _ h3, ← e, List.getD_eq_getElem?_getD, List.getD_eq_getElem?_getD,
          List.getElem?_take_of_lt (by omega)]
      · rw [if_neg h3, getD_append_ge _ _ _ _ (by rw [hB]; omega), hB, getD_append_lt _ _ _ _ (by rw [hC]; omega), ← hv, byteOf_getD _ (by omega),
          ← e, Nat.min_eq_left (by omega), List.getD_eq_getElem?_getD, List.getD_eq_getElem?_getD, List.getElem?_take_of_lt (by omega)]
    · rw [if_neg h2]
      simp only [fragN] at h2
      rw [getD_append_ge _ _ _ _ (by rw [hB]; omega), hB, getD_append_ge _ _ _ _ (by rw [hC]; omega), hC]
      by_cases h3 : i < M.length - 16
      · rw [if_pos h3, hb _ _ (by omega), hcx, getD_append_lt _ _ _ _ (by simp; omega)]
        congr 1; omega
      · rw [if_neg h3, hb _ _ (by omega), hcy, getD_append_ge _ _ _ _ (by simp; omega), beBytes_length]
        congr 1; omega

end

end Verif.Aez
