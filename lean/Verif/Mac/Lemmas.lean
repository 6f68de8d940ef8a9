import Verif.Mac.Model
import Verif.Mac.Spec

/-! Helper lemmas for HMAC and the PRF (specifications are in `Spec.lean`). -/

namespace Verif.Mac

open Verif

theorem putAt_split {a b c src : Bytes} (h : b.length = src.length) {pos : Nat} (hp : pos = a.length) :
    putAt (a ++ b ++ c) pos src = .ok (a ++ src ++ c) := by
  subst hp
  unfold putAt
  rw [if_neg (by simp [h])]
  have e1 : (a ++ b ++ c).take a.length = a := by rw [List.append_assoc, List.take_left]
  have e2 : (a ++ b ++ c).drop (a.length + src.length) = c := by
    rw [← h, ← List.length_append, List.drop_left]
  rw [e1, e2]

theorem pad_length {k : Bytes} (h : k.length ≤ 128) (c : UInt8) : (pad k c).length = 128 := by
  simp [pad]; omega

theorem keyBlock_eq (N : Nat) (k r : Bytes) (c : UInt8) (hk : k.length = N) (hN : N ≤ 128) (hr : 128 ≤ r.length) :
    (putAt r 0 k >>= fun b1 =>
      zeroTail N b1 >>= fun b2 =>
        xorFirst blockSize c b2) = .ok (pad k c ++ r.drop 128) := by
  subst hk
  have e1 : r = [] ++ r.take k.length ++ r.drop k.length := by simp
  have h1 : putAt r 0 k = .ok (k ++ r.drop k.length) := by
    have := putAt_split (a := []) (b := r.take k.length) (c := r.drop k.length) (src := k)
      (by rw [List.length_take]; omega) (pos := 0) rfl
    simpa using this
  rw [h1, Res.bind_ok]
  have h2 : zeroTail k.length (k ++ r.drop k.length) = .ok (k ++ List.replicate (128 - k.length) 0 ++ r.drop 128) := by
    unfold zeroTail blockSize
    by_cases hlt : k.length < 128
    · rw [if_pos hlt]
      have e2 : k ++ r.drop k.length = k ++ (r.drop k.length).take (128 - k.length) ++ r.drop 128 := by
        rw [List.append_assoc]
        congr 1
        have : r.drop 128 = (r.drop k.length).drop (128 - k.length) := by
          rw [List.drop_drop]; congr 1; omega
        rw [this, List.take_append_drop]
      rw [e2, putAt_split (by simp only [List.length_take, List.length_drop, List.length_replicate]; omega) rfl]
    · rw [if_neg hlt]
      have : k.length = 128 := by omega
      simp [this]
  rw [h2, Res.bind_ok]
  unfold xorFirst blockSize
  have hl : (k ++ List.replicate (128 - k.length) 0).length = 128 := by simp; omega
  rw [if_neg (by rw [List.length_append, hl]; omega)]
  rw [List.take_left' hl, List.drop_left' hl]
  rfl

theorem hmac_eq {H : Bytes → Bytes} (hH : ∀ m, (H m).length = 64) (junk : Nat → UInt8) (N : Nat) (k m : Bytes)
    (hk : k.length = N) (hN : N ≤ 128) (outLen : Nat) (ho : outLen ≤ 64) :
    hmac H junk N (some k) (some m) false outLen = .ok ((HMAC H k m).take outLen) := by
  unfold hmac
  rw [if_neg (by unfold digestSize; omega)]
  simp only [Bool.false_eq_true, if_false]
  have hbl : (if blockSize + m.length > digestSize then blockSize + m.length else digestSize) = 128 + m.length := by
    unfold blockSize digestSize
    rw [if_pos (by omega)]
  rw [hbl]
  have hr1 : (rawBuf junk (128 + m.length)).length = 128 + m.length := by simp [rawBuf]
  have hr2 : (rawBuf junk (blockSize + digestSize)).length = 192 := by simp [rawBuf, blockSize, digestSize]
  have k1 := keyBlock_eq N k (rawBuf junk (128 + m.length)) 0x36 hk hN (by omega)
  have k2 := keyBlock_eq N k (rawBuf junk (blockSize + digestSize)) 0x5c hk hN (by omega)
  generalize rawBuf junk (128 + m.length) = r1 at *
  generalize rawBuf junk (blockSize + digestSize) = r2 at *
  -- reassociate the key block computation
  rw [Res.bind_eq_ok] at k1 k2
  obtain ⟨b1, hb1, k1⟩ := k1
  obtain ⟨t1, ht1, k2⟩ := k2
  rw [Res.bind_eq_ok] at k1 k2
  obtain ⟨b2, hb2, k1⟩ := k1
  obtain ⟨t2, ht2, k2⟩ := k2
  rw [hb1, Res.bind_ok, hb2, Res.bind_ok, k1, Res.bind_ok]
  have hp1 := pad_length (k := k) (by omega) 0x36
  have hp2 := pad_length (k := k) (by omega) 0x5c
  have e4 : putAt (pad k 0x36 ++ r1.drop 128) blockSize m = .ok (pad k 0x36 ++ m) := by
    have := putAt_split (a := pad k 0x36) (b := r1.drop 128) (c := []) (src := m)
      (by rw [List.length_drop]; omega) (pos := blockSize) (by rw [hp1]; rfl)
    simpa using this
  rw [e4, Res.bind_ok]
  have hl : (pad k 0x36 ++ m).length = 128 + m.length := by simp [hp1]
  have e5 : (pad k 0x36 ++ m).take (blockSize + m.length) = pad k 0x36 ++ m := by
    rw [List.take_of_length_le]; rw [hl]; unfold blockSize; omega
  rw [e5]
  have e6 : putAt (pad k 0x36 ++ m) 0 (H (pad k 0x36 ++ m)) =
      .ok (H (pad k 0x36 ++ m) ++ (pad k 0x36 ++ m).drop 64) := by
    have := putAt_split (a := []) (b := (pad k 0x36 ++ m).take 64) (c := (pad k 0x36 ++ m).drop 64)
      (src := H (pad k 0x36 ++ m)) (by rw [List.length_take, hl, hH]; omega) (pos := 0) rfl
    simpa using this
  rw [e6, Res.bind_ok, ht1, Res.bind_ok, ht2, Res.bind_ok, k2, Res.bind_ok]
  have e7 : (H (pad k 0x36 ++ m) ++ (pad k 0x36 ++ m).drop 64).take digestSize = H (pad k 0x36 ++ m) :=
    List.take_left' (hH _)
  rw [e7]
  have e8 : putAt (pad k 0x5c ++ r2.drop 128) blockSize (H (pad k 0x36 ++ m)) =
      .ok (pad k 0x5c ++ H (pad k 0x36 ++ m)) := by
    have := putAt_split (a := pad k 0x5c) (b := r2.drop 128) (c := []) (src := H (pad k 0x36 ++ m))
      (by rw [List.length_drop, hH]; omega) (pos := blockSize) (by rw [hp2]; rfl)
    simpa using this
  rw [e8, Res.bind_ok]
  have e9 : (pad k 0x5c ++ H (pad k 0x36 ++ m)).take (blockSize + digestSize) = pad k 0x5c ++ H (pad k 0x36 ++ m) := by
    rw [List.take_of_length_le]
    simp [hp2, hH, blockSize, digestSize]
  rw [e9]
  have e10 : putAt (H (pad k 0x36 ++ m) ++ (pad k 0x36 ++ m).drop 64) 0 (HMAC H k m) =
      .ok (HMAC H k m ++ (pad k 0x36 ++ m).drop 64) := by
    have := putAt_split (a := []) (b := H (pad k 0x36 ++ m)) (c := (pad k 0x36 ++ m).drop 64)
      (src := HMAC H k m) (by rw [hH]; unfold HMAC; rw [hH]) (pos := 0) rfl
    simpa using this
  have e11 : H (pad k 0x5c ++ H (pad k 0x36 ++ m)) = HMAC H k m := rfl
  rw [e11, e10, Res.bind_ok]
  have hl2 : (HMAC H k m).length = 64 := hH _
  rw [List.take_append_of_le_length (by omega)]

/-! ### PRF -/

theorem prfBlocks_length {H : Bytes → Bytes} (hH : ∀ m, (H m).length = 64) (k m : Bytes) (c : Nat) :
    (prfBlocks H k m c).length = 64 * c := by
  induction c with
  | zero => rfl
  | succ c ih =>
    have : prfBlocks H k m (c + 1) = prfBlocks H k m c ++ prfBlock H k m c := by
      simp [prfBlocks, List.range_succ]
    rw [this, List.length_append, ih]
    have : (prfBlock H k m c).length = 64 := hH _
    omega

theorem prfBlocks_succ (H : Bytes → Bytes) (k m : Bytes) (c : Nat) :
    prfBlocks H k m (c + 1) = prfBlocks H k m c ++ prfBlock H k m c := by
  simp [prfBlocks, List.range_succ]

theorem ofNat_mod (i : Nat) : UInt8.ofNat (i % 256) = UInt8.ofNat i := by
  apply UInt8.toNat_inj.1
  simp

/-- From position `64*c`, with the first `c` blocks already in place, the loop fills the rest. -/
theorem prfLoop_eq {H : Bytes → Bytes} (hH : ∀ m, (H m).length = 64) (junk : Nat → UInt8) (k m : Bytes)
    (hk : k.length = 32) (nb : Nat) (hnb : nb ≤ 65472) (d : Nat) :
    ∀ (c fuel : Nat) (rest : Bytes), (prfBlocks H k m c ++ rest).length = nb → nb ≤ 64 * (c + d) → d < fuel →
      prfLoop H junk (some k) m nb fuel (64 * c) (c % 256) (prfBlocks H k m c ++ rest) =
        some (.ok ((prfBlocks H k m (c + d)).take nb)) := by
  induction d with
  | zero =>
    intro c fuel rest hl hd hf
    obtain ⟨f, rfl⟩ : ∃ f, fuel = f + 1 := ⟨fuel - 1, by omega⟩
    rw [prfLoop, if_neg (by omega)]
    have h1 := prfBlocks_length hH k m c
    rw [List.length_append, h1] at hl
    have : rest = [] := List.length_eq_zero_iff.1 (by omega)
    subst this
    rw [List.append_nil, Nat.add_zero, List.take_of_length_le (by omega)]
  | succ d ih =>
    intro c fuel rest hl hd hf
    obtain ⟨f, rfl⟩ : ∃ f, fuel = f + 1 := ⟨fuel - 1, by omega⟩
    have h1 := prfBlocks_length hH k m c
    have hl' := hl
    rw [List.length_append, h1] at hl'
    rw [prfLoop]
    by_cases hpos : 64 * c < nb
    · rw [if_pos hpos]
      have hb : (prfBlock H k m c).length = 64 := hH _
      simp only
      rw [hmac_eq hH junk 32 k _ hk (by omega) _ (by unfold digestSize; split <;> omega)]
      rw [ofNat_mod, Res.bind_ok]
      have hblk : HMAC H k (m ++ [UInt8.ofNat c]) = prfBlock H k m c := rfl
      rw [hblk]
      by_cases hfull : nb - 64 * c ≥ digestSize
      · rw [if_pos hfull]
        have hfull' : nb - 64 * c ≥ 64 := hfull
        have ht : (prfBlock H k m c).take digestSize = prfBlock H k m c :=
          List.take_of_length_le (by rw [hb]; unfold digestSize; omega)
        rw [ht]
        have hput : putAt (prfBlocks H k m c ++ rest) (64 * c) (prfBlock H k m c) =
            .ok (prfBlocks H k m (c + 1) ++ rest.drop 64) := by
          have := putAt_split (a := prfBlocks H k m c) (b := rest.take 64) (c := rest.drop 64)
            (src := prfBlock H k m c) (by rw [List.length_take, hb]; omega) (pos := 64 * c) h1.symm
          rw [List.append_assoc, List.take_append_drop] at this
          rw [this, prfBlocks_succ]
        rw [hput]
        simp only
        have hmod : (64 * c + digestSize) % 65536 = 64 * (c + 1) := by
          unfold digestSize; omega
        have hmod2 : (c % 256 + 1) % 256 = (c + 1) % 256 := by omega
        rw [hmod, hmod2, ih (c + 1) f (rest.drop 64) ?_ (by omega) (by omega)]
        · rw [Nat.add_assoc, Nat.add_comm 1 d]
        · have := prfBlocks_length hH k m (c + 1)
          rw [List.length_append, this, List.length_drop]; omega
      · rw [if_neg hfull]
        have hfull' : ¬ nb - 64 * c ≥ 64 := hfull
        have hput : putAt (prfBlocks H k m c ++ rest) (64 * c) ((prfBlock H k m c).take (nb - 64 * c)) =
            .ok (prfBlocks H k m c ++ (prfBlock H k m c).take (nb - 64 * c)) := by
          have := putAt_split (a := prfBlocks H k m c) (b := rest) (c := [])
            (src := (prfBlock H k m c).take (nb - 64 * c)) (by rw [List.length_take, hb]; omega) (pos := 64 * c) h1.symm
          simpa using this
        rw [hput]
        simp only
        obtain ⟨f', rfl⟩ : ∃ f', f = f' + 1 := ⟨f - 1, by omega⟩
        have hmod : (64 * c + digestSize) % 65536 = 64 * (c + 1) := by
          unfold digestSize; omega
        rw [hmod, prfLoop, if_neg (by omega)]
        congr 2
        have : (prfBlocks H k m (c + (d + 1))).take nb = (prfBlocks H k m (c + 1)).take nb := by
          have : ∀ e, (prfBlocks H k m (c + 1 + e)).take nb = (prfBlocks H k m (c + 1)).take nb := by
            intro e
            induction e with
            | zero => rfl
            | succ e ihe =>
              rw [← Nat.add_assoc, prfBlocks_succ, List.take_append_of_le_length, ihe]
              rw [prfBlocks_length hH]; omega
          have h2 := this d
          rw [Nat.add_assoc, Nat.add_comm 1 d] at h2
          exact h2
        rw [this, prfBlocks_succ, List.take_append, h1, List.take_of_length_le (l := prfBlocks H k m c) (by omega)]
    · rw [if_neg hpos]
      have : rest = [] := List.length_eq_zero_iff.1 (by omega)
      subst this
      rw [List.append_nil]
      congr 2
      have : ∀ e, (prfBlocks H k m (c + e)).take nb = prfBlocks H k m c := by
        intro e
        induction e with
        | zero => rw [Nat.add_zero, List.take_of_length_le (by omega)]
        | succ e ihe =>
          rw [← Nat.add_assoc, prfBlocks_succ, List.take_append_of_le_length, ihe]
          rw [prfBlocks_length hH]; omega
      rw [this]

end Verif.Mac
