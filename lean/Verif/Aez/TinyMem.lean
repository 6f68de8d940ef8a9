import Verif.Aez.Tiny

/-! `cipher_aez_tiny` on memory. -/

namespace Verif.Aez

open Verif

section
variable (R : Block → Block)

theorem zeroPad_eq (x : Block) (n k : Nat) (hk : k = 16 - n) (hn : n ≤ 16) :
    zeroPad x k = .ok (fun i => if i.1 < n then x i else 0) := by
  subst hk
  rw [zeroPad, ld_ok (show 16 - n + 16 ≤ 48 by omega)]
  simp only [Res.map_ok]
  congr 1
  funext i
  have hi := i.2
  simp only [band, blk, pad]
  by_cases h1 : i.1 < n
  · rw [if_pos h1, if_pos (by omega)]
    simp [show (255 : UInt8) = -1 from rfl]
  · rw [if_neg h1, if_neg (by omega), if_neg (by omega)]
    simp

theorem ldPart_ok {b : Buf} {off n : Nat} (h : off + n ≤ b.size) (h16 : n ≤ 16) :
    ldPart b off n = .ok (fun i => if i.1 < n then b.data (off + i.1) else 0) := by
  simp [ldPart, h, h16]

/-- The local buffer holds the message followed by zeros. -/
theorem tinyLoad_ok (al : Bool) (n : Nat) (m : Mem) (h : n < 32) (hS : n ≤ ssize al m) :
    ∃ b, tinyLoad al n m = .ok b ∧ b.size = 32 ∧ ∀ i, i < 32 → b.data i = if i < n then sdat al m i else 0 := by
  have key : ∀ src : Buf, n ≤ src.size → ∃ b : Buf,
      tinyLoadFrom src n = .ok b ∧
      b.size = 32 ∧ ∀ i, i < 32 → b.data i = if i < n then src.data i else 0 := by
    intro src hs
    simp only [tinyLoadFrom, tinyBuf0, tinyBuf1]
    by_cases h16 : n ≥ 16
    · simp only [h16, if_true]
      rw [ld_ok (by omega), ldPart_ok (by omega) (by omega)]
      simp only [Res.bind_ok]
      rw [zeroPad_eq _ (n - 16) _ (by omega) (by omega)]
      simp only [Res.bind_ok, Res.pure_eq]
      refine ⟨_, rfl, rfl, fun i hi => ?_⟩
      simp only
      by_cases h1 : i < 16
      · rw [dif_pos h1, if_pos (by omega)]; simp [blk]
      · rw [dif_neg h1, dif_pos hi]
        by_cases h2 : i < n
        · rw [if_pos h2, if_pos (by omega), if_pos (by omega)]; congr 1; omega
        · rw [if_neg h2, if_neg (by omega)]
    · simp only [h16, if_false]
      rw [ldPart_ok (by omega) (by omega)]
      simp only [Res.bind_ok]
      rw [zeroPad_eq _ n _ (by omega) (by omega)]
      simp only [Res.bind_ok, Res.pure_eq]
      refine ⟨_, rfl, rfl, fun i hi => ?_⟩
      simp only
      by_cases h1 : i < 16
      · rw [dif_pos h1]
        by_cases h2 : i < n
        · rw [if_pos h2, if_pos h2, if_pos h2]; congr 1; omega
        · rw [if_neg h2, if_neg h2]
      · rw [dif_neg h1, dif_pos hi, if_neg (by omega)]; rfl
  cases al
  · exact key m.src hS
  · exact key m.dst hS

theorem bb_f0 : ∀ k : Fin 128, bb (zeroSetByte 0xf0 0) k.1 = decide (k.1 < 4) := by decide +kernel

theorem gb_congr {f g : Nat → UInt8} {k : Nat} (h : f (k / 8) = g (k / 8)) : gb f k = gb g k := by
  simp only [gb, h]

theorem gb_zero (k : Nat) : gb (fun _ => 0) k = false := by
  simp [gb]

theorem bb_zero (k : Nat) : bb (fun _ => 0) k = false := by
  simp [bb]

/-- The bits of the padded message in the local buffer. -/
theorem gb_buf {n : Nat} {b : Buf} {P : Nat → UInt8} (hb : ∀ i, i < 32 → b.data i = if i < n then P i else 0) (k : Nat)
    (hk : k < 256) : gb b.data k = (decide (k < 8 * n) && gb P k) := by
  have := hb (k / 8) (by omega)
  by_cases h : k < 8 * n
  · rw [if_pos (by omega)] at this
    simp [h, gb_congr this]
  · rw [if_neg (by omega)] at this
    have h2 : gb b.data k = gb (fun _ => 0) k := gb_congr this
    simp [h, h2, gb_zero]

theorem left_eq {n : Nat} {b : Buf} {P : Nat → UInt8} (hb : ∀ i, i < 32 → b.data i = if i < n then P i else 0) :
    blk b.data 0 = lIn n (gb P) := by
  apply bb_ext
  intro k hk
  rw [bb_blk _ _ _ hk, bb_lIn _ _ _ hk, gb_buf hb _ (by omega)]
  simp

theorem right_eq {n : Nat} (h : n < 32) {b : Buf} {P : Nat → UInt8} (hs : b.size = 32)
    (hb : ∀ i, i < 32 → b.data i = if i < n then P i else 0) :
    ∃ r, tinyRight n b = .ok r ∧ M n r = rIn n (gb P) := by
  rw [tinyRight, ld_ok (by omega)]
  simp only [Res.bind_ok, Res.pure_eq]
  refine ⟨_, rfl, ?_⟩
  apply bb_ext
  intro k hk
  rw [bb_M n h _ k hk, bb_rIn _ _ _ hk]
  by_cases h4 : k < 4 * n
  · rw [if_pos h4, if_pos h4]
    by_cases h2 : n % 2 = 1
    · rw [if_pos h2, bb_shl _ _ hk, bb_blk _ _ _ (by omega), gb_buf hb _ (by omega), show 8 * (n / 2) + (k + 4) = 4 * n + k by omega]
      simp [show 4 * n + k < 8 * n by omega]
    · rw [if_neg h2, bb_blk _ _ _ (by omega), gb_buf hb _ (by omega), show 8 * (n / 2) + k = 4 * n + k by omega]
      simp [show 4 * n + k < 8 * n by omega]
  · rw [if_neg h4, if_neg h4]

theorem topBit_eq (c : Ctx) (t0 x : Block) : topBit R c t0 x = .ok (TB R c t0 x) := by
  rw [topBit, ld_ok (show 32 + 16 ≤ 48 by omega)]
  simp only [Res.bind_ok, Res.pure_eq, aes4_eq, bx_zero]
  rfl

theorem tinyLeft_eq (c : Ctx) (t0 : Block) (d : Bool) (n : Nat) (P : Nat → Bool) :
    tinyLeft R c t0 d n (lIn n P) = .ok (lStart R c t0 d n P) := by
  rw [tinyLeft, topBit_eq, lStart]
  by_cases h : d = true ∧ n < 16
  · rw [if_pos h, if_pos h]; rfl
  · rw [if_neg h, if_neg h]; rfl

theorem tinyJoin_ok (n : Nat) (h : n < 32) (b : Buf) (hs : b.size = 32) (l r : Block) :
    ∃ b', tinyJoin n b l r = .ok b' ∧ b'.size = 32 ∧ ∀ k, k < 8 * n → gb b'.data k = preBit n (l, r) k := by
  rw [tinyJoin, st_ok _ (by omega)]
  simp only [Res.bind_ok]
  by_cases h2 : n % 2 = 1
  · rw [if_pos h2, ld_ok (by simp only; omega)]
    simp only [Res.bind_ok]
    rw [st_ok _ (by simp only; omega)]
    refine ⟨_, rfl, hs, fun k hk => ?_⟩
    simp only [preBit]
    by_cases h3 : k < 8 * (n / 2)
    · rw [gb_put_out _ _ _ _ (by omega), gb_put_in _ _ _ _ (by omega) (by omega), if_pos (by omega)]; rfl
    · have hk' : k - 8 * (n / 2) < 128 := by omega
      have := bb_f0 ⟨k - 8 * (n / 2), hk'⟩
      simp only at this
      rw [gb_put_in _ _ _ _ (by omega) (by omega), bb_bor, bb_band, this, bb_shr _ _ hk', bb_blk _ _ _ hk',
        show 8 * (n / 2) + (k - 8 * (n / 2)) = k by omega]
      by_cases h4 : k < 4 * n
      · rw [if_pos h4]
        simp only [show k - 8 * (n / 2) < 4 by omega, show ¬ 4 ≤ k - 8 * (n / 2) by omega, decide_true, decide_false,
          Bool.false_and, Bool.and_true, Bool.false_or]
        rw [gb_put_in _ _ _ _ (by omega) (by omega)]; rfl
      · rw [if_neg h4]
        simp only [show ¬ k - 8 * (n / 2) < 4 by omega, show 4 ≤ k - 8 * (n / 2) by omega, decide_true, decide_false,
          Bool.true_and, Bool.and_false, Bool.or_false]
        congr 1; omega
  · rw [if_neg h2, st_ok _ (by simp only; omega)]
    refine ⟨_, rfl, hs, fun k hk => ?_⟩
    simp only [preBit]
    by_cases h3 : k < 4 * n
    · rw [gb_put_out _ _ _ _ (by omega), gb_put_in _ _ _ _ (by omega) (by omega), if_pos h3]; rfl
    · rw [gb_put_in _ _ _ _ (by omega) (by omega), if_neg h3]
      congr 1; omega

theorem tinyFinish_ok (c : Ctx) (t0 : Block) (d : Bool) (n : Nat) (b : Buf) (hs : b.size = 32) (p : Nat → Bool)
    (hp : ∀ k, k < 8 * n → gb b.data k = p k) :
    ∃ b', tinyFinish R c t0 d n b = .ok b' ∧ ∀ k, k < 8 * n → gb b'.data k =
      if d = false ∧ n < 16 ∧ k < 128 then (p k ^^ bb (TB R c t0 (lIn n p)) k) else p k := by
  rw [tinyFinish]
  by_cases hc : d = false ∧ n < 16
  · rw [if_pos hc, ld_ok (by omega)]
    simp only [Res.bind_ok]
    rw [zeroPad_eq _ n _ rfl (by omega)]
    simp only [Res.bind_ok, topBit_eq]
    rw [st_ok _ (by omega)]
    refine ⟨_, rfl, fun k hk => ?_⟩
    have hz : (fun i : Fin 16 => if i.1 < n then blk b.data 0 i else 0) = lIn n p := by
      apply bb_ext
      intro j hj
      rw [bb_lIn _ _ _ hj]
      by_cases h8 : j < 8 * n
      · simp only [h8, decide_true, Bool.true_and]
        rw [← hp j h8]
        simp only [bb, hj, dite_true, blk, gb]
        rw [if_pos (by omega), Nat.zero_add]
      · simp only [h8, decide_false, Bool.false_and, bb, hj, dite_true]
        rw [if_neg (by omega)]; simp
    simp only
    rw [gb_put_in _ _ _ _ (by omega) (by omega), if_pos ⟨hc.1, hc.2, by omega⟩, hz, bb_bx, bb_blk _ _ _ (by omega), Nat.mul_zero,
      Nat.sub_zero, Nat.zero_add, hp k hk]
  · rw [if_neg hc]
    refine ⟨b, rfl, fun k hk => ?_⟩
    rw [if_neg (fun h => hc ⟨h.1, h.2.1⟩), hp k hk]

theorem tiny_ok (c : Ctx) (t : Block) (d al : Bool) (n : Nat) (m : Mem) (h32 : n < 32) (hS : n ≤ ssize al m)
    (hD : n ≤ m.dst.size) :
    ∃ m', tiny R c t d al n m = .ok m' ∧ m'.src = m.src ∧ m'.dst.size = m.dst.size ∧
      (∀ k, k < 8 * n → gb m'.dst.data k = outBit R c t d n (gb (sdat al m)) k) ∧
      (∀ i, n ≤ i → m'.dst.data i = m.dst.data i) := by
  obtain ⟨b, e1, hbs, hb⟩ := tinyLoad_ok al n m h32 hS
  obtain ⟨r, e2, hr⟩ := right_eq h32 hbs hb
  have hl := left_eq hb
  have hfe : feistel R c (tinyTweak c t n) (ffF n) (m10F n) (if d then zeroSetByte 255 15 else zeroSetByte 1 15) (rounds n / 2)
      (if d then zeroSetByte (UInt8.ofNat (rounds n - 1)) 15 else bzero) (lStart R c t d n (gb (sdat al m)), rIn n (gb (sdat al m))) =
      halves R c t d n (gb (sdat al m)) := by
    rw [feistel_eq]; rfl
  obtain ⟨b2, e3, hs2, hb2⟩ := tinyJoin_ok n h32 b hbs (halves R c t d n (gb (sdat al m))).1 (halves R c t d n (gb (sdat al m))).2
  obtain ⟨b3, e4, hb3⟩ := tinyFinish_ok R c t d n b2 hs2 _ hb2
  refine ⟨⟨m.src, m.dst.size, fun i => if i < n then b3.data i else m.dst.data i⟩, ?_, rfl, rfl, ?_, ?_⟩
  · rw [tiny, e1]
    simp only [Res.bind_ok]
    rw [ld_ok (by omega), hl, e2, tinyMasks_eq n h32]
    simp only [Res.bind_ok, tinyLeft_eq]
    change (tinyJoin n b (feistel R c (tinyTweak c t n) (ffF n) (m10F n) _ (rounds n / 2) _ (_, M n r)).1
      (feistel R c (tinyTweak c t n) (ffF n) (m10F n) _ (rounds n / 2) _ (_, M n r)).2 >>= _) = _
    rw [hr, hfe, e3]
    simp only [Res.bind_ok]
    rw [e4]
    simp only [Res.bind_ok]
    rw [if_pos hD]
  · intro k hk
    have : gb (fun i => if i < n then b3.data i else m.dst.data i) k = gb b3.data k := gb_congr (by rw [if_pos (by omega)])
    exact this.trans (hb3 k hk)
  · intro i hi
    show (if i < n then _ else _) = _
    rw [if_neg (by omega)]

end

end Verif.Aez
