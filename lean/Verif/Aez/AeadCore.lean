import Verif.Aez.ModelAead
import Verif.Aez.Core
import Verif.Aez.TinyMem

/-! What `cipher_aez_core` and `cipher_aez_tiny` compute with authentication bytes. -/

namespace Verif.Aez.Aead

open Verif Verif.Aez

/-- The string that is enciphered: at encryption the bytes behind the message are zeros. -/
def padded (d : Bool) (n abytes : Nat) (P : Nat → UInt8) : Nat → UInt8 := fun i => if d = false ∧ n - abytes ≤ i then 0 else P i

/-- The condition for acceptance: at decryption the last bytes of the output are zeros. -/
def Zeros (d : Bool) (n abytes : Nat) (Q : Nat → UInt8) : Prop := d = true → ∀ i, n - abytes ≤ i → i < n → Q i = 0

/-- The number of bytes written. -/
def written (d : Bool) (n abytes : Nat) : Nat := if d then n - abytes else n

theorem subU_eq {x y : Nat} (h : y ≤ x) (hx : x < 4294967296) : subU x y = x - y := by
  rw [subU]; omega

theorem isZero_iff (x : Block) : isZero x = true ↔ ∀ i, x i = 0 := by simp [isZero]

theorem and_not_zero {a : UInt8} : ~~~(0 : UInt8) &&& a = a := by
  rw [show ~~~(0 : UInt8) = -1 from rfl]; simp

theorem not_ff_and {a : UInt8} : ~~~(255 : UInt8) &&& a = 0 := by
  rw [show ~~~(255 : UInt8) = 0 from rfl]; simp

section
variable (R : Block → Block)

theorem tagOk_eq (d : Bool) {a : Nat} (ha : a ≤ 16) (x : Block) :
    ∃ ok, tagOk d a x = .ok ok ∧ (ok = true ↔ Zeros d 16 a (byteOf x)) := by
  cases d with
  | false => exact ⟨true, rfl, ⟨fun _ h => absurd h (by decide), fun _ => rfl⟩⟩
  | true =>
    rw [tagOk, if_pos rfl, ld_ok (show a + 16 ≤ 48 by omega)]
    refine ⟨_, rfl, ?_⟩
    rw [isZero_iff]
    constructor
    · intro h _ i h1 h2
      have := h ⟨i, h2⟩
      simp only [bandnot, blk, pad] at this
      rw [if_neg (by omega), if_neg (by omega), and_not_zero] at this
      rw [byteOf_of_lt _ h2]; exact this
    · intro h i
      have hi := i.2
      simp only [bandnot, blk, pad]
      by_cases h1 : 16 - a ≤ i.1
      · rw [if_neg (by omega), if_neg (by omega), and_not_zero]
        have := h rfl i.1 h1 hi
        rwa [byteOf_of_lt _ hi] at this
      · rw [if_pos (by omega), not_ff_and]

theorem lastBlock_ok (al d : Bool) (m : Mem) (n a : Nat) (h32 : 32 ≤ n) (ha : a ≤ 16) (hS : n ≤ ssize al m) :
    lastBlock al d m n a = .ok (blk (padded d n a (sdat al m)) (n - 32 + 16)) := by
  rw [lastBlock, ldS_ok (by omega)]
  by_cases h : d = true ∨ a = 0
  · rw [if_pos h]
    congr 1
    refine blk_congr fun i h1 h2 => ?_
    rw [padded, if_neg]
    rintro ⟨h3, h4⟩
    rcases h with h | h
    · rw [h] at h3; exact absurd h3 (by decide)
    · omega
  · rw [if_neg h]
    simp only [Res.bind_ok]
    rw [zeroPad_eq _ (16 - a) _ (by omega) (by omega)]
    congr 1
    funext i
    have hd : d = false := by cases d <;> simp_all
    have hi := i.2
    simp only [blk, padded]
    by_cases h1 : i.1 < 16 - a
    · rw [if_pos h1, if_neg (by omega)]
    · rw [if_neg h1, if_pos ⟨hd, by omega⟩]

theorem lastStore_ok (d : Bool) (m : Mem) (n a : Nat) (x : Block) (h32 : 32 ≤ n) (ha : a ≤ 16) (hD : written d n a ≤ m.dst.size) :
    ∃ m', lastStore d m n a x = .ok m' ∧ m'.src = m.src ∧ m'.dst.size = m.dst.size ∧
      (∀ i, n - 16 ≤ i → i < written d n a → m'.dst.data i = byteOf x (i - (n - 16))) ∧
      (∀ i, i < n - 16 ∨ written d n a ≤ i → m'.dst.data i = m.dst.data i) := by
  rw [lastStore]
  by_cases h : d = false ∨ a = 0
  · have hw : written d n a = n := by
      rw [written]
      rcases h with h | h
      · rw [h, if_neg (by decide)]
      · rw [h]; simp
    rw [hw] at hD ⊢
    rw [if_pos h, stD_ok _ (by omega)]
    refine ⟨_, rfl, rfl, rfl, fun i h1 h2 => ?_, fun i hi => ?_⟩
    · show put _ _ _ i = _
      rw [put, dif_pos (by omega), byteOf_of_lt _ (by omega)]
      congr 1; apply Fin.ext; simp only; omega
    · show put _ _ _ i = _
      rw [put_other (by omega)]
  · have hd : d = true := by cases d <;> simp_all
    have hw : written d n a = n - a := by rw [written, hd, if_pos rfl]
    rw [hw] at hD ⊢
    rw [if_neg h, subU_eq ha (by omega), stBytes, if_pos (by omega)]
    refine ⟨_, rfl, rfl, rfl, fun i h1 h2 => ?_, fun i hi => ?_⟩
    · simp only
      rw [dif_pos (by omega), byteOf_of_lt _ (by omega)]
    · simp only
      rw [dif_neg (by omega)]

/-- The core: what is returned, and what is in the destination. -/
theorem coreA_ok (c : Ctx) (t : Block) (d al : Bool) (b n a : Nat) (m : Mem) (hn : n = if d then b else b + a) (hlt : n < 4294967296)
    (h32 : 32 ≤ n) (ha : a ≤ 16) (hS : n ≤ ssize al m) (hD : written d n a ≤ m.dst.size) :
    ∃ m' ok, coreA R c t d al b a m = .ok (m', ok) ∧ (ok = true ↔ Zeros d n a (coreFn R c t d n (padded d n a (sdat al m)))) ∧
      m'.src = m.src ∧ m'.dst.size = m.dst.size ∧
      (ok = true → ∀ i, i < written d n a → m'.dst.data i = coreFn R c t d n (padded d n a (sdat al m)) i) ∧
      (∀ i, written d n a ≤ i → m'.dst.data i = m.dst.data i) ∧
      (ok = false → ∀ i, initN n ≤ i → m'.dst.data i = m.dst.data i) := by
  have hbn : (if d then b else (b + a) % 4294967296) = n := by
    cases d
    · simp only [Bool.false_eq_true, if_false] at hn ⊢; omega
    · simp only [if_true] at hn ⊢; omega
  have hw : n - 16 ≤ written d n a ∧ written d n a ≤ n := by rw [written]; split <;> omega
  have hi : initN n + fragN n + 32 = n := by simp only [initN, fragN]; omega
  have hf : fragN n < 32 := by simp only [fragN]; omega
  have hd : initN n % 32 = 0 := by simp only [initN]; omega
  obtain ⟨⟨m1, sum1⟩, e1, o1⟩ := passOne_ok R c al (initN n) m hd (by omega) (by omega)
  simp only at o1
  generalize hP : padded d n a (sdat al m) = P
  have hPs : ∀ i, i < n - 16 → sdat al m i = P i := by
    intro i h
    rw [← hP, padded, if_neg (by omega)]
  have hz1 : n ≤ ssize al m1 := by rw [ssize_eq o1.src o1.size]; exact hS
  have hs1 : ∀ i, initN n ≤ i → sdat al m1 i = sdat al m i := by
    intro i h
    cases al
    · simp [sdat, o1.src]
    · exact o1.rest i (by omega)
  have hfr := coreFrag_ok R c al m1 n sum1 P h32 (by omega) fun i h1 h2 => (hs1 i h1).trans (hPs i h2)
  have hbm : ∀ o, o + 16 ≤ n - 16 → blk (sdat al m) o = blk P o := fun o ho => blk_congr fun i h1 _ => hPs i (by omega)
  have hb0 : blk (sdat al m1) (n - 32) = blk P (n - 32) :=
    (blk_congr fun i h1 _ => hs1 i (by omega)).trans (hbm _ (by omega))
  have hb1 : lastBlock al d m1 n a = .ok (blk P (n - 32 + 16)) := by
    rw [lastBlock_ok al d m1 n a h32 ha hz1, ← hP]
    refine congrArg Res.ok (blk_congr fun i h1 h2 => ?_)
    simp only [padded]
    rw [hs1 i (by omega)]
  have hW : ∀ j, j < initN n / 32 → W R c (offs c (initN n)) (sdat al m) j = W R c (offs c (initN n)) P j := by
    intro j hj; rw [W, W, hbm _ (by omega), hbm _ (by omega)]
  have hX : ∀ j, j < initN n / 32 → X R c (offs c (initN n)) (sdat al m) j = X R c (offs c (initN n)) P j := by
    intro j hj; rw [X, X, hW j hj, hbm _ (by omega)]
  have hsum : sum1 = xsum (X R c (offs c (initN n)) P) (initN n / 32) := by rw [o1.sum]; exact xsum_congr _ hX
  subst hsum
  obtain ⟨⟨m2, sum2⟩, e2, o2⟩ := passTwo_ok R c (vals R c t d n P).s (initN n) m1
    (W R c (offs c (initN n)) P) (X R c (offs c (initN n)) P) hd (by rw [o1.size]; omega)
    (fun j hj => (o1.ev j hj).trans (hW j hj)) (fun j hj => (o1.od j hj).trans (hX j hj))
  simp only at o2
  obtain ⟨m3, e3, a1, a2, a3, a4⟩ := coreFragOut_ok R c m2 n (vals R c t d n P).s (fr0 n P) (fr1 n P) sum2 h32
    (by rw [o2.size, o1.size]; omega)
  have hs3 : m3.dst.size = m.dst.size := by rw [a2, o2.size, o1.size]
  have hx2 := o2.sum
  subst hx2
  obtain ⟨m5, e5, b1, b2, b3, b4⟩ := lastStore_ok d ⟨m3.src, m3.dst.size, put m3.dst.data (n - 32) (bx (bx (vals R c t d n P).f1'' (vals R c t d n P).y) t)⟩
    n a (vals R c t d n P).f0'' h32 ha (by simp only; omega)
  -- the test of the last block is a test of the last bytes of the output
  have htag : Zeros d 16 a (byteOf (vals R c t d n P).f0'') ↔ Zeros d n a (coreFn R c t d n P) := by
    refine imp_congr_right fun _ => ⟨fun h i h1 h2 => ?_, fun h i h1 h2 => ?_⟩
    · simp only [coreFn]
      rw [if_neg (by omega), if_neg (by omega), if_neg (by omega)]
      exact h _ (by omega) (by omega)
    · have := h (i + (n - 16)) (by omega) (by omega)
      simp only [coreFn] at this
      rw [if_neg (by omega), if_neg (by omega), if_neg (by omega), Nat.add_sub_cancel] at this
      exact this
  obtain ⟨ok, e6, hok⟩ := tagOk_eq d ha (vals R c t d n P).f0''
  rw [htag] at hok
  have hrun : coreA R c t d al b a m = (if ok = false then
      Res.ok (m1, false) else Res.ok (m5, true)) := by
    rw [coreA, hbn]
    show (passOne R c al (initN n) m >>= _) = _
    rw [e1]
    simp only [Res.bind_ok]
    change (coreFrag R c al m1 (initN n) (fragN n) _ >>= _) = _
    rw [hfr]
    simp only [Res.bind_ok]
    rw [ldS_ok (by omega), hb0, hb1]
    simp only [Res.bind_ok, aes4_eq]
    change (tagOk d a (vals R c t d n P).f0'' >>= _) = _
    rw [e6]
    simp only [Res.bind_ok]
    by_cases hc : ok = false
    · rw [if_pos hc, if_pos hc]; rfl
    · rw [if_neg hc, if_neg hc]
      change (passTwo R c (vals R c t d n P).s (initN n) m1 >>= _) = _
      rw [e2]
      simp only [Res.bind_ok]
      change (coreFragOut R c m2 (vals R c t d n P).s (fr0 n P) (fr1 n P) (initN n) (fragN n) _ >>= _) = _
      rw [e3]
      simp only [Res.bind_ok]
      rw [stD_ok _ (by omega)]
      simp only [Res.bind_ok]
      change (lastStore d ⟨m3.src, m3.dst.size, put m3.dst.data (n - 32) (bx (bx (vals R c t d n P).f1'' (vals R c t d n P).y) t)⟩ n a
        (vals R c t d n P).f0'' >>= _) = _
      rw [e5]
      rfl
  by_cases hc : ok = true
  · rw [hrun, if_neg (by rw [hc]; decide)]
    refine ⟨m5, true, rfl, by rw [hc] at hok; exact hok, by rw [b1]; show m3.src = _; rw [a1, o2.src, o1.src], by rw [b2]; exact hs3, fun _ i hin => ?_, fun i hin => ?_, fun h => absurd h (by decide)⟩
    · simp only [coreFn]
      by_cases h4 : n - 16 ≤ i
      · rw [if_neg (by omega), if_neg (by omega), if_neg (by omega), b3 i h4 hin]
      · rw [b4 i (Or.inl (by omega))]
        show put _ _ _ i = _
        by_cases h1 : i < initN n
        · rw [put_other (by omega), if_pos h1, a4 i (Or.inl h1)]
          by_cases h2 : i % 32 < 16
          · rw [if_pos h2, ← o2.ev (i / 32) (by omega)]
            have := blk_byteOf m2.dst.data (32 * (i / 32)) i (by omega) (by omega)
            rw [← this]; congr 1; omega
          · rw [if_neg h2, ← o2.od (i / 32) (by omega)]
            have := blk_byteOf m2.dst.data (32 * (i / 32) + 16) i (by omega) (by omega)
            rw [← this]; congr 1; omega
        · rw [if_neg h1]
          by_cases h2 : i < initN n + fragN n
          · rw [put_other (by omega), if_pos h2, a3 i (by omega) h2]
          · rw [if_neg h2, if_pos (by omega), put, dif_pos (by omega), byteOf_of_lt _ (by omega)]
    · rw [b4 i (Or.inr hin)]
      show put _ _ _ i = _
      rw [put_other (by omega), a4 i (Or.inr (by omega)), o2.rest i (by omega), o1.rest i (by omega)]
  · have hc' : ok = false := by cases ok <;> simp_all
    rw [hrun, if_pos hc']
    refine ⟨m1, false, rfl, by rw [← hc']; exact hok, o1.src, o1.size, fun h => absurd h (by decide), fun i hin => o1.rest i (by omega), fun _ i hin => o1.rest i (by omega)⟩

/-- Encryption reads the bytes behind the message: the call is not defined when the source ends with the message. -/
theorem coreA_ub (c : Ctx) (t : Block) (b a : Nat) (m : Mem) (hlt : b + a < 4294967296) (h32 : 32 ≤ b + a) (ha : a ≤ 16) (h1 : b ≤ m.src.size)
    (h2 : m.src.size < b + a) (hD : b + a ≤ m.dst.size) : coreA R c t false false b a m = .ub := by
  have hi : initN (b + a) + fragN (b + a) + 32 = b + a := by simp only [initN, fragN]; omega
  have hd : initN (b + a) % 32 = 0 := by simp only [initN]; omega
  obtain ⟨⟨m1, sum1⟩, e1, o1⟩ := passOne_ok R c false (initN (b + a)) m hd (by simp only [ssize, Bool.false_eq_true, if_false]; omega) (by omega)
  simp only at o1
  have hz1 : ssize false m1 = m.src.size := by rw [ssize_eq o1.src o1.size]; rfl
  have hfr := coreFrag_ok R c false m1 (b + a) sum1 (sdat false m1) h32 (by omega) fun _ _ _ => rfl
  rw [coreA]
  simp only [Bool.false_eq_true, if_false, Nat.mod_eq_of_lt hlt]
  show (passOne R c false (initN (b + a)) m >>= _) = _
  rw [e1]
  simp only [Res.bind_ok]
  change (coreFrag R c false m1 (initN (b + a)) (fragN (b + a)) _ >>= _) = _
  rw [hfr]
  simp only [Res.bind_ok]
  rw [ldS_ok (by omega)]
  simp only [Res.bind_ok]
  have : lastBlock false false m1 (b + a) a = .ub := by
    rw [lastBlock]
    have : ldS false m1 (b + a - 32 + 16) = .ub := by
      simp only [ssize, Bool.false_eq_true, if_false] at hz1
      simp only [ldS, ld, Bool.false_eq_true, if_false]
      rw [if_neg (by omega)]
    rw [this]
    split <;> rfl
  rw [this]
  rfl

/-! ## Short messages -/

theorem bytes_of_bits {f g : Nat → UInt8} {n : Nat} (h : ∀ k, k < 8 * n → gb f k = gb g k) : ∀ i, i < n → f i = g i := gb_ext h

/-- The output of short messages as bytes. -/
def tinyFn (c : Ctx) (t : Block) (d : Bool) (n : Nat) (P : Nat → UInt8) : Nat → UInt8 :=
  match tiny R c t d false n ⟨⟨n, P⟩, ⟨n, P⟩⟩ with
  | .ok m => m.dst.data
  | _ => fun _ => 0

theorem tinyFn_bits (c : Ctx) (t : Block) (d : Bool) {n : Nat} (h : n < 32) (P : Nat → UInt8) :
    ∀ k, k < 8 * n → gb (tinyFn R c t d n P) k = outBit R c t d n (gb P) k := by
  obtain ⟨m, e, -, -, h1, -⟩ := tiny_ok R c t d false n ⟨⟨n, P⟩, ⟨n, P⟩⟩ h (Nat.le_refl _) (Nat.le_refl _)
  rw [tinyFn, e]
  exact h1

theorem tinyA_ok (c : Ctx) (t : Block) (d al : Bool) (b n a : Nat) (m : Mem) (hn : n = if d then b else b + a) (h32 : n < 32) (ha : a ≤ 16)
    (han : a ≤ n) (hS : b ≤ ssize al m) (hD : written d n a ≤ m.dst.size) :
    ∃ m' ok, tinyA R c t d al b a m = .ok (m', ok) ∧ (ok = true ↔ Zeros d n a (tinyFn R c t d n (padded d n a (sdat al m)))) ∧
      m'.src = m.src ∧ m'.dst.size = m.dst.size ∧
      (ok = true → ∀ i, i < written d n a → m'.dst.data i = tinyFn R c t d n (padded d n a (sdat al m)) i) ∧
      (∀ i, written d n a ≤ i → m'.dst.data i = m.dst.data i) ∧
      (ok = false → m' = m) := by
  have hbn : (if d then b else (b + a) % 4294967296) = n := by
    cases d
    · simp only [Bool.false_eq_true, if_false] at hn ⊢; omega
    · simp only [if_true] at hn ⊢; omega
  have hb32 : b < 32 := by cases d <;> simp at hn <;> omega
  obtain ⟨buf, e1, hbs, hb0⟩ := tinyLoad_ok al b m hb32 hS
  generalize hP : padded d n a (sdat al m) = P
  have hb : ∀ i, i < 32 → buf.data i = if i < n then P i else 0 := by
    intro i hi
    rw [hb0 i hi, ← hP, padded]
    cases d with
    | true => simp only [if_true] at hn; rw [hn]; simp
    | false =>
      simp only [Bool.false_eq_true, if_false] at hn
      by_cases h1 : i < b
      · rw [if_pos h1, if_pos (by omega), if_neg (by omega)]
      · rw [if_neg h1, if_pos (show _ ∧ n - a ≤ i from ⟨rfl, by omega⟩), ite_self]
  obtain ⟨r, e2, hr⟩ := right_eq h32 hbs hb
  have hl := left_eq hb
  have hfe : feistel R c (tinyTweak c t n) (ffF n) (m10F n) (if d then zeroSetByte 255 15 else zeroSetByte 1 15) (rounds n / 2)
      (if d then zeroSetByte (UInt8.ofNat (rounds n - 1)) 15 else bzero) (lStart R c t d n (gb P), rIn n (gb P)) =
      halves R c t d n (gb P) := by
    rw [feistel_eq]; rfl
  obtain ⟨b2, e3, hs2, hb2⟩ := tinyJoin_ok n h32 buf hbs (halves R c t d n (gb P)).1 (halves R c t d n (gb P)).2
  have hfn := tinyFn_bits R c t d h32 P
  have hrun : tinyA R c t d al b a m = (if d then do
      let bytes := subU n a
      let tmp ← tinyTag b2 bytes a
      if isZero tmp = false then pure (m, false) else tinyWrite m b2 bytes
    else do
      let buf ← tinyFinish R c t d n b2
      tinyWrite m buf n) := by
    rw [tinyA, e1, hbn]
    simp only [Res.bind_ok]
    rw [ld_ok (by omega), hl, e2, tinyMasks_eq n h32]
    simp only [Res.bind_ok, tinyLeft_eq]
    change (tinyJoin n buf (feistel R c (tinyTweak c t n) (ffF n) (m10F n) _ (rounds n / 2) _ (_, M n r)).1
      (feistel R c (tinyTweak c t n) (ffF n) (m10F n) _ (rounds n / 2) _ (_, M n r)).2 >>= _) = _
    rw [hr, hfe, e3]
    rfl
  rw [hrun]
  cases d with
  | false =>
    rw [if_neg (by decide)]
    obtain ⟨b3, e4, hb3⟩ := tinyFinish_ok R c t false n b2 hs2 _ hb2
    have hs3 : b3.size = 32 := by
      rw [tinyFinish] at e4
      by_cases hc : false = false ∧ n < 16
      · rw [if_pos hc, ld_ok (by omega)] at e4
        simp only [Res.bind_ok] at e4
        rw [zeroPad_eq _ n _ rfl (by omega)] at e4
        simp only [Res.bind_ok, topBit_eq] at e4
        rw [st_ok _ (by omega)] at e4
        cases e4; exact hs2
      · rw [if_neg hc] at e4
        cases e4; exact hs2
    have hw : written false n a = n := rfl
    rw [hw] at hD ⊢
    rw [e4]
    simp only [Res.bind_ok]
    rw [tinyWrite, if_pos ⟨hD, by omega⟩]
    refine ⟨_, true, rfl, ⟨fun _ h => absurd h (by decide), fun _ => rfl⟩, rfl, rfl, fun _ i hi => ?_, fun i hi => ?_, fun h => absurd h (by decide)⟩
    · show (if i < n then b3.data i else _) = _
      rw [if_pos hi]
      exact gb_ext (fun k hk => by rw [hb3 k hk, hfn k hk]; simp only [outBit]) i hi
    · show (if i < n then b3.data i else _) = _
      rw [if_neg (by omega)]
  | true =>
    have hw : written true n a = n - a := rfl
    rw [hw] at hD ⊢
    rw [if_pos rfl, subU_eq han (by omega)]
    have hout : ∀ i, i < n → b2.data i = tinyFn R c t true n P i := gb_ext fun k hk => by rw [hb2 k hk, hfn k hk]; simp [outBit]
    have htag : ∃ x, tinyTag b2 (n - a) a = .ok x ∧ (isZero x = true ↔ Zeros true n a (tinyFn R c t true n P)) := by
      rw [tinyTag]
      by_cases h16 : a = 16
      · rw [if_pos h16, ld_ok (by omega)]
        refine ⟨_, rfl, ?_⟩
        rw [isZero_iff]
        constructor
        · intro h _ i h1 h2
          rw [← hout i h2]
          have := h ⟨i - (n - a), by omega⟩
          simp only [blk] at this
          rwa [show n - a + (i - (n - a)) = i by omega] at this
        · intro h i
          have hi := i.2
          simp only [blk]
          rw [hout _ (by omega)]
          exact h rfl _ (by omega) (by omega)
      · rw [if_neg h16, ldPart_ok (by omega) ha]
        refine ⟨_, rfl, ?_⟩
        rw [isZero_iff]
        constructor
        · intro h _ i h1 h2
          rw [← hout i h2]
          have := h ⟨i - (n - a), by omega⟩
          simp only at this
          rwa [if_pos (by omega), show n - a + (i - (n - a)) = i by omega] at this
        · intro h i
          by_cases hi : i.1 < a
          · show (if i.1 < a then _ else _) = _; rw [if_pos hi, hout _ (by omega)]
            exact h rfl _ (by omega) (by omega)
          · show (if i.1 < a then _ else _) = _; rw [if_neg hi]
    obtain ⟨x, e5, hx⟩ := htag
    simp only
    rw [e5]
    simp only [Res.bind_ok]
    by_cases hz : isZero x = true
    · rw [hz, if_neg (by decide), tinyWrite, if_pos ⟨hD, by omega⟩]
      refine ⟨_, true, rfl, by rw [hz] at hx; exact hx, rfl, rfl, fun _ i hi => ?_, fun i hi => ?_, fun h => absurd h (by decide)⟩
      · show (if i < n - a then b2.data i else _) = _
        rw [if_pos hi]
        exact hout i (by omega)
      · show (if i < n - a then b2.data i else _) = _
        rw [if_neg (by omega)]
    · have hz' : isZero x = false := by
        cases h : isZero x
        · rfl
        · exact absurd h hz
      rw [hz', if_pos rfl]
      exact ⟨m, false, rfl, by rw [← hz']; exact hx, rfl, rfl, fun h => absurd h (by decide), fun _ _ => rfl, fun _ => rfl⟩

end

end Verif.Aez.Aead
