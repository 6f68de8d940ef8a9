import Verif.Aez.Passes

/-! What `cipher_aez_core` computes, and that it is inverted by swapping the direction. -/

namespace Verif.Aez

open Verif

/-- Keep the first `n` bytes, then one byte 0x80, then zeros. -/
def ozp (x : Block) (n : Nat) : Block := fun i => if i.1 < n then x i else if i.1 = n then 0x80 else 0

theorem oneZeroPad_eq (x : Block) (n k : Nat) (hk : k = 16 - n) (hn : n ≤ 16) : oneZeroPad x k = .ok (ozp x n) := by
  subst hk
  rw [oneZeroPad, ld_ok (show 16 - n + 16 ≤ 48 by omega), ld_ok (show 16 - n + 16 + 16 ≤ 48 by omega)]
  simp only [Res.bind_ok, Res.pure_eq]
  congr 1
  funext i
  have hi := i.2
  simp only [bor, band, blk, pad, ozp]
  by_cases h1 : i.1 < n
  · rw [if_pos h1, if_pos (by omega), if_neg (by omega), if_neg (by omega)]
    simp [show (255 : UInt8) = -1 from rfl]
  · rw [if_neg h1, if_neg (by omega), if_neg (by omega), if_neg (by omega)]
    by_cases h2 : i.1 = n
    · rw [if_pos (by omega), if_pos h2]; simp
    · rw [if_neg (by omega), if_neg h2]; simp

theorem ozp_congr {x y : Block} {n : Nat} (h : ∀ i : Fin 16, i.1 < n → x i = y i) : ozp x n = ozp y n := by
  funext i
  simp only [ozp]
  by_cases h1 : i.1 < n
  · rw [if_pos h1, if_pos h1, h i h1]
  · rw [if_neg h1, if_neg h1]

section
variable (R : Block → Block)

/-- Start and length of the fragment. -/
def fragN (n : Nat) : Nat := n % 32
def initN (n : Nat) : Nat := n - n % 32 - 32

/-- The padded fragments of the message `P`. -/
def fr0 (n : Nat) (P : Nat → UInt8) : Block :=
  if fragN n ≥ 16 then blk P (initN n) else if fragN n ≠ 0 then ozp (blk P (initN n)) (fragN n) else bzero
def fr1 (n : Nat) (P : Nat → UInt8) : Block :=
  if fragN n ≥ 16 then ozp (blk P (initN n + 16)) (fragN n - 16) else bzero

/-- The contribution of the fragments to the checksum. -/
def fx (c : Ctx) (n : Nat) (f0 f1 x : Block) : Block :=
  if fragN n ≥ 16 then bx (bx (F R c (bx f0 c.I2)) x) (F R c (bx (bx f1 c.I2) c.I0))
  else if fragN n ≠ 0 then bx (F R c (bx f0 c.I2)) x
  else x

/-- The fragments of the output. -/
def fo0 (c : Ctx) (n : Nat) (s f0 : Block) : Block :=
  if fragN n ≥ 16 then bx f0 (aes R c s c.J2) else if fragN n ≠ 0 then ozp (bx f0 (aes R c s c.J2)) (fragN n) else bzero
def fo1 (c : Ctx) (n : Nat) (s f1 : Block) : Block :=
  if fragN n ≥ 16 then ozp (bx f1 (aes R c s (bx c.J2 c.J0))) (fragN n - 16) else bzero

theorem coreFrag_ok (c : Ctx) (al : Bool) (m : Mem) (n : Nat) (x : Block) (P : Nat → UInt8) (h32 : 32 ≤ n)
    (hS : n - 16 ≤ ssize al m) (hP : ∀ i, initN n ≤ i → i < n - 16 → sdat al m i = P i) :
    coreFrag R c al m (initN n) (fragN n) x = .ok (fr0 n P, fr1 n P, fx R c n (fr0 n P) (fr1 n P) x) := by
  have hi : initN n + fragN n + 32 = n := by simp only [initN, fragN]; omega
  have hf : fragN n < 32 := by simp only [fragN]; omega
  have hb : ∀ o, initN n ≤ o → o + 16 ≤ n - 16 → blk (sdat al m) o = blk P o := fun o ho _ => blk_congr fun i h1 _ => hP i (by omega) (by omega)
  simp only [coreFrag, fr0, fr1, fx]
  by_cases h16 : fragN n ≥ 16
  · simp only [h16, if_true]
    rw [ldS_ok (by omega), ldS_ok (by omega), hb _ (by omega) (by omega), hb _ (by omega) (by omega)]
    simp only [Res.bind_ok]
    rw [oneZeroPad_eq _ (fragN n - 16) _ (by omega) (by omega)]
    simp only [Res.bind_ok, Res.pure_eq, aes4_eq, bx_zero]
  · simp only [h16, if_false]
    by_cases h0 : fragN n ≠ 0
    · simp only [ne_eq, h0, not_false_eq_true, if_true]
      rw [ldS_ok (by omega), hb _ (by omega) (by omega)]
      simp only [Res.bind_ok]
      rw [oneZeroPad_eq _ (fragN n) _ (by omega) (by omega)]
      simp only [Res.bind_ok, Res.pure_eq, aes4_eq]
    · simp only [h0, if_false, Res.pure_eq]

/-- Everything the core computes on the message `P`. -/
structure Vals where
  x : Block
  f0' : Block
  f1' : Block
  s : Block
  f0'' : Block
  f1'' : Block
  y : Block

def vals (c : Ctx) (t : Block) (d : Bool) (n : Nat) (P : Nat → UInt8) : Vals :=
  let off := offs c (initN n)
  let x := fx R c n (fr0 n P) (fr1 n P) (xsum (X R c off P) (initN n / 32))
  let f0 := bx (bx (blk P (n - 32)) x) t
  let f1 := blk P (n - 32 + 16)
  let f0' := bx (F R c (bx f1 (c.Id d))) f0
  let f1' := bx f1 (aes R c f0' (c.Jd d))
  let s := bx f0' f1'
  let f0'' := bx f0' (aes R c f1' (c.Jd (!d)))
  let f1'' := bx (F R c (bx f0'' (c.Id (!d)))) f1'
  let y := fx R c n (fo0 R c n s (fr0 n P)) (fo1 R c n s (fr1 n P)) (xsum (T R c off s (W R c off P)) (initN n / 32))
  ⟨x, f0', f1', s, f0'', f1'', y⟩

/-- The `k`-th byte of a block. -/
def byteOf (b : Block) (k : Nat) : UInt8 := b (Fin.ofNat 16 k)

theorem byteOf_of_lt (b : Block) {k : Nat} (h : k < 16) : byteOf b k = b ⟨k, h⟩ := by
  simp only [byteOf]; congr 1; apply Fin.ext; exact Nat.mod_eq_of_lt h

theorem blk_byteOf (f : Nat → UInt8) (off i : Nat) (h1 : off ≤ i) (h2 : i < off + 16) : byteOf (blk f off) (i - off) = f i := by
  rw [byteOf_of_lt _ (by omega)]
  simp only [blk]; congr 1; omega

/-- The output of the core. -/
def coreFn (c : Ctx) (t : Block) (d : Bool) (n : Nat) (P : Nat → UInt8) : Nat → UInt8 :=
  let off := offs c (initN n)
  let v := vals R c t d n P
  fun i =>
    if i < initN n then
      if i % 32 < 16 then byteOf (C0 R c off v.s (W R c off P) (X R c off P) (i / 32)) (i % 32)
      else byteOf (C1 R c off v.s (W R c off P) (X R c off P) (i / 32)) (i % 32 - 16)
    else if i < initN n + fragN n then
      if i - initN n < 16 then byteOf (fo0 R c n v.s (fr0 n P)) (i - initN n)
      else byteOf (fo1 R c n v.s (fr1 n P)) (i - initN n - 16)
    else if i < n - 16 then byteOf (bx (bx v.f1'' v.y) t) (i - (n - 32))
    else byteOf v.f0'' (i - (n - 16))

theorem coreFragOut_ok (c : Ctx) (m : Mem) (n : Nat) (s f0 f1 y : Block) (h32 : 32 ≤ n) (hD : n - 16 ≤ m.dst.size) :
    ∃ m', coreFragOut R c m s f0 f1 (initN n) (fragN n) y =
        .ok (m', fx R c n (fo0 R c n s f0) (fo1 R c n s f1) y) ∧ m'.src = m.src ∧ m'.dst.size = m.dst.size ∧
      (∀ i, initN n ≤ i → i < initN n + fragN n → m'.dst.data i =
        if i - initN n < 16 then byteOf (fo0 R c n s f0) (i - initN n) else byteOf (fo1 R c n s f1) (i - initN n - 16)) ∧
      (∀ i, i < initN n ∨ n - 16 ≤ i → m'.dst.data i = m.dst.data i) := by
  have hi : initN n + fragN n + 32 = n := by simp only [initN, fragN]; omega
  have hf : fragN n < 32 := by simp only [fragN]; omega
  simp only [coreFragOut, fo0, fo1, fx]
  by_cases h16 : fragN n ≥ 16
  · simp only [h16, if_true]
    rw [oneZeroPad_eq _ (fragN n - 16) _ (by omega) (by omega)]
    simp only [Res.bind_ok, aes4_eq, bx_zero]
    rw [stD_ok _ (by omega)]
    simp only [Res.bind_ok]
    rw [stD_ok _ (by simp only; omega)]
    simp only [Res.bind_ok, Res.pure_eq]
    refine ⟨_, rfl, rfl, rfl, ?_, ?_⟩
    · intro i h1 h2
      by_cases hlt : i - initN n < 16
      · simp only [hlt, if_true]
        rw [put_other (by omega), put, dif_pos (by omega), byteOf_of_lt _ hlt]
      · simp only [hlt, if_false]
        rw [put, dif_pos (by omega), byteOf_of_lt _ (by omega)]
        congr 1
    · intro i h
      simp only
      rw [put_other (by omega), put_other (by omega)]
  · simp only [h16, if_false]
    by_cases h0 : fragN n ≠ 0
    · simp only [ne_eq, h0, not_false_eq_true, if_true]
      rw [oneZeroPad_eq _ (fragN n) _ (by omega) (by omega)]
      simp only [Res.bind_ok, aes4_eq]
      rw [stD_ok _ (by omega)]
      simp only [Res.bind_ok, Res.pure_eq]
      refine ⟨_, rfl, rfl, rfl, ?_, ?_⟩
      · intro i h1 h2
        have hlt : i - initN n < 16 := by omega
        simp only [hlt, if_true]
        rw [put, dif_pos (by omega), byteOf_of_lt _ hlt]
      · intro i h
        simp only
        rw [put_other (by omega)]
    · simp only [h0, if_false, Res.pure_eq]
      refine ⟨_, rfl, rfl, rfl, fun i h1 h2 => ?_, fun _ _ => rfl⟩
      omega

theorem core_ok (c : Ctx) (t : Block) (d al : Bool) (n : Nat) (m : Mem) (h32 : 32 ≤ n) (hS : n ≤ ssize al m)
    (hD : n ≤ m.dst.size) :
    ∃ m', core R c t d al n m = .ok m' ∧ m'.src = m.src ∧ m'.dst.size = m.dst.size ∧
      (∀ i, i < n → m'.dst.data i = coreFn R c t d n (sdat al m) i) ∧ (∀ i, n ≤ i → m'.dst.data i = m.dst.data i) := by
  have hi : initN n + fragN n + 32 = n := by simp only [initN, fragN]; omega
  have hf : fragN n < 32 := by simp only [fragN]; omega
  have hd : initN n % 32 = 0 := by simp only [initN]; omega
  obtain ⟨⟨m1, sum1⟩, e1, o1⟩ := passOne_ok R c al (initN n) m hd (by omega) (by omega)
  simp only at o1
  have hz1 : n ≤ ssize al m1 := by rw [ssize_eq o1.src o1.size]; exact hS
  have hP1 : ∀ i, initN n ≤ i → sdat al m1 i = sdat al m i := by
    intro i h
    cases al
    · simp [sdat, o1.src]
    · exact o1.rest i (by omega)
  have hfr := coreFrag_ok R c al m1 n sum1 (sdat al m) h32 (by omega) fun i h _ => hP1 i h
  have hb : ∀ o, initN n ≤ o → blk (sdat al m1) o = blk (sdat al m) o := fun o ho => blk_congr fun i h1 _ => hP1 i (by omega)
  obtain ⟨⟨m2, sum2⟩, e2, o2⟩ := passTwo_ok R c (vals R c t d n (sdat al m)).s (initN n) m1
    (W R c (offs c (initN n)) (sdat al m)) (X R c (offs c (initN n)) (sdat al m)) hd (by rw [o1.size]; omega) o1.ev o1.od
  simp only at o2
  obtain ⟨m3, e3, a1, a2, a3, a4⟩ := coreFragOut_ok R c m2 n (vals R c t d n (sdat al m)).s (fr0 n (sdat al m))
    (fr1 n (sdat al m)) sum2 h32 (by rw [o2.size, o1.size]; omega)
  have hs3 : m3.dst.size = m.dst.size := by rw [a2, o2.size, o1.size]
  refine ⟨⟨m3.src, m3.dst.size, put (put m3.dst.data (n - 32) (bx (bx (vals R c t d n (sdat al m)).f1''
    (vals R c t d n (sdat al m)).y) t)) (n - 32 + 16) (vals R c t d n (sdat al m)).f0''⟩, ?_, ?_, hs3, ?_, ?_⟩
  · rw [core]
    show (passOne R c al (initN n) m >>= _) = _
    rw [e1]
    simp only [Res.bind_ok]
    change (coreFrag R c al m1 (initN n) (fragN n) sum1 >>= _) = _
    rw [hfr]
    simp only [Res.bind_ok]
    rw [ldS_ok (by omega), ldS_ok (by omega), hb _ (by omega), hb _ (by omega)]
    simp only [Res.bind_ok, aes4_eq]
    have hx1 := o1.sum
    subst hx1
    change (passTwo R c (vals R c t d n (sdat al m)).s (initN n) m1 >>= _) = _
    rw [e2]
    simp only [Res.bind_ok]
    change (coreFragOut R c m2 (vals R c t d n (sdat al m)).s (fr0 n (sdat al m)) (fr1 n (sdat al m)) (initN n) (fragN n) sum2
      >>= _) = _
    rw [e3]
    have hx2 := o2.sum
    subst hx2
    simp only [Res.bind_ok]
    rw [stD_ok _ (by omega)]
    simp only [Res.bind_ok]
    rw [stD_ok _ (by simp only; omega)]
    rfl
  · show m3.src = _
    rw [a1, o2.src, o1.src]
  · intro i hin
    show put _ _ _ i = _
    simp only [coreFn]
    by_cases h1 : i < initN n
    · rw [put_other (by omega), put_other (by omega), if_pos h1, a4 i (Or.inl h1)]
      by_cases h2 : i % 32 < 16
      · rw [if_pos h2, ← o2.ev (i / 32) (by omega)]
        have := blk_byteOf m2.dst.data (32 * (i / 32)) i (by omega) (by omega)
        rw [← this]; congr 1; omega
      · rw [if_neg h2, ← o2.od (i / 32) (by omega)]
        have := blk_byteOf m2.dst.data (32 * (i / 32) + 16) i (by omega) (by omega)
        rw [← this]; congr 1; omega
    · rw [if_neg h1]
      by_cases h2 : i < initN n + fragN n
      · rw [put_other (by omega), put_other (by omega), if_pos h2, a3 i (by omega) h2]
      · rw [if_neg h2]
        by_cases h3 : i < n - 16
        · rw [put_other (by omega), if_pos h3, put, dif_pos (by omega), byteOf_of_lt _ (by omega)]
        · rw [if_neg h3, put, dif_pos (by omega), byteOf_of_lt _ (by omega)]
          congr 1; apply Fin.ext; simp only; omega
  · intro i hin
    show put _ _ _ i = _
    rw [put_other (by omega), put_other (by omega), a4 i (Or.inr (by omega)), o2.rest i (by omega), o1.rest i (by omega)]

/-! ## Inversion -/

theorem blk_of_byteOf {f : Nat → UInt8} {off : Nat} {b : Block} (h : ∀ k, k < 16 → f (off + k) = byteOf b k) : blk f off = b := by
  funext i
  simp only [blk]
  rw [h i.1 i.2, byteOf_of_lt _ i.2]

theorem coreFn_inv (c : Ctx) (t : Block) (d : Bool) (n : Nat) (P : Nat → UInt8) (h32 : 32 ≤ n) :
    ∀ i, i < n → coreFn R c t (!d) n (coreFn R c t d n P) i = P i := by
  have hi : initN n + fragN n + 32 = n := by simp only [initN, fragN]; omega
  have hf : fragN n < 32 := by simp only [fragN]; omega
  have hd : initN n % 32 = 0 := by simp only [initN]; omega
  generalize hv : vals R c t d n P = v
  generalize hQ : coreFn R c t d n P = Q
  -- the blocks of the output
  have q0 : ∀ j, j < initN n / 32 → blk Q (32 * j) = C0 R c (offs c (initN n)) v.s (W R c (offs c (initN n)) P) (X R c (offs c (initN n)) P) j := by
    intro j hj
    refine blk_of_byteOf fun k hk => ?_
    rw [← hQ]
    simp only [coreFn, hv]
    rw [if_pos (by omega), if_pos (by omega), show (32 * j + k) / 32 = j by omega, show (32 * j + k) % 32 = k by omega]
  have q1 : ∀ j, j < initN n / 32 → blk Q (32 * j + 16) = C1 R c (offs c (initN n)) v.s (W R c (offs c (initN n)) P) (X R c (offs c (initN n)) P) j := by
    intro j hj
    refine blk_of_byteOf fun k hk => ?_
    rw [← hQ]
    simp only [coreFn, hv]
    rw [if_pos (by omega), if_neg (by omega), show (32 * j + 16 + k) / 32 = j by omega, show (32 * j + 16 + k) % 32 - 16 = k by omega]
  have qf0 : blk Q (n - 32) = bx (bx v.f1'' v.y) t := by
    refine blk_of_byteOf fun k hk => ?_
    rw [← hQ]
    simp only [coreFn, hv]
    rw [if_neg (by omega), if_neg (by omega), if_pos (by omega), show n - 32 + k - (n - 32) = k by omega]
  have qf1 : blk Q (n - 32 + 16) = v.f0'' := by
    refine blk_of_byteOf fun k hk => ?_
    rw [← hQ]
    simp only [coreFn, hv]
    rw [if_neg (by omega), if_neg (by omega), if_neg (by omega), show n - 32 + 16 + k - (n - 16) = k by omega]
  have qr0 : fr0 n Q = fo0 R c n v.s (fr0 n P) := by
    rw [fr0]
    by_cases h16 : fragN n ≥ 16
    · rw [if_pos h16]
      refine blk_of_byteOf fun k hk => ?_
      rw [← hQ]
      simp only [coreFn, hv]
      rw [if_neg (by omega), if_pos (by omega), if_pos (by omega), show initN n + k - initN n = k by omega]
    · rw [if_neg h16]
      by_cases h0 : fragN n ≠ 0
      · rw [if_pos h0]
        have : fo0 R c n v.s (fr0 n P) = ozp (bx (fr0 n P) (aes R c v.s c.J2)) (fragN n) := by
          rw [fo0, if_neg h16, if_pos h0]
        rw [this]
        apply ozp_congr
        intro k hk
        simp only [blk]
        rw [← hQ]
        simp only [coreFn, hv]
        rw [if_neg (by omega), if_pos (by omega), if_pos (by omega), this, show initN n + k.1 - initN n = k.1 by omega,
          byteOf_of_lt _ k.2]
        simp only [ozp, hk, if_true]
      · rw [if_neg h0, fo0, if_neg h16, if_neg h0]
  have qr1 : fr1 n Q = fo1 R c n v.s (fr1 n P) := by
    rw [fr1]
    by_cases h16 : fragN n ≥ 16
    · have : fo1 R c n v.s (fr1 n P) = ozp (bx (fr1 n P) (aes R c v.s (bx c.J2 c.J0))) (fragN n - 16) := by
        rw [fo1, if_pos h16]
      rw [if_pos h16, this]
      apply ozp_congr
      intro k hk
      simp only [blk]
      rw [← hQ]
      simp only [coreFn, hv]
      rw [if_neg (by omega), if_pos (by omega), if_neg (by omega), this,
        show initN n + 16 + k.1 - initN n - 16 = k.1 by omega, byteOf_of_lt _ k.2]
      simp only [ozp, hk, if_true]
    · rw [if_neg h16, fo1, if_neg h16]
  -- the values of the inverse direction
  have w2 : ∀ j, j < initN n / 32 → W R c (offs c (initN n)) Q j = T R c (offs c (initN n)) v.s (X R c (offs c (initN n)) P) j := by
    intro j hj
    rw [W, q0 j hj, q1 j hj, C0]; simp
  have x2 : ∀ j, j < initN n / 32 → X R c (offs c (initN n)) Q j = T R c (offs c (initN n)) v.s (W R c (offs c (initN n)) P) j := by
    intro j hj
    rw [X, w2 j hj, q1 j hj, C1]; simp
  have o0 : fo0 R c n v.s (fo0 R c n v.s (fr0 n P)) = fr0 n P := by
    simp only [fo0, fr0]
    by_cases h16 : fragN n ≥ 16
    · simp only [h16, if_true, bx_cancel_right]
    · simp only [h16, if_false]
      by_cases h0 : fragN n ≠ 0
      · simp only [ne_eq, h0, not_false_eq_true, if_true]
        apply ozp_congr
        intro k hk
        have := congrFun (bx_cancel_right (blk P (initN n)) (aes R c v.s c.J2)) k
        simp only [bx, ozp, hk, if_true] at this ⊢
        exact this
      · simp only [h0, if_false]
  have o1 : fo1 R c n v.s (fo1 R c n v.s (fr1 n P)) = fr1 n P := by
    simp only [fo1, fr1]
    by_cases h16 : fragN n ≥ 16
    · simp only [h16, if_true]
      apply ozp_congr
      intro k hk
      have := congrFun (bx_cancel_right (blk P (initN n + 16)) (aes R c v.s (bx c.J2 c.J0))) k
      simp only [bx, ozp, hk, if_true] at this ⊢
      exact this
    · simp only [h16, if_false]
  have hyv : v.y = fx R c n (fo0 R c n v.s (fr0 n P)) (fo1 R c n v.s (fr1 n P)) (xsum (T R c (offs c (initN n)) v.s (W R c (offs c (initN n)) P)) (initN n / 32)) := by
    rw [← hv]; rfl
  have hx : (vals R c t (!d) n Q).x = v.y := by
    show fx R c n (fr0 n Q) (fr1 n Q) (xsum (X R c (offs c (initN n)) Q) (initN n / 32)) = _
    rw [qr0, qr1, xsum_congr _ x2, hyv]
  have e0 : v.f0' = bx (F R c (bx (blk P (n - 32 + 16)) (c.Id d))) (bx (bx (blk P (n - 32)) v.x) t) := by rw [← hv]; rfl
  have e1 : v.f1' = bx (blk P (n - 32 + 16)) (aes R c v.f0' (c.Jd d)) := by rw [← hv]; rfl
  have e2 : v.f0'' = bx v.f0' (aes R c v.f1' (c.Jd (!d))) := by rw [← hv]; rfl
  have e3 : v.f1'' = bx (F R c (bx v.f0'' (c.Id (!d)))) v.f1' := by rw [← hv]; rfl
  have es : v.s = bx v.f0' v.f1' := by rw [← hv]; rfl
  have exv : v.x = fx R c n (fr0 n P) (fr1 n P) (xsum (X R c (offs c (initN n)) P) (initN n / 32)) := by rw [← hv]; rfl
  have g0 : (vals R c t (!d) n Q).f0' = v.f1' := by
    have : (vals R c t (!d) n Q).f0' = bx (F R c (bx (blk Q (n - 32 + 16)) (c.Id (!d))))
      (bx (bx (blk Q (n - 32)) (vals R c t (!d) n Q).x) t) := rfl
    rw [this, hx, qf0, qf1, bx_assoc v.f1'', bx_comm v.y t, ← bx_assoc v.f1'', bx_cancel_right, bx_cancel_right, e3, bx_cancel]
  have g1 : (vals R c t (!d) n Q).f1' = v.f0' := by
    have : (vals R c t (!d) n Q).f1' = bx (blk Q (n - 32 + 16)) (aes R c (vals R c t (!d) n Q).f0' (c.Jd (!d))) := rfl
    rw [this, g0, qf1, e2, bx_cancel_right]
  have gs : (vals R c t (!d) n Q).s = v.s := by
    have : (vals R c t (!d) n Q).s = bx (vals R c t (!d) n Q).f0' (vals R c t (!d) n Q).f1' := rfl
    rw [this, g0, g1, es, bx_comm]
  have g2 : (vals R c t (!d) n Q).f0'' = blk P (n - 32 + 16) := by
    have : (vals R c t (!d) n Q).f0'' = bx (vals R c t (!d) n Q).f0' (aes R c (vals R c t (!d) n Q).f1' (c.Jd (!!d))) := rfl
    rw [this, g0, g1, Bool.not_not, e1, bx_cancel_right]
  have g3 : (vals R c t (!d) n Q).f1'' = bx (bx (blk P (n - 32)) v.x) t := by
    have : (vals R c t (!d) n Q).f1'' = bx (F R c (bx (vals R c t (!d) n Q).f0'' (c.Id (!!d)))) (vals R c t (!d) n Q).f1' := rfl
    rw [this, g2, g1, Bool.not_not, e0, bx_cancel]
  have t2 : ∀ j, j < initN n / 32 → T R c (offs c (initN n)) v.s (W R c (offs c (initN n)) Q) j = X R c (offs c (initN n)) P j := by
    intro j hj
    rw [T, w2 j hj, T, bx_cancel_right]
  have t2' : ∀ j, j < initN n / 32 → T R c (offs c (initN n)) v.s (X R c (offs c (initN n)) Q) j = W R c (offs c (initN n)) P j := by
    intro j hj
    rw [T, x2 j hj, T, bx_cancel_right]
  have gy : (vals R c t (!d) n Q).y = v.x := by
    have : (vals R c t (!d) n Q).y = fx R c n (fo0 R c n (vals R c t (!d) n Q).s (fr0 n Q)) (fo1 R c n (vals R c t (!d) n Q).s (fr1 n Q))
      (xsum (T R c (offs c (initN n)) (vals R c t (!d) n Q).s (W R c (offs c (initN n)) Q)) (initN n / 32)) := rfl
    rw [this, gs, qr0, qr1, o0, o1, xsum_congr _ t2, exv]
  have k1 : ∀ j, j < initN n / 32 → C1 R c (offs c (initN n)) v.s (W R c (offs c (initN n)) Q) (X R c (offs c (initN n)) Q) j = blk P (32 * j + 16) := by
    intro j hj
    rw [C1, t2 j hj, t2' j hj, X, bx_cancel]
  have k0 : ∀ j, j < initN n / 32 → C0 R c (offs c (initN n)) v.s (W R c (offs c (initN n)) Q) (X R c (offs c (initN n)) Q) j = blk P (32 * j) := by
    intro j hj
    rw [C0, k1 j hj, t2' j hj, W, bx_cancel]
  intro i hin
  simp only [coreFn, gs, gy, g2, g3, qr0, qr1, o0, o1]
  by_cases h1 : i < initN n
  · rw [if_pos h1]
    by_cases h2 : i % 32 < 16
    · rw [if_pos h2, k0 _ (by omega), show i % 32 = i - 32 * (i / 32) by omega, blk_byteOf _ _ _ (by omega) (by omega)]
    · rw [if_neg h2, k1 _ (by omega), show i % 32 - 16 = i - (32 * (i / 32) + 16) by omega, blk_byteOf _ _ _ (by omega) (by omega)]
  · rw [if_neg h1]
    by_cases h2 : i < initN n + fragN n
    · rw [if_pos h2]
      by_cases h3 : i - initN n < 16
      · rw [if_pos h3]
        by_cases h16 : fragN n ≥ 16
        · rw [fr0, if_pos h16, blk_byteOf _ _ _ (by omega) (by omega)]
        · rw [fr0, if_neg h16, if_pos (by omega), ← blk_byteOf P (initN n) i (by omega) (by omega), byteOf_of_lt _ h3,
            byteOf_of_lt _ h3]
          simp only [ozp]
          rw [if_pos (by omega)]
      · rw [if_neg h3, fr1, if_pos (by omega), ← blk_byteOf P (initN n + 16) i (by omega) (by omega),
          show i - (initN n + 16) = i - initN n - 16 by omega, byteOf_of_lt _ (by omega), byteOf_of_lt _ (by omega)]
        simp only [ozp]
        rw [if_pos (by omega)]
    · rw [if_neg h2]
      by_cases h3 : i < n - 16
      · rw [if_pos h3, ← blk_byteOf P (n - 32) i (by omega) (by omega)]
        congr 1
        rw [bx_assoc (blk P (n - 32)), bx_comm v.x t, ← bx_assoc (blk P (n - 32)), bx_cancel_right, bx_cancel_right]
      · rw [if_neg h3, ← blk_byteOf P (n - 32 + 16) i (by omega) (by omega)]
        congr 1; omega

end

end Verif.Aez
