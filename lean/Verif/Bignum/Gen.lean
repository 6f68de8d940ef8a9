import Verif.Bignum.PropsPrime

/-!
# The generation of primes
-/

namespace Verif.Bignum

open Verif Verif.Tdp

/-! ## Setting bits -/

theorem val_or {p : List Nat} (hp : LOk p) {k : Nat} (hk : k < p.length) {y : Nat} (hy : y < 2 ^ 64) :
    val (p.set k (p.getD k 0 ||| y)) = val p ||| (y <<< (64 * k)) ∧ LOk (p.set k (p.getD k 0 ||| y)) := by
  have hlt : p.getD k 0 ||| y < W64 := by
    have h1 := hp.getD k
    have := Nat.or_lt_two_pow (n := 64) (x := p.getD k 0) (y := y) (by norm_num at h1 ⊢; exact h1) hy
    norm_num at this ⊢
    exact this
  have hs := LOk.set hp k hlt
  refine ⟨Nat.eq_of_testBit_eq fun b => ?_, hs⟩
  have hb : b = 64 * (b / 64) + b % 64 := by omega
  have hi : b % 64 < 64 := Nat.mod_lt _ (by decide)
  generalize b / 64 = q at hb
  generalize b % 64 = i at hb hi
  subst hb
  rw [← testBit_limb hs q i hi, Nat.testBit_or, Nat.testBit_shiftLeft, ← testBit_limb hp q i hi]
  by_cases hq : q = k
  · subst hq
    rw [show (p.set q (p.getD q 0 ||| y)).getD q 0 = p.getD q 0 ||| y by simp [List.getD_eq_getElem?_getD, hk], Nat.testBit_or]
    simp
  · rw [show (p.set k (p.getD k 0 ||| y)).getD q 0 = p.getD q 0 by simp [List.getD_eq_getElem?_getD, Ne.symm hq]]
    rcases Nat.lt_or_gt_of_ne hq with h | h
    · rw [show decide (64 * q + i ≥ 64 * k) = false by simp; omega]; simp
    · have : y.testBit (64 * q + i - 64 * k) = false := Nat.testBit_lt_two_pow (lt_of_lt_of_le hy (Nat.pow_le_pow_right (by decide) (by omega)))
      rw [this]; simp

theorem setBit_spec {X : Mpi} (hX : X.WF) {pos : Nat} (hp : pos < 64 * maxLimbs) :
    ∃ R, setBit X pos = .ok R ∧ R.WF ∧ R.mag = X.mag ||| 2 ^ pos ∧ R.neg = X.neg ∧ R.p ≠ [] ∧ R.p.length ≤ max X.p.length (pos / 64 + 1) := by
  unfold setBit growIf
  have h1 : ∃ Y, (if decide (X.p.length * 64 ≤ pos) = true then grow X (pos / 64 + 1) else .ok X) = .ok Y ∧ Y.WF ∧ Y.mag = X.mag ∧ Y.neg = X.neg ∧
      pos / 64 < Y.p.length ∧ Y.p.length ≤ max X.p.length (pos / 64 + 1) := by
    by_cases h : X.p.length * 64 ≤ pos
    · rw [if_pos (by simpa using h)]
      obtain ⟨Y, y1, y2, y3, y4, y5, -⟩ := (grow_spec X hX (pos / 64 + 1)).1 (by omega)
      exact ⟨Y, y1, y2, y3, y4, by omega, by omega⟩
    · rw [if_neg (by simpa using h)]
      exact ⟨X, rfl, hX, rfl, rfl, by omega, by omega⟩
  obtain ⟨Y, y1, y2, y3, y4, y5, y6⟩ := h1
  simp only [y1, Out.bind_ok]
  rw [List.getElem?_eq_getElem y5]
  have hg : Y.p[pos / 64] = Y.p.getD (pos / 64) 0 := by rw [List.getD_eq_getElem?_getD, List.getElem?_eq_getElem y5]; rfl
  simp only [Out.pure_eq, hg]
  have hb : 1 <<< (pos % 64) < 2 ^ 64 := by
    rw [Nat.one_shiftLeft]; exact Nat.pow_lt_pow_right (by decide) (Nat.mod_lt _ (by decide))
  obtain ⟨v1, v2⟩ := val_or y2.ok y5 hb
  refine ⟨_, rfl, ⟨v2, by rw [List.length_set]; exact y2.len⟩, ?_, y4, ?_, by rw [List.length_set]; exact y6⟩
  · show val _ = _
    rw [v1, Nat.one_shiftLeft, Nat.shiftLeft_eq, ← pow_add, ← y3, show pos % 64 + 64 * (pos / 64) = pos by omega]
    rfl
  · intro h0
    have := congrArg List.length h0
    rw [List.length_set, List.length_nil] at this
    omega

theorem orLow_spec {X : Mpi} (hX : X.WF) (hne : X.p ≠ []) {v : Nat} (hv : v < 2 ^ 64) :
    ∃ R, orLow X v = .ok R ∧ R.WF ∧ R.mag = X.mag ||| v ∧ R.neg = X.neg ∧ R.p ≠ [] ∧ R.p.length = X.p.length := by
  unfold orLow
  rw [read_low hne, Out.bind_ok]
  obtain ⟨v1, v2⟩ := val_or hX.ok (List.length_pos_iff.2 hne) hv
  refine ⟨_, rfl, ⟨v2, by rw [List.length_set]; exact hX.len⟩, ?_, rfl, ?_, by rw [List.length_set]⟩
  · show val _ = _
    rw [v1, Nat.mul_zero, Nat.shiftLeft_zero]
    rfl
  · intro h0
    have := congrArg List.length h0
    rw [List.length_set, List.length_nil, List.length_eq_zero_iff] at this
    exact hne this

/-! ## The first candidate -/

/-- The first candidate: at most `nbits` bits of the number drawn (one less if it is longer), with the highest and the lowest bit set. -/
def firstCand (nbits v : Nat) : Nat := (if Nat.size v > nbits then v / 2 ^ (Nat.size v - nbits + 1) else v) ||| 2 ^ (nbits - 1) ||| 1

theorem firstCand_spec {nbits : Nat} (h : 1 ≤ nbits) (v : Nat) : 2 ^ (nbits - 1) ≤ firstCand nbits v ∧ firstCand nbits v < 2 ^ nbits ∧ firstCand nbits v % 2 = 1 := by
  unfold firstCand
  have hv : (if Nat.size v > nbits then v / 2 ^ (Nat.size v - nbits + 1) else v) < 2 ^ nbits := by
    split
    · rename_i hs
      rw [Nat.div_lt_iff_lt_mul (by positivity), ← pow_add]
      exact lt_of_lt_of_le (Nat.lt_size_self v) (Nat.pow_le_pow_right (by decide) (by omega))
    · rename_i hs
      exact Nat.size_le.1 (by omega)
  generalize (if Nat.size v > nbits then v / 2 ^ (Nat.size v - nbits + 1) else v) = u at hv ⊢
  refine ⟨le_trans Nat.right_le_or Nat.left_le_or, Nat.or_lt_two_pow (Nat.or_lt_two_pow hv (Nat.pow_lt_pow_right (by decide) (by omega))) ?_, ?_⟩
  · exact Nat.one_lt_two_pow (by omega)
  · have : ((u ||| 2 ^ (nbits - 1)) ||| 1).testBit 0 = true := by rw [Nat.testBit_or]; simp
    rw [Nat.testBit_zero] at this
    simpa using this

theorem genStart_spec {g : Rng} (hg : g.Ok) {X : Mpi} (hX : X.WF) {nbits : Nat} (h1 : 1 ≤ nbits) (h2 : nbits ≤ mpiMaxBits) (i : Nat) :
    (∃ b R, g i (bitsToLimbs nbits * 8) = .ok b ∧ genStart g X nbits i = (.ok R, i + 1) ∧ R.WF ∧ R.neg = false ∧ R.mag = firstCand nbits (beNat b) ∧ R.p ≠ [] ∧
      R.p.length ≤ max (bitsToLimbs nbits) X.p.length) ∨
    ∃ e, g i (bitsToLimbs nbits * 8) = .err e ∧ genStart g X nbits i = (.err e, i + 1) := by
  have hk : bitsToLimbs nbits ≤ 128 := by rw [bitsToLimbs_le]; unfold mpiMaxBits mpiMaxSize at h2; omega
  have hk1 : 1 ≤ bitsToLimbs nbits := by
    by_contra h
    have := (bitsToLimbs_le nbits 0).1 (by omega)
    omega
  have hk2 : (nbits - 1) / 64 + 1 ≤ bitsToLimbs nbits := by unfold bitsToLimbs; split <;> omega
  unfold genStart
  rw [Run.bind_apply]
  rcases fillRandom_spec hg hX (k := bitsToLimbs nbits) (by unfold mpiMaxSize; omega) i with ⟨b, R, b1, b2, r1, r2, r3, r4, r5, r6⟩ | ⟨e, e1, e2⟩
  · left
    have h3 : ∃ S, (if bitlenL R > nbits then shiftR R (bitlenL R - nbits + 1) else .ok R) = .ok S ∧ S.WF ∧ S.neg = false ∧ S.p.length ≤ max (bitsToLimbs nbits) X.p.length ∧
        S.mag = if Nat.size (beNat b) > nbits then beNat b / 2 ^ (Nat.size (beNat b) - nbits + 1) else beNat b := by
      rw [bitlenL_spec r2, r3, bitlen_eq_size]
      split
      · obtain ⟨S, s1, s2, s3, s4, -⟩ := shiftR_spec r2 (Nat.size (beNat b) - nbits + 1)
        have := shiftR_up s1
        exact ⟨S, s1, s2, s4 r4, by omega, by rw [s3, r3]⟩
      · exact ⟨R, rfl, r2, r4, by omega, r3⟩
    obtain ⟨S, s1, s2, s3, s4, s5⟩ := h3
    obtain ⟨T, t1, t2, t3, t4, t5, t6⟩ := setBit_spec s2 (pos := nbits - 1) (by unfold mpiMaxBits mpiMaxSize at h2; unfold maxLimbs; omega)
    obtain ⟨U, u1, u2, u3, u4, u5, u6⟩ := orLow_spec t2 t5 (v := 1) (by decide)
    rw [r1, Run.next_ok, Run.bind_apply, Run.of_apply, s1, Run.next_ok, Run.bind_apply, Run.of_apply, t1, Run.next_ok, Run.of_apply, u1]
    refine ⟨b, U, b1, rfl, u2, by rw [u4, t4, s3], ?_, u5, by omega⟩
    rw [u3, t3, s5]; rfl
  · right
    rw [e2]
    exact ⟨e, e1, rfl⟩

/-! ## Adding small numbers -/

theorem addSmall_spec {X : Mpi} (hX : X.WF) (hn : X.neg = false) {c : Nat} (hc : 0 < c) (hc2 : c < W64) :
    (∃ R, addInt X .self c = .ok R ∧ R.WF ∧ R.neg = false ∧ R.mag = X.mag + c ∧ R.p ≠ [] ∧ R.p.length ≤ max X.p.length (max (limbs X.mag) 1 + 1)) ∨
    (addInt X .self c = .err .alloc ∧ W64 ^ maxLimbs ≤ X.mag + c) := by
  have hs : (small (c : Int)).WF := small_WF (by rw [Int.natAbs_natCast]; exact hc2)
  have ht : (small (c : Int)).toInt = c := by
    unfold small Mpi.toInt Mpi.mag
    simp [val]
  obtain ⟨a1, a2⟩ := addMpi_spec hX (A := .self) trivial (B := .ext (small (c : Int))) hs
  change (X.toInt + (small (c : Int)).toInt).natAbs < _ → ∃ R : Mpi, _ ∧ _ ∧ R.toInt = X.toInt + (small (c : Int)).toInt at a1
  change _ ≤ (X.toInt + (small (c : Int)).toInt).natAbs → _ at a2
  rw [ht, toInt_pos hn] at a1 a2
  have hab : ((X.mag : Int) + (c : Int)).natAbs = X.mag + c := by omega
  rw [hab] at a1 a2
  by_cases hlt : X.mag + c < W64 ^ maxLimbs
  · left
    obtain ⟨R, r1, r2, r3⟩ := a1 hlt
    have hRn : R.neg = false := neg_of_pos (by omega)
    have hRm : R.mag = X.mag + c := by rw [toInt_pos hRn] at r3; omega
    have hu := addMpi_up (A := .self) (B := .ext (small (c : Int))) hX trivial hs r1
    have e1 : sig (Arg.get X .self).p = limbs X.mag := sig_eq_limbs hX.ok
    have e2 : sig (Arg.get X (.ext (small (c : Int)))).p ≤ 1 := sig_le [(c : Int).natAbs]
    exact ⟨R, r1, r2, hRn, hRm, nonnil_of_mag (by omega), by omega⟩
  · right
    exact ⟨a2 (by omega), by omega⟩

theorem accepted_ok {α : Type} {r : Run α} {i j : Nat} {a : α} (h : r i = (.ok a, j)) : accepted r i = (.ok (some a), j) := by
  unfold accepted; rw [h]

theorem accepted_not {α : Type} {r : Run α} {i j : Nat} (h : r i = (.err .notAcceptable, j)) : accepted r i = (.ok none, j) := by
  unfold accepted; rw [h]

theorem accepted_cases {α : Type} (r : Run α) (i : Nat) :
    (∃ a j, r i = (.ok a, j) ∧ accepted r i = (.ok (some a), j)) ∨ (∃ j, r i = (.err .notAcceptable, j) ∧ accepted r i = (.ok none, j)) ∨
    (∃ e j, r i = (.err e, j) ∧ e ≠ .notAcceptable ∧ accepted r i = (.err e, j)) ∨ (∃ j, r i = (.ub, j) ∧ accepted r i = (.ub, j)) := by
  unfold accepted
  rcases h : r i with ⟨(a | e | _), j⟩
  · left; exact ⟨a, j, rfl, rfl⟩
  · right
    cases e
    case notAcceptable => left; exact ⟨j, rfl, rfl⟩
    all_goals right; left; exact ⟨_, j, rfl, by simp, rfl⟩
  · right; right; right; exact ⟨j, rfl, rfl⟩

/-! ## The search for a prime -/

/-- The result is the first candidate that the test accepts. -/
theorem genLoop_done {g : Rng} : ∀ (f : Nat) {X R : Mpi} {i j : Nat}, X.WF → X.neg = false → genLoop g f X i = (.ok (.done R), j) →
    ∃ t k, R.WF ∧ R.neg = false ∧ R.mag = X.mag + 2 * t ∧ isPrime g R k = (.ok (), j) ∧
      ∀ u < t, ∃ Y k k', Y.WF ∧ Y.neg = false ∧ Y.mag = X.mag + 2 * u ∧ isPrime g Y k = (.err .notAcceptable, k') := by
  intro f
  induction f with
  | zero => intro X R i j _ _ h; simp [genLoop] at h
  | succ f ih =>
    intro X R i j hX hn h
    rw [genLoop, Run.bind_apply] at h
    rcases accepted_cases (isPrime g X) i with ⟨a, k, h1, h2⟩ | ⟨k, h1, h2⟩ | ⟨e, k, h1, -, h2⟩ | ⟨k, h1, h2⟩ <;> rw [h2] at h
    · simp only [Run.next_ok, Run.of_apply, Prod.mk.injEq, Out.ok.injEq, Gen.done.injEq] at h
      obtain ⟨rfl, rfl⟩ := h
      exact ⟨0, i, hX, hn, by omega, h1, fun u hu => by omega⟩
    · simp only [Run.next_ok] at h
      rw [Run.bind_apply, Run.of_apply] at h
      rcases addSmall_spec hX hn (c := 2) (by decide) (by decide) with ⟨Y, y1, y2, y3, y4, -⟩ | ⟨y1, -⟩
      · change addInt X .self 2 = _ at y1
        rw [y1, Run.next_ok] at h
        obtain ⟨t, k', t1, t2, t3, t4, t5⟩ := ih y2 y3 h
        refine ⟨t + 1, k', t1, t2, by omega, t4, fun u hu => ?_⟩
        cases u with
        | zero => exact ⟨X, i, k, hX, hn, by omega, h1⟩
        | succ u =>
          obtain ⟨Z, c, d, z1, z2, z3, z4⟩ := t5 u (by omega)
          exact ⟨Z, c, d, z1, z2, by omega, z4⟩
      · change addInt X .self 2 = _ at y1
        rw [y1] at h
        simp at h
    · simp at h
    · simp at h

/-- The search ends if there is a prime for which the generator gives usable bases. -/
theorem genLoop_ends {g : Rng} (hg : g.Ok) (hnf : ∀ i n, ∃ b, g i n = .ok b) {q : Nat} (hq : q.Prime) (hl : limbs q ≤ 127) (hgood : ∀ k ≤ 128, limbs q ≤ k → g.Good (k * 8) q) :
    ∀ (d f : Nat) {X : Mpi} (i : Nat), X.WF → X.neg = false → X.mag + 2 * d = q → X.p.length ≤ 128 → d < f →
    ∃ R j, genLoop g f X i = (.ok (.done R), j) ∧ R.mag ≤ q := by
  intro d
  induction d with
  | zero =>
    intro f X i hX hn hm hXl hf
    obtain ⟨f, rfl⟩ : ∃ c, f = c + 1 := ⟨f - 1, by omega⟩
    have hm' : X.mag = q := by omega
    have hlim : limbs q ≤ X.p.length := by
      rw [← hm']
      have := sig_le X.p
      rw [sig_eq_limbs hX.ok] at this
      exact this
    obtain ⟨j, hj⟩ := c64_prime_accepted_partial hg hX (by rw [natAbs_toInt, hm']; exact hq) hXl (by rw [natAbs_toInt, hm']; exact hgood _ hXl hlim) i
    refine ⟨X, j, ?_, by omega⟩
    rw [genLoop, Run.bind_apply, accepted_ok hj]
    rfl
  | succ d ih =>
    intro f X i hX hn hm hXl hf
    obtain ⟨f, rfl⟩ : ∃ c, f = c + 1 := ⟨f - 1, by omega⟩
    rw [genLoop, Run.bind_apply]
    obtain ⟨j, h1 | h1 | ⟨-, h1⟩ | ⟨e, h1, t, -, -, h2⟩⟩ := c64_outcomes hg hX i
    · refine ⟨X, j, ?_, by omega⟩
      rw [accepted_ok h1]
      rfl
    · rw [accepted_not h1]
      simp only [Run.next_ok]
      rw [Run.bind_apply, Run.of_apply]
      have hlx : limbs X.mag ≤ limbs q := limbs_mono (by omega)
      rcases addSmall_spec hX hn (c := 2) (by decide) (by decide) with ⟨Y, y1, y2, y3, y4, y5, y6⟩ | ⟨y1, y2⟩
      · change addInt X .self 2 = _ at y1
        rw [y1, Run.next_ok]
        exact ih f j y2 y3 (by omega) (by omega) (by omega)
      · exfalso
        have h3 : X.mag + 2 ≤ q := by omega
        have h4 := limbs_lt q
        have h5 : W64 ^ limbs q ≤ W64 ^ maxLimbs := Nat.pow_le_pow_right (by decide) (by unfold maxLimbs; omega)
        generalize W64 ^ limbs q = a at *
        generalize W64 ^ maxLimbs = b at *
        omega
    · omega
    · obtain ⟨b, hb⟩ := hnf t (X.p.length * 8)
      rw [hb] at h2
      exact absurd h2 (by simp)

/-! ## The search for a safe prime -/

theorem isPrime_of_parts {g : Rng} {X : Mpi} (hX : X.WF) (hn : X.neg = false) (h1 : 1 < X.mag) (hc : checkSmall X = .ok false) (i : Nat) :
    isPrime g X i = millerRabin g X i := by
  have hb : 997 < X.mag := by
    rcases checkSmall_spec hX hn h1 with ⟨h, -⟩ | ⟨-, -, h, -⟩ | ⟨h, -⟩
    · rw [hc] at h; simp at h
    · exact h
    · rw [hc] at h; simp at h
  have he : ({ X with neg := false } : Mpi) = X := by rw [← hn]
  unfold isPrime
  rw [he, cmpInt_spec hX (by decide), cmpInt_spec hX (by decide), cmpInt_spec hX (by decide), toInt_pos hn, if_neg (by rw [sgn_zero_iff, sgn_zero_iff]; omega),
    if_neg (by rw [sgn_zero_iff]; omega), Run.bind_apply, Run.of_apply, hc]
  rfl

theorem safeTest_true {g : Rng} {X Y : Mpi} (hX : X.WF) (hn : X.neg = false) (h1 : 1 < X.mag) (hY : Y.WF) (hYn : Y.neg = false) (hY1 : 1 < Y.mag) {i j : Nat}
    (h : safeTest g X Y i = (.ok true, j)) : ∃ k, isPrime g X i = (.ok (), k) ∧ isPrime g Y k = (.ok (), j) ∧ 997 < Y.mag := by
  unfold safeTest at h
  rw [Run.bind_apply, Run.of_apply] at h
  rcases checkSmall_spec hX hn h1 with ⟨c1, -⟩ | ⟨c1, -, -, -⟩ | ⟨c1, -⟩ <;> rw [c1] at h
  · simp at h
  · rw [Run.next_ok, if_neg (by simp), Run.bind_apply, Run.of_apply] at h
    rcases checkSmall_spec hY hYn hY1 with ⟨d1, -⟩ | ⟨d1, -, hYb, -⟩ | ⟨d1, -⟩ <;> rw [d1] at h
    · simp at h
    · rw [Run.next_ok, if_neg (by simp), Run.bind_apply] at h
      rcases hx : millerRabin g X i with ⟨(a | e | _), k⟩ <;> rw [hx] at h
      · rw [Run.next_ok, Run.bind_apply] at h
        rcases hy : millerRabin g Y k with ⟨(a | e | _), l⟩ <;> rw [hy] at h
        · simp only [Run.next_ok, Run.of_apply, Prod.mk.injEq, true_and] at h
          subst h
          exact ⟨k, by rw [isPrime_of_parts hX hn h1 c1, hx], by rw [isPrime_of_parts hY hYn hY1 d1, hy], hYb⟩
        · simp at h
        · simp at h
      · simp at h
      · simp at h
    · simp at h
  · simp at h

theorem safeLoop_done {g : Rng} : ∀ (f : Nat) {X Y R : Mpi} {i j : Nat}, X.WF → X.neg = false → Y.WF → Y.neg = false → 1 < Y.mag → X.mag = 2 * Y.mag + 1 →
    safeLoop g f X Y i = (.ok (.done R), j) →
    ∃ t S k k', R.WF ∧ R.neg = false ∧ R.mag = X.mag + 12 * t ∧ S.WF ∧ S.neg = false ∧ R.mag = 2 * S.mag + 1 ∧ 997 < S.mag ∧
      isPrime g R k = (.ok (), k') ∧ isPrime g S k' = (.ok (), j) := by
  intro f
  induction f with
  | zero => intro X Y R i j _ _ _ _ _ _ h; simp [safeLoop] at h
  | succ f ih =>
    intro X Y R i j hX hn hY hYn hY1 hXY h
    rw [safeLoop, Run.bind_apply] at h
    rcases accepted_cases (safeTest g X Y) i with ⟨a, k, h1, h2⟩ | ⟨k, h1, h2⟩ | ⟨e, k, h1, -, h2⟩ | ⟨k, h1, h2⟩ <;> rw [h2] at h
    · cases a with
      | true =>
        simp only [Run.next_ok, Run.of_apply, Prod.mk.injEq, Out.ok.injEq, Gen.done.injEq] at h
        obtain ⟨rfl, rfl⟩ := h
        obtain ⟨k', p1, p2, p3⟩ := safeTest_true hX hn (by omega) hY hYn hY1 h1
        exact ⟨0, Y, i, k', hX, hn, by omega, hY, hYn, hXY, p3, p1, p2⟩
      | false => simp at h
    · simp only [Run.next_ok] at h
      rw [Run.bind_apply, Run.of_apply] at h
      rcases addSmall_spec hX hn (c := 12) (by decide) (by decide) with ⟨A, a1, a2, a3, a4, -⟩ | ⟨a1, -⟩
      · change addInt X .self 12 = _ at a1
        rw [a1, Run.next_ok, Run.bind_apply, Run.of_apply] at h
        rcases addSmall_spec hY hYn (c := 6) (by decide) (by decide) with ⟨B, b1, b2, b3, b4, -⟩ | ⟨b1, -⟩
        · change addInt Y .self 6 = _ at b1
          rw [b1, Run.next_ok] at h
          obtain ⟨t, S, k1, k2, p1, p2, p3, p4⟩ := ih a2 a3 b2 b3 (by omega) (by omega) h
          exact ⟨t + 1, S, k1, k2, p1, p2, by omega, p4⟩
        · change addInt Y .self 6 = _ at b1
          rw [b1] at h
          simp at h
      · change addInt X .self 12 = _ at a1
        rw [a1] at h
        simp at h
    · simp at h
    · simp at h

theorem or_two {x : Nat} (h : x % 2 = 1) : (x ||| 2) % 4 = 3 ∧ x ≤ x ||| 2 := by
  refine ⟨?_, Nat.left_le_or⟩
  have h1 := Nat.or_mod_two_pow (a := x) (b := 2) (n := 2)
  norm_num at h1
  rw [h1]
  have : x % 4 = 1 ∨ x % 4 = 3 := by omega
  rcases this with h | h <;> rw [h] <;> rfl

/-- What the search for a safe prime starts with. -/
theorem genSafe_start {X : Mpi} (hX : X.WF) (hn : X.neg = false) (hne : X.p ≠ []) (ho : X.mag % 2 = 1) (h4 : 4 ≤ X.mag) (g : Rng) (f i : Nat) :
    (∃ A B, genSafe g f X i = safeLoop g f A B i ∧ A.WF ∧ A.neg = false ∧ B.WF ∧ B.neg = false ∧ 1 < B.mag ∧ A.mag = 2 * B.mag + 1 ∧ A.mag % 12 = 11 ∧
      X.mag ≤ A.mag ∧ A.mag ≤ X.mag + 10) ∨ genSafe g f X i = (.err .alloc, i) := by
  obtain ⟨P, p1, p2, p3, p4, p5, p6⟩ := orLow_spec hX hne (v := 2) (by decide)
  obtain ⟨o1, o2⟩ := or_two ho
  have o3 : X.mag ||| 2 ≤ X.mag + 2 := by
    have := Nat.or_mod_two_pow (a := X.mag) (b := 2) (n := 2)
    have h6 : (X.mag ||| 2) / 4 = X.mag / 4 := by
      have := Nat.or_div_two_pow (a := X.mag) (b := 2) (n := 2)
      norm_num at this
      exact this
    omega
  rw [← p3] at o1 o2 o3
  have hr := modInt_spec p2 (b := 3) (by decide) (by decide) (by intro h; omega)
  have hPn : P.neg = false := by rw [p4, hn]
  rw [toInt_pos hPn] at hr
  have hrv : ((P.mag : Int) % 3).toNat = P.mag % 3 := by omega
  rw [hrv] at hr
  have h3 : (∃ A, toTwoModThree P (P.mag % 3) = .ok A ∧ A.WF ∧ A.neg = false ∧ A.mag % 12 = 11 ∧ X.mag ≤ A.mag ∧ A.mag ≤ X.mag + 10) ∨
      toTwoModThree P (P.mag % 3) = .err .alloc := by
    unfold toTwoModThree
    by_cases h0 : P.mag % 3 = 0
    · rw [if_pos h0]
      rcases addSmall_spec p2 hPn (c := 8) (by decide) (by decide) with ⟨A, a1, a2, a3, a4, -⟩ | ⟨a1, -⟩
      · left; exact ⟨A, a1, a2, a3, by omega, by omega, by omega⟩
      · right; exact a1
    · rw [if_neg h0]
      by_cases h1 : P.mag % 3 = 1
      · rw [if_pos h1]
        rcases addSmall_spec p2 hPn (c := 4) (by decide) (by decide) with ⟨A, a1, a2, a3, a4, -⟩ | ⟨a1, -⟩
        · left; exact ⟨A, a1, a2, a3, by omega, by omega, by omega⟩
        · right; exact a1
      · rw [if_neg h1]
        left; exact ⟨P, rfl, p2, hPn, by omega, by omega, by omega⟩
  unfold genSafe
  rw [Run.bind_apply, Run.of_apply, p1, Run.next_ok, Run.bind_apply, Run.of_apply, hr, Run.next_ok, Run.bind_apply, Run.of_apply]
  rcases h3 with ⟨A, a1, a2, a3, a4, a5, a6⟩ | a1
  · left
    obtain ⟨C, c1, c2, c3, -⟩ := copy_spec Mpi.null_WF a2
    have c4 := copy_neg c1 a3
    obtain ⟨D, d1, d2, d3, d4, -⟩ := shiftR_spec c2 1
    rw [a1, Run.next_ok, Run.bind_apply, Run.of_apply, c1, Run.next_ok, Run.bind_apply, Run.of_apply, d1, Run.next_ok]
    rw [c3, pow_one] at d3
    exact ⟨A, D, rfl, a2, a3, d2, d4 c4, by omega, by omega, a4, a5, a6⟩
  · right
    rw [a1]
    rfl

end Verif.Bignum
