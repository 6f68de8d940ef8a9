import Verif.Aez.StringWide

/-!
# Two pairs of blocks that AEZ-core treats alike

The offsets of the pairs 40 and 1001 are the same multiple of the key, because 2^128 = 2^7 + 7 in the field.
-/

namespace Verif.AezWide

open Verif Verif.Avg Verif.Oracle Verif.AezRandom

/-! ## Specification -/

/-- The exchange of the 32 bytes from 32 * 39 with those from 32 * 1000, on positions. -/
def place' (j : Nat) : Nat :=
  if 32 * 39 ≤ j ∧ j < 32 * 40 then j + 32 * 961 else if 32 * 1000 ≤ j ∧ j < 32 * 1001 then j - 32 * 961 else j

/-- The exchange, on strings. -/
def exchange (M : Bytes) : Bytes := List.ofFn fun j : Fin M.length => M.getD (place' j.1) 0

/-! ## The offsets -/

theorem double_lt {v : Nat} (h : v < 2 ^ 128) : AezSpec.double v < 2 ^ 128 := by
  unfold AezSpec.double
  split
  · omega
  · refine Nat.xor_lt_two_pow ?_ (by norm_num)
    omega

theorem double_xor {a b : Nat} (ha : a < 2 ^ 128) (hb : b < 2 ^ 128) : AezSpec.double (a ^^^ b) = AezSpec.double a ^^^ AezSpec.double b := by
  have key : ∀ v < 2 ^ 128, AezSpec.double v = (2 * v) % 2 ^ 128 ^^^ (if v.testBit 127 then 0x87 else 0) := by
    intro v hv
    have ht : v.testBit 127 = decide (2 ^ 127 ≤ v) := by
      by_cases h : 2 ^ 127 ≤ v
      · rw [decide_eq_true h, Nat.testBit_eq_decide_div_mod_eq]
        simp only [decide_eq_true_eq]
        omega
      · rw [decide_eq_false h]
        exact Nat.testBit_lt_two_pow (by omega)
    unfold AezSpec.double
    by_cases h : v < 2 ^ 127
    · rw [if_pos h, ht, decide_eq_false (by omega)]
      simp only [Bool.false_eq_true, if_false, Nat.xor_zero]
      omega
    · rw [if_neg h, ht, decide_eq_true (by omega), if_pos rfl, show 2 * v - 2 ^ 128 = 2 * v % 2 ^ 128 by omega]
  have h2 : (2 * (a ^^^ b)) % 2 ^ 128 = (2 * a) % 2 ^ 128 ^^^ (2 * b) % 2 ^ 128 := by
    apply Nat.eq_of_testBit_eq
    intro i
    rw [Nat.testBit_mod_two_pow, Nat.testBit_xor, Nat.testBit_mod_two_pow, Nat.testBit_mod_two_pow]
    rw [show 2 * (a ^^^ b) = (a ^^^ b) <<< 1 by rw [Nat.shiftLeft_eq]; ring, show 2 * a = a <<< 1 by rw [Nat.shiftLeft_eq]; ring,
      show 2 * b = b <<< 1 by rw [Nat.shiftLeft_eq]; ring]
    simp only [Nat.testBit_shiftLeft, Nat.testBit_xor]
    cases decide (i < 128) <;> cases decide (1 ≤ i) <;> simp
  rw [key _ (Nat.xor_lt_two_pow ha hb), key a ha, key b hb, h2, Nat.testBit_xor]
  generalize 2 * a % 2 ^ 128 = A
  generalize 2 * b % 2 ^ 128 = B
  cases a.testBit 127 <;> cases b.testBit 127 <;> simp only [Bool.xor_false, Bool.xor_true, Bool.not_true, Bool.not_false, Bool.false_eq_true,
    if_false, if_true, Nat.xor_zero]
  · rw [Nat.xor_assoc]
  · rw [Nat.xor_assoc, Nat.xor_assoc, Nat.xor_comm B]
  · rw [Nat.xor_assoc, Nat.xor_comm B, ← Nat.xor_assoc 135, Nat.xor_self, Nat.zero_xor]

theorem shift_lt {v : Nat} (h : v < 2 ^ 128) : ∀ e, AezSpec.shift e v < 2 ^ 128
  | 0 => h
  | e + 1 => double_lt (shift_lt h e)

theorem shift_xor {a b : Nat} (ha : a < 2 ^ 128) (hb : b < 2 ^ 128) : ∀ e, AezSpec.shift e (a ^^^ b) = AezSpec.shift e a ^^^ AezSpec.shift e b
  | 0 => rfl
  | e + 1 => by
    show AezSpec.double _ = AezSpec.double _ ^^^ AezSpec.double _
    rw [shift_xor ha hb e, double_xor (shift_lt ha e) (shift_lt hb e)]

theorem shift_add (e e' v : Nat) : AezSpec.shift (e + e') v = AezSpec.shift e (AezSpec.shift e' v) := by
  induction e with
  | zero => rw [Nat.zero_add]; rfl
  | succ e ih => rw [Nat.succ_add]; exact congrArg AezSpec.double ih

theorem shift_one : ∀ e, e < 128 → AezSpec.shift e 1 = 2 ^ e
  | 0, _ => rfl
  | e + 1, h => by
    show AezSpec.double (AezSpec.shift e 1) = _
    rw [shift_one e (by omega), AezSpec.double, if_pos (Nat.pow_lt_pow_right (by decide) (by omega)), Nat.pow_succ]
    ring

theorem split_top {n v : Nat} (h : 2 ^ n ≤ v) (hw : v - 2 ^ n < 2 ^ n) : v = 2 ^ n ^^^ (v - 2 ^ n) := by
  have h3 : 2 ^ n ||| (v - 2 ^ n) = 2 ^ n + (v - 2 ^ n) := by
    have := Nat.two_pow_add_eq_or_of_lt hw 1
    rw [Nat.mul_one] at this
    exact this.symm
  have h4 : 2 ^ n ^^^ (v - 2 ^ n) = 2 ^ n ||| (v - 2 ^ n) := by
    apply Nat.eq_of_testBit_eq
    intro i
    rw [Nat.testBit_xor, Nat.testBit_or, Nat.testBit_two_pow]
    by_cases hi : n = i
    · subst hi
      rw [Nat.testBit_lt_two_pow hw]
      simp
    · simp [hi]
  rw [h4, h3]
  omega

/-- What holds for 0, for 1, for sums and for doubles holds for all blocks. -/
theorem block_induction {P : Nat → Prop} (h0 : P 0) (h1 : P 1) (hd : ∀ v < 2 ^ 128, P v → P (AezSpec.double v))
    (hx : ∀ v < 2 ^ 128, ∀ w < 2 ^ 128, P v → P w → P (v ^^^ w)) : ∀ v < 2 ^ 128, P v := by
  have hp : ∀ e < 128, P (2 ^ e) := by
    intro e he
    rw [← shift_one e he]
    have : ∀ e, P (AezSpec.shift e 1) := fun e => by
      induction e with
      | zero => exact h1
      | succ e ih => exact hd _ (shift_lt (by norm_num) e) ih
    exact this e
  have : ∀ n ≤ 128, ∀ v < 2 ^ n, P v := by
    intro n
    induction n with
    | zero =>
      intro _ v hv
      rw [show v = 0 by omega]
      exact h0
    | succ n ih =>
      intro hn v hv
      by_cases h : v < 2 ^ n
      · exact ih (by omega) v h
      · have hlt : 2 ^ n < 2 ^ 128 := Nat.pow_lt_pow_right (by decide) (by omega)
        have hw : v - 2 ^ n < 2 ^ n := by rw [Nat.pow_succ] at hv; omega
        rw [split_top (by omega) hw]
        exact hx _ hlt _ (lt_trans hw hlt) (hp n (by omega)) (ih (by omega) _ hw)
  exact this 128 le_rfl

/-- 2^128 = 2^7 + 7. -/
theorem shift_128 : ∀ v < 2 ^ 128, AezSpec.shift 128 v = AezSpec.shift 7 v ^^^ AezSpec.shift 2 v ^^^ AezSpec.shift 1 v ^^^ v := by
  refine block_induction (by decide +kernel) (by decide +kernel) ?_ ?_
  · intro v hv ih
    have e : ∀ e, AezSpec.shift e (AezSpec.double v) = AezSpec.double (AezSpec.shift e v) := fun e => by
      have h1 := shift_add e 1 v
      have h2 := shift_add 1 e v
      rw [Nat.add_comm] at h2
      exact h1.symm.trans h2
    have l := fun e => shift_lt hv e
    rw [e, e, e, e, ih, double_xor (Nat.xor_lt_two_pow (Nat.xor_lt_two_pow (l 7) (l 2)) (l 1)) hv,
      double_xor (Nat.xor_lt_two_pow (l 7) (l 2)) (l 1), double_xor (l 7) (l 2)]
  · intro v hv w hw iv iw
    simp only [shift_xor hv hw, iv, iw]
    simp only [Nat.xor_assoc, Nat.xor_comm, xor_left]

theorem off_of {v i e b : Nat} (he : 3 + (i - 1) / 8 = e) (hb : (i - 1) % 8 = b) : AezSpec.off v i = AezSpec.shift e v ^^^ AezSpec.times b v := by
  rw [← he, ← hb]
  rfl

theorem times_zero (v : Nat) : AezSpec.times 0 v = 0 := by simp [AezSpec.times]

theorem times_seven (v : Nat) : AezSpec.times 7 v = v ^^^ AezSpec.shift 1 v ^^^ AezSpec.shift 2 v := by
  unfold AezSpec.times
  rw [if_pos (by norm_num), if_pos (by norm_num), if_pos (by norm_num)]
  simp only [AezSpec.shift]

theorem same_sum {o o' s s7 s2 s1 v t t' : Nat} (e1 : o = s ^^^ t) (e2 : o' = s7 ^^^ t') (e3 : t = 0) (e4 : t' = v ^^^ s1 ^^^ s2)
    (e5 : s = s7 ^^^ s2 ^^^ s1 ^^^ v) : o = o' := by
  rw [e1, e2, e3, e4, e5, Nat.xor_zero]
  simp only [Nat.xor_comm, xor_left]

/-- The pairs 40 and 1001 have the same offset. -/
theorem off_eq {v : Nat} (h : v < 2 ^ 128) : AezSpec.off v 1001 = AezSpec.off v 40 :=
  same_sum (off_of (i := 1001) (e := 128) (b := 0) (by norm_num) (by norm_num)) (off_of (i := 40) (e := 7) (b := 7) (by norm_num) (by norm_num))
    (times_zero v) (times_seven v) (shift_128 v h)

/-! ## The exchange of two pairs -/

/-- The exchange, on pairs. -/
def sig (i : Nat) : Nat := if i = 40 then 1001 else if i = 1001 then 40 else i

theorem place_pair (i l : Nat) (hl : l < 32) : place' (32 * i + l) = 32 * (sig (i + 1) - 1) + l := by
  unfold place' sig
  by_cases h1 : i = 39
  · subst h1
    rw [if_pos (by omega), if_pos rfl]
    omega
  · by_cases h2 : i = 1000
    · subst h2
      rw [if_neg (by omega), if_pos (by omega), if_neg (by omega), if_pos rfl]
      omega
    · rw [if_neg (by omega), if_neg (by omega), if_neg (by omega), if_neg (by omega)]
      omega

theorem exchange_length (M : Bytes) : (exchange M).length = M.length := by unfold exchange; rw [List.length_ofFn]

theorem exchange_get {M : Bytes} (h : 32 * 1001 ≤ M.length) (j : Nat) : (exchange M)[j]? = if j < M.length then M[place' j]? else none := by
  unfold exchange
  rw [List.getElem?_ofFn]
  by_cases hj : j < M.length
  · rw [dif_pos hj, if_pos hj]
    have hp : place' j < M.length := by
      unfold place'
      split
      · omega
      · split <;> omega
    rw [List.getD_eq_getElem?_getD, List.getElem?_eq_getElem hp]
    rfl
  · rw [dif_neg hj, if_neg hj]

section
variable {m : Nat} {u v : Bytes} {x y : Nat}

theorem asm_get {p : Nat → Nat × Nat} {i l : Nat} (hi : i < m) (hl : l < 32) :
    (asm m p u v x y)[32 * i + l]? = (beBytes 16 (p (i + 1)).1 ++ beBytes 16 (p (i + 1)).2)[l]? := by
  obtain ⟨t, ht⟩ := flat_drop (f := fun i => beBytes 16 (p (i + 1)).1 ++ beBytes 16 (p (i + 1)).2) pair_length hi
    (u ++ (v ++ (beBytes 16 x ++ beBytes 16 y)))
  rw [asm_eq, ← List.getElem?_drop, ht, List.getElem?_append_left (by rw [pair_length]; exact hl)]

theorem exchange_asm (hm : 1001 ≤ m) (p : Nat → Nat × Nat) : exchange (asm m p u v x y) = asm m (fun i => p (sig i)) u v x y := by
  have hl := asm_length (m := m) (p := p) (u := u) (v := v) (x := x) (y := y)
  have hl' := asm_length (m := m) (p := fun i => p (sig i)) (u := u) (v := v) (x := x) (y := y)
  refine List.ext_getElem? fun j => ?_
  rw [exchange_get (by omega)]
  by_cases hj : j < 32 * m
  · have e : j = 32 * (j / 32) + j % 32 := by omega
    have hr : j % 32 < 32 := Nat.mod_lt _ (by decide)
    have hi : j / 32 < m := by omega
    rw [if_pos (by omega)]
    generalize j / 32 = i at e hi
    generalize j % 32 = l at e hr
    subst e
    have hs : 1 ≤ sig (i + 1) ∧ sig (i + 1) ≤ m := by
      unfold sig
      split
      · omega
      · split <;> omega
    rw [place_pair i l hr, asm_get (by omega) hr, asm_get hi hr, show sig (i + 1) - 1 + 1 = sig (i + 1) by omega]
  · have ep : place' j = j := by
      unfold place'
      rw [if_neg (by omega), if_neg (by omega)]
    obtain ⟨l, rfl⟩ : ∃ l, j = 32 * m + l := ⟨j - 32 * m, by omega⟩
    rw [ep, ← List.getElem?_drop, ← List.getElem?_drop, asm_drop, asm_drop]
    split
    · rfl
    · next h =>
      have : ((asm m p u v x y).drop (32 * m))[l]? = none := by
        rw [List.getElem?_drop]
        exact List.getElem?_eq_none (by omega)
      rw [asm_drop] at this
      exact this.symm

end

theorem xorSum_change {f g : Nat → Nat} {j : Nat} (h : ∀ i, i ≠ j → g i = f i) : ∀ {m : Nat}, 1 ≤ j → j ≤ m →
    AezSpec.xorSum g m = AezSpec.xorSum f m ^^^ (f j ^^^ g j)
  | 0, h1, h2 => by omega
  | m + 1, h1, h2 => by
    unfold AezSpec.xorSum
    by_cases e : j = m + 1
    · have : AezSpec.xorSum g m = AezSpec.xorSum f m := xorSum_congr fun i _ hi => h i (by omega)
      rw [this, e, Nat.xor_assoc, ← Nat.xor_assoc (f (m + 1)), Nat.xor_self, Nat.zero_xor]
    · rw [xorSum_change h h1 (by omega), h (m + 1) (fun h' => e h'.symm)]
      simp only [Nat.xor_assoc, Nat.xor_comm, xor_left]

theorem xorSum_sig (f : Nat → Nat) {m : Nat} (hm : 1001 ≤ m) : AezSpec.xorSum (fun i => f (sig i)) m = AezSpec.xorSum f m := by
  let g : Nat → Nat := fun i => if i = 40 then f 1001 else f i
  have h1 : AezSpec.xorSum g m = AezSpec.xorSum f m ^^^ (f 40 ^^^ f 1001) :=
    xorSum_change (f := f) (g := g) (j := 40) (fun i hi => if_neg hi) (by omega) (by omega)
  have h2 : AezSpec.xorSum (fun i => f (sig i)) m = AezSpec.xorSum g m ^^^ (f 1001 ^^^ f 40) := by
    refine xorSum_change (f := g) (g := fun i => f (sig i)) (j := 1001) (fun i hi => ?_) (by omega) (by omega)
    show f (sig i) = if i = 40 then f 1001 else f i
    unfold sig
    by_cases h : i = 40
    · rw [if_pos h, if_pos h]
    · rw [if_neg h, if_neg h, if_neg hi]
  rw [h2, h1, Nat.xor_comm (f 1001), Nat.xor_assoc, Nat.xor_self, Nat.xor_zero]

section
variable {T : Nat × Nat → Nat} (h1 : ∀ x, T (16 + 2 * 1001, x) = T (16 + 2 * 40, x)) (h2 : ∀ x, T (17 + 2 * 1001, x) = T (17 + 2 * 40, x))

theorem at_sig {c : Nat} (h : ∀ x, T (c + 2 * 1001, x) = T (c + 2 * 40, x)) (i x : Nat) : T (c + 2 * i, x) = T (c + 2 * sig i, x) := by
  unfold sig
  by_cases e : i = 40
  · rw [if_pos e, e, h]
  · rw [if_neg e]
    by_cases e' : i = 1001
    · rw [if_pos e', e', h]
    · rw [if_neg e']

include h1 h2 in
/-- AEZ-core of the exchanged string is the exchanged string. -/
theorem coreT_exchange (a b : Nat) {M : Bytes} (hM : 32 * 1002 ≤ M.length) : coreT T a b (exchange M) = exchange (coreT T a b M) := by
  have h32 : 32 ≤ M.length := by omega
  have hm : 1001 ≤ AezSpec.pairs M := by unfold AezSpec.pairs; omega
  have hr : M.length % 32 < 32 := Nat.mod_lt _ (by decide)
  have hu := uPart_len h32
  have hv := vPart_len h32
  let p : Nat → Nat × Nat := fun i => (AezSpec.block M (32 * (i - 1)), AezSpec.block M (32 * (i - 1) + 16))
  have eM : exchange M = asm (AezSpec.pairs M) (fun i => p (sig i)) (AezSpec.uPart M) (AezSpec.vPart M)
      (AezSpec.block M (M.length - 32)) (AezSpec.block M (M.length - 16)) := by
    have h := exchange_asm (u := AezSpec.uPart M) (v := AezSpec.vPart M) (x := AezSpec.block M (M.length - 32)) (y := AezSpec.block M (M.length - 16)) hm p
    rw [← h]
    exact congrArg exchange (asm_parts h32).symm
  have p0 : AezSpec.pairs (exchange M) = AezSpec.pairs M := by unfold AezSpec.pairs; rw [exchange_length]
  have pu : AezSpec.uPart (exchange M) = AezSpec.uPart M := by rw [eM]; exact asm_u hr hu hv
  have pv : AezSpec.vPart (exchange M) = AezSpec.vPart M := by rw [eM]; exact asm_v hr hu hv
  have px : AezSpec.block (exchange M) ((exchange M).length - 32) = AezSpec.block M (M.length - 32) := by
    rw [eM]; exact asm_x hr hu hv (block_lt _ _)
  have py : AezSpec.block (exchange M) ((exchange M).length - 16) = AezSpec.block M (M.length - 16) := by
    rw [eM]; exact asm_y hr hu hv (block_lt _ _)
  have pf : ∀ i, 1 ≤ i → i ≤ AezSpec.pairs M → AezSpec.block (exchange M) (32 * (i - 1)) = AezSpec.block M (32 * (sig i - 1)) := fun i i1 i2 => by
    rw [eM]; exact asm_first (p := fun i => p (sig i)) (fun i => block_lt _ _) i1 i2
  have ps : ∀ i, 1 ≤ i → i ≤ AezSpec.pairs M → AezSpec.block (exchange M) (32 * (i - 1) + 16) = AezSpec.block M (32 * (sig i - 1) + 16) := fun i i1 i2 => by
    rw [eM]; exact asm_second (p := fun i => p (sig i)) (fun i => block_lt _ _) i1 i2
  have e1 : ∀ i, 1 ≤ i → i ≤ AezSpec.pairs M → wT T (exchange M) i = wT T M (sig i) := fun i i1 i2 => by
    unfold wT
    rw [pf i i1 i2, ps i i1 i2, at_sig h1]
  have e2 : ∀ i, 1 ≤ i → i ≤ AezSpec.pairs M → xT T (exchange M) i = xT T M (sig i) := fun i i1 i2 => by
    unfold xT
    rw [ps i i1 i2, e1 i i1 i2]
  have e4 : sxT T a (exchange M) = sxT T a M := by
    unfold sxT
    rw [px, py, p0, pu, pv, exchange_length, xorSum_congr e2, xorSum_sig (xT T M) hm]
  have e5 : syT T a (exchange M) = syT T a M := by
    unfold syT
    rw [py, e4]
  have e6 : sT T a (exchange M) = sT T a M := by
    unfold sT
    rw [e4, e5]
  have e7 : ∀ i, 1 ≤ i → i ≤ AezSpec.pairs M → yT T a (exchange M) i = yT T a M (sig i) := fun i i1 i2 => by
    unfold yT
    rw [e1 i i1 i2, e6, at_sig h2]
  have e8 : ∀ i, 1 ≤ i → i ≤ AezSpec.pairs M → zT T a (exchange M) i = zT T a M (sig i) := fun i i1 i2 => by
    unfold zT
    rw [e2 i i1 i2, e6, at_sig h2]
  have e9 : ∀ i, 1 ≤ i → i ≤ AezSpec.pairs M → c1T T a (exchange M) i = c1T T a M (sig i) := fun i i1 i2 => by
    unfold c1T
    rw [e7 i i1 i2, e8 i i1 i2]
  have e10 : ∀ i, 1 ≤ i → i ≤ AezSpec.pairs M → c0T T a (exchange M) i = c0T T a M (sig i) := fun i i1 i2 => by
    unfold c0T
    rw [e8 i i1 i2, e9 i i1 i2, at_sig h1]
  have e11 : cuT T a (exchange M) = cuT T a M := by
    unfold cuT
    rw [e6, pu]
  have e12 : cvT T a (exchange M) = cvT T a M := by
    unfold cvT
    rw [e6, pv]
  have e13 : cyT T a b (exchange M) = cyT T a b M := by
    unfold cyT
    rw [e4, e5]
  have e14 : cxT T a b (exchange M) = cxT T a b M := by
    unfold cxT
    rw [e5, p0, xorSum_congr e7, xorSum_sig (yT T a M) hm, e11, e12, e13, exchange_length]
  unfold coreT
  rw [e11, e12, e13, e14, p0, exchange_asm hm]
  exact asm_congr (fun i i1 i2 => by rw [e9 i i1 i2, e10 i i1 i2]) _ _ _ _

end

end Verif.AezWide
