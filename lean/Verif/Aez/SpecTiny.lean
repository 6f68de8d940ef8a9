import Verif.Aez.SpecCore

/-! Short messages: the Feistel network computes the specification. -/

namespace Verif.Aez

open Verif

/-! ## Bits and integers -/

theorem val_testBit (b : Block) (k : Nat) (h : k < 128) : (Spec.val b).testBit k = bb b (127 - k) := by
  rw [val_eq, leNat_ofFn_testBit, lb, dif_pos h, bb, dif_pos (by omega)]
  have h16 : k / 8 < 16 := by omega
  have e : (⟨(127 - k) / 8, by omega⟩ : Fin 16) = ⟨15 - k / 8, by omega⟩ := Fin.ext (by simp only; omega)
  simp only [bswap]
  rw [e, BitVec.getMsbD, show (127 - k) % 8 = 7 - k % 8 by omega]
  simp only [show 7 - k % 8 < 8 by omega, decide_true, Bool.true_and, show 8 - 1 - (7 - k % 8) = k % 8 by omega]
  rfl

theorem bb_val (b : Block) (k : Nat) (h : k < 128) : bb b k = (Spec.val b).testBit (127 - k) := by
  rw [val_testBit b _ (by omega)]; congr 1; omega

theorem val_testBit_ge (b : Block) (k : Nat) (h : 128 ≤ k) : (Spec.val b).testBit k = false :=
  Nat.testBit_lt_two_pow (Nat.lt_of_lt_of_le (val_lt b) (Nat.pow_le_pow_right (by omega) h))

/-- The integer of `8n` bits, most significant first. -/
def IsNum (n : Nat) (P : Nat → Bool) (v : Nat) : Prop := v < 2 ^ (8 * n) ∧ ∀ k, k < 8 * n → P k = v.testBit (8 * n - 1 - k)

theorem isNum_list (l : Bytes) : IsNum l.length (gb (fn l)) (beNat l) := by
  refine ⟨?_, fun k hk => ?_⟩
  · have := beNat_lt l
    rwa [show (256 : Nat) = 2 ^ 8 from rfl, ← pow_mul] at this
  · rw [beNat_eq_leNat_reverse, testBit_leNat, gb, List.getD_eq_getElem?_getD, List.getElem?_reverse (by omega), BitVec.getMsbD]
    have e1 : l.length - 1 - (8 * l.length - 1 - k) / 8 = k / 8 := by omega
    have e2 : (8 * l.length - 1 - k) % 8 = 7 - k % 8 := by omega
    rw [e1, e2]
    simp only [show k % 8 < 8 by omega, decide_true, Bool.true_and, show 8 - 1 - k % 8 = 7 - k % 8 by omega, fn, List.getD_eq_getElem?_getD]
    rfl

theorem isNum_unique {n : Nat} {P Q : Nat → Bool} {v w : Nat} (hv : IsNum n P v) (hw : IsNum n Q w) (h : ∀ k, k < 8 * n → P k = Q k) : v = w := by
  apply Nat.eq_of_testBit_eq
  intro k
  by_cases hk : k < 8 * n
  · have := h (8 * n - 1 - k) (by omega)
    rw [hv.2 _ (by omega), hw.2 _ (by omega), show 8 * n - 1 - (8 * n - 1 - k) = k by omega] at this
    exact this
  · have hp : 2 ^ (8 * n) ≤ 2 ^ k := Nat.pow_le_pow_right (by omega) (by omega)
    rw [Nat.testBit_lt_two_pow (Nat.lt_of_lt_of_le hv.1 hp), Nat.testBit_lt_two_pow (Nat.lt_of_lt_of_le hw.1 hp)]

theorem padHalf_testBit (n x k : Nat) (hn : n < 32) : (AezSpec.padHalf n x).testBit k =
    if k < 128 - 4 * n then decide (k = 127 - 4 * n) else x.testBit (k - (128 - 4 * n)) := by
  have hlt : 2 ^ (127 - 4 * n) < 2 ^ (128 - 4 * n) := Nat.pow_lt_pow_right (by omega) (by omega)
  rw [AezSpec.padHalf, Nat.mul_comm, Nat.testBit_two_pow_mul_add _ hlt]
  by_cases h : k < 128 - 4 * n
  · rw [if_pos h, if_pos h, Nat.testBit_two_pow]
    congr 1
    exact propext ⟨fun h => h.symm, fun h => h.symm⟩
  · rw [if_neg h, if_neg h]

theorem padHalf_div (n x : Nat) (hn : n < 32) : AezSpec.padHalf n x / 2 ^ (128 - 4 * n) = x := by
  have hlt : 2 ^ (127 - 4 * n) < 2 ^ (128 - 4 * n) := Nat.pow_lt_pow_right (by omega) (by omega)
  rw [AezSpec.padHalf, Nat.add_comm, Nat.add_mul_div_right _ _ (Nat.two_pow_pos _), Nat.div_eq_of_lt hlt, Nat.zero_add]

theorem xor_div (a b e : Nat) : (a ^^^ b) / 2 ^ e = a / 2 ^ e ^^^ b / 2 ^ e := by
  rw [← Nat.shiftRight_eq_div_pow, ← Nat.shiftRight_eq_div_pow, ← Nat.shiftRight_eq_div_pow, Nat.shiftRight_xor_distrib]

theorem val_M {n : Nat} (hn : n < 32) (x : Block) : Spec.val (M n x) = AezSpec.padHalf n (Spec.val x / 2 ^ (128 - 4 * n)) := by
  apply Nat.eq_of_testBit_eq
  intro k
  rw [padHalf_testBit _ _ _ hn]
  by_cases hk : k < 128
  · rw [val_testBit _ _ hk, bb_M n hn x _ (by omega), Nat.testBit_div_two_pow]
    by_cases h : k < 128 - 4 * n
    · rw [if_neg (by omega), if_pos h]
      congr 1
      apply propext
      omega
    · rw [if_pos (by omega), if_neg h, show k - (128 - 4 * n) + (128 - 4 * n) = k by omega, val_testBit _ _ hk]
  · rw [val_testBit_ge _ _ (by omega), if_neg (by omega), Nat.testBit_div_two_pow, val_testBit_ge _ _ (by omega)]

/-! ## The Feistel network -/

section
variable {R : Block → Block} {r : Nat → Nat} (hr : ∀ b, Spec.val (R b) = r (Spec.val b)) {key : Bytes} (hk : key.length = 48)
  {D : Nat} {t : Block} (ht : Spec.val t = D) {n : Nat} (h1 : 1 ≤ n) (hn : n < 32)

/-- The halves of the code and those of the specification. -/
def Rel (n : Nat) (uv : Block × Block) (lr : Nat × Nat) : Prop := Spec.val uv.1 / 2 ^ (128 - 4 * n) = lr.1 ∧ Spec.val uv.2 = AezSpec.padHalf n lr.2

include hr hk ht hn

theorem rel_step {uv : Block × Block} {lr : Nat × Nat} (h : Rel n uv lr) {rc : Block} {j : Nat} (hj : Spec.val rc = j) :
    Rel n (fstep R (ctxOf key) (tinyTweak (ctxOf key) t n) n rc uv) (AezSpec.tinyRound r (AezSpec.key key) D n lr j) := by
  refine ⟨?_, ?_⟩
  · simp only [fstep, AezSpec.tinyRound]
    rw [h.2, padHalf_div _ _ hn]
  · simp only [fstep, AezSpec.tinyRound]
    rw [val_M hn, val_bx, bx_assoc, vF67 hr hk, val_bx, h.2, hj, ht, xor_div, h.1, Nat.xor_comm, ← Nat.xor_assoc]

theorem rel_fold : ∀ (js : List Nat), (∀ j ∈ js, j < 256) → ∀ (uv : Block × Block) (lr : Nat × Nat), Rel n uv lr →
    Rel n ((js.map fun j => zeroSetByte (UInt8.ofNat j) 15).foldl (fun s r => fstep R (ctxOf key) (tinyTweak (ctxOf key) t n) n r s) uv)
      (js.foldl (AezSpec.tinyRound r (AezSpec.key key) D n) lr) := by
  have hb : ∀ j : Fin 256, Spec.val (zeroSetByte (UInt8.ofNat j.1) 15) = j.1 := by decide +kernel
  intro js
  induction js with
  | nil => intro _ uv lr h; exact h
  | cons j js ih =>
    intro hjs uv lr h
    rw [List.map_cons, List.foldl_cons, List.foldl_cons]
    exact ih (fun i hi => hjs i (List.mem_cons_of_mem _ hi)) _ _ (rel_step hr hk ht hn h (hb ⟨j, hjs j List.mem_cons_self⟩))

omit hr hk ht hn in
theorem rounds_eq (h1 : 1 ≤ n) : rounds n = AezSpec.tinyRounds n := by
  simp only [rounds, AezSpec.tinyRounds]
  by_cases a : n = 1
  · subst a; rfl
  · by_cases b : n = 2
    · subst b; rfl
    · by_cases c : n < 16
      · rw [if_neg (by omega), if_pos (by omega), if_neg a, if_neg b, if_pos c]
      · rw [if_pos (by omega), if_neg a, if_neg b, if_neg c]

omit hr hk ht hn in
theorem dirConsts_eq (d : Bool) (n : Nat) : dirConsts d n =
    (if d then (List.range (rounds n)).reverse else List.range (rounds n)).map fun j => zeroSetByte (UInt8.ofNat j) 15 := by
  have key : dirConsts false n = (List.range (rounds n)).map fun j => zeroSetByte (UInt8.ofNat j) 15 := by
    simp only [dirConsts, Bool.false_eq_true, if_false]
    rw [bzero_eq, consts_eq]
    have : ∀ L, L = (List.range (rounds n)).map UInt8.ofNat → L.map (zeroSetByte · 15) = (List.range (rounds n)).map fun j => zeroSetByte (UInt8.ofNat j) 15 := by
      intro L hL; rw [hL, List.map_map]; rfl
    apply this
    rcases rounds_cases n with h | h | h | h <;> rw [h] <;> decide
  cases d
  · simpa using key
  · have := dirConsts_rev false n
    simp only [Bool.not_false] at this
    rw [this, key, if_pos rfl, List.map_reverse]

omit hr hk ht in
theorem rel_bounds {uv : Block × Block} {lr : Nat × Nat} (h : Rel n uv lr) : lr.1 < 2 ^ (4 * n) ∧ lr.2 < 2 ^ (4 * n) := by
  have key : ∀ b : Block, Spec.val b / 2 ^ (128 - 4 * n) < 2 ^ (4 * n) := by
    intro b
    rw [Nat.div_lt_iff_lt_mul (Nat.two_pow_pos _), ← pow_add, show 4 * n + (128 - 4 * n) = 128 by omega]
    exact val_lt b
  refine ⟨by rw [← h.1]; exact key _, ?_⟩
  have := key uv.2
  rwa [h.2, padHalf_div _ _ hn] at this

/-! ## Before and after -/

omit hr hk ht in
theorem val_rIn {P : Nat → Bool} {v : Nat} (hP : IsNum n P v) : Spec.val (rIn n P) = AezSpec.padHalf n (v % 2 ^ (4 * n)) := by
  apply Nat.eq_of_testBit_eq
  intro k
  rw [padHalf_testBit _ _ _ hn]
  by_cases hk : k < 128
  · rw [val_testBit _ _ hk, bb_rIn _ _ _ (by omega)]
    by_cases h : k < 128 - 4 * n
    · rw [if_neg (by omega), if_pos h]
      congr 1
      apply propext
      omega
    · rw [if_pos (by omega), if_neg h, hP.2 _ (by omega), Nat.testBit_mod_two_pow]
      simp only [show k - (128 - 4 * n) < 4 * n by omega, decide_true, Bool.true_and]
      congr 1; omega
  · rw [val_testBit_ge _ _ (by omega), if_neg (by omega), Nat.testBit_mod_two_pow]
    simp [show ¬ k - (128 - 4 * n) < 4 * n by omega]

omit hr hk ht in
theorem val_lIn_div {P : Nat → Bool} {v : Nat} (hP : IsNum n P v) : Spec.val (lIn n P) / 2 ^ (128 - 4 * n) = v / 2 ^ (4 * n) := by
  apply Nat.eq_of_testBit_eq
  intro k
  rw [Nat.testBit_div_two_pow, Nat.testBit_div_two_pow]
  by_cases hk : k < 4 * n
  · rw [val_testBit _ _ (by omega), bb_lIn _ _ _ (by omega), hP.2 _ (by omega)]
    simp only [show 127 - (k + (128 - 4 * n)) < 8 * n by omega, decide_true, Bool.true_and]
    congr 1; omega
  · rw [val_testBit_ge _ _ (by omega)]
    symm
    exact Nat.testBit_lt_two_pow (Nat.lt_of_lt_of_le hP.1 (Nat.pow_le_pow_right (by omega) (by omega)))

omit hr hk ht in
theorem val_lIn (h16 : n < 16) {P : Nat → Bool} {v : Nat} (hP : IsNum n P v) : Spec.val (lIn n P) = v * 2 ^ (128 - 8 * n) := by
  apply Nat.eq_of_testBit_eq
  intro k
  rw [Nat.mul_comm, Nat.testBit_two_pow_mul]
  by_cases hk : k < 128
  · rw [val_testBit _ _ hk, bb_lIn _ _ _ (by omega)]
    by_cases h : 128 - 8 * n ≤ k
    · simp only [show 127 - k < 8 * n by omega, decide_true, Bool.true_and, h]
      rw [hP.2 _ (by omega)]
      congr 1; omega
    · simp [h, show ¬ 127 - k < 8 * n by omega]
  · rw [val_testBit_ge _ _ (by omega)]
    have : v.testBit (k - (128 - 8 * n)) = false :=
      Nat.testBit_lt_two_pow (Nat.lt_of_lt_of_le hP.1 (Nat.pow_le_pow_right (by omega) (by omega)))
    simp [this]

omit hr hk ht hn in
theorem val_bor (a b : Block) : Spec.val (bor a b) = Spec.val a ||| Spec.val b := by
  apply Nat.eq_of_testBit_eq
  intro k
  rw [Nat.testBit_or]
  by_cases hk : k < 128
  · rw [val_testBit _ _ hk, val_testBit _ _ hk, val_testBit _ _ hk, bb_bor]
  · rw [val_testBit_ge _ _ (by omega), val_testBit_ge _ _ (by omega), val_testBit_ge _ _ (by omega)]; rfl

omit hr hk ht hn in
theorem val_pad32 : Spec.val (blk pad.data 32) = 2 ^ 127 := by decide +kernel

/-- The top bit, as the code and as the specification compute it. -/
theorem bb_TB_eq (h1 : 1 ≤ n) (h16 : n < 16) {P : Nat → Bool} {v : Nat} (hP : IsNum n P v) (k : Nat) (hk' : k < 8 * n) :
    bb (TB R (ctxOf key) t (lIn n P)) k = (AezSpec.tinyBit r (AezSpec.key key) D n v).testBit (8 * n - 1 - k) := by
  have hp := bb_pad32 ⟨k, by omega⟩
  simp only at hp
  rw [TB, bb_band, hp, AezSpec.tinyBit, if_pos h16, Nat.mul_comm _ (2 ^ (8 * n - 1)), Nat.testBit_two_pow_mul]
  by_cases h0 : k = 0
  · subst h0
    simp only [decide_true, Bool.and_true, Nat.sub_zero, ge_iff_le, Nat.le_refl, Bool.true_and, Nat.sub_self]
    rw [bb_val _ _ (by omega), vF3 hr hk, val_bx, val_bor, val_lIn hn h16 hP, val_pad32, ht, Nat.testBit_div_two_pow, Nat.xor_comm]
  · simp [h0, show ¬ 8 * n - 1 ≤ 8 * n - 1 - k by omega]

omit hn in
theorem tinyBit_lt (h1 : 1 ≤ n) (v : Nat) (hv : v < 2 ^ (8 * n)) : AezSpec.tinyBit r (AezSpec.key key) D n v < 2 ^ (8 * n) := by
  rw [AezSpec.tinyBit]
  by_cases h16 : n < 16
  · rw [if_pos h16]
    have he : AezSpec.E0 r (AezSpec.key key) 3 (D ^^^ (v * 2 ^ (128 - 8 * n) ||| 2 ^ 127)) < 2 ^ 128 := by
      have hx : D ^^^ (v * 2 ^ (128 - 8 * n) ||| 2 ^ 127) < 2 ^ 128 := by
        have hm : v * 2 ^ (128 - 8 * n) < 2 ^ 128 := by
          have : v * 2 ^ (128 - 8 * n) < 2 ^ (8 * n) * 2 ^ (128 - 8 * n) := (Nat.mul_lt_mul_right (Nat.two_pow_pos _)).2 hv
          rwa [← pow_add, show 8 * n + (128 - 8 * n) = 128 by omega] at this
        exact Nat.xor_lt_two_pow (by rw [← ht]; exact val_lt t) (Nat.or_lt_two_pow hm (Nat.pow_lt_pow_right (by omega) (by omega)))
      obtain ⟨b, hb⟩ : ∃ b : Block, Spec.val b = D ^^^ (v * 2 ^ (128 - 8 * n) ||| 2 ^ 127) := by
        generalize D ^^^ (v * 2 ^ (128 - 8 * n) ||| 2 ^ 127) = w at hx
        refine ⟨fun i => (beBytes 16 w).getD i.1 0, ?_⟩
        have : List.ofFn (fun i : Fin 16 => (beBytes 16 w).getD i.1 0) = beBytes 16 w := by
          apply List.ext_getElem
          · simp
          · intro i a b
            rw [List.getElem_ofFn, List.getD_eq_getElem?_getD, List.getElem?_eq_getElem b]; rfl
        rw [Spec.val, this, beNat_beBytes_of_lt (by rw [show (256 : Nat) = 2 ^ 8 from rfl, ← pow_mul]; exact hx)]
      rw [← hb, ← vF3 hr hk]
      exact val_lt _
    generalize AezSpec.E0 r (AezSpec.key key) 3 (D ^^^ (v * 2 ^ (128 - 8 * n) ||| 2 ^ 127)) = e at he
    have h2 : e / 2 ^ 127 < 2 := by
      rw [Nat.div_lt_iff_lt_mul (Nat.two_pow_pos _)]
      exact he
    calc e / 2 ^ 127 * 2 ^ (8 * n - 1) < 2 * 2 ^ (8 * n - 1) := (Nat.mul_lt_mul_right (Nat.two_pow_pos _)).2 h2
      _ = 2 ^ (8 * n) := by rw [← pow_succ', show 8 * n - 1 + 1 = 8 * n by omega]
  · rw [if_neg h16]; exact Nat.two_pow_pos _

theorem rel_start (h1 : 1 ≤ n) (d : Bool) {P : Nat → Bool} {v : Nat} (hP : IsNum n P v) :
    Rel n (lStart R (ctxOf key) t d n P, rIn n P)
      (AezSpec.halvesOf n (if d then v ^^^ AezSpec.tinyBit r (AezSpec.key key) D n v else v)) := by
  cases d with
  | false =>
    rw [lStart_false]
    exact ⟨val_lIn_div hn hP, val_rIn hn hP⟩
  | true =>
    by_cases h16 : n < 16
    · rw [lStart_true_lt R _ _ h16, if_pos rfl]
      have hmod : (v ^^^ AezSpec.tinyBit r (AezSpec.key key) D n v) % 2 ^ (4 * n) = v % 2 ^ (4 * n) := by
        rw [Nat.xor_mod_two_pow]
        have : AezSpec.tinyBit r (AezSpec.key key) D n v % 2 ^ (4 * n) = 0 := by
          rw [AezSpec.tinyBit, if_pos h16, show 8 * n - 1 = 4 * n + (4 * n - 1) by omega, pow_add, Nat.mul_left_comm]
          exact Nat.mul_mod_right _ _
        rw [this, Nat.xor_zero]
      refine ⟨?_, ?_⟩
      · simp only [AezSpec.halvesOf]
        rw [val_bx, xor_div, xor_div, val_lIn_div hn hP]
        congr 1
        apply Nat.eq_of_testBit_eq
        intro k
        rw [Nat.testBit_div_two_pow, Nat.testBit_div_two_pow]
        by_cases hk4 : k < 4 * n
        · rw [val_testBit _ _ (by omega), bb_TB_eq hr hk ht hn h1 h16 hP _ (by omega)]
          congr 1; omega
        · rw [val_testBit_ge _ _ (by omega)]
          symm
          exact Nat.testBit_lt_two_pow (Nat.lt_of_lt_of_le (tinyBit_lt hr hk ht h1 v hP.1) (Nat.pow_le_pow_right (by omega) (by omega)))
      · simp only [AezSpec.halvesOf]
        rw [hmod]
        exact val_rIn hn hP
    · rw [lStart_true_ge R _ _ h16, if_pos rfl, AezSpec.tinyBit, if_neg h16, Nat.xor_zero]
      exact ⟨val_lIn_div hn hP, val_rIn hn hP⟩

omit hr hk ht in
theorem isNum_joined (h1 : 1 ≤ n) {uv : Block × Block} {lr : Nat × Nat} (h : Rel n uv lr) : IsNum n (preBit n uv) (AezSpec.joined n lr) := by
  obtain ⟨hl, hr'⟩ := rel_bounds hn h
  rw [AezSpec.joined]
  refine ⟨?_, fun k hk' => ?_⟩
  · calc lr.2 * 2 ^ (4 * n) + lr.1 < lr.2 * 2 ^ (4 * n) + 2 ^ (4 * n) := by omega
      _ = (lr.2 + 1) * 2 ^ (4 * n) := by rw [Nat.add_mul, Nat.one_mul]
      _ ≤ 2 ^ (4 * n) * 2 ^ (4 * n) := Nat.mul_le_mul_right _ hr'
      _ = 2 ^ (8 * n) := by rw [← pow_add]; congr 1; omega
  · rw [Nat.mul_comm, Nat.testBit_two_pow_mul_add _ hl, preBit]
    by_cases h4 : k < 4 * n
    · rw [if_pos h4, if_neg (by omega), bb_val _ _ (by omega), h.2, padHalf_testBit _ _ _ hn, if_neg (by omega)]
      congr 1; omega
    · rw [if_neg h4, if_pos (by omega), bb_val _ _ (by omega), ← h.1, Nat.testBit_div_two_pow]
      congr 1; omega

/-- The output of short messages is the integer of the specification. -/
theorem isNum_out (h1 : 1 ≤ n) (d : Bool) {P : Nat → Bool} {v : Nat} (hP : IsNum n P v) :
    IsNum n (outBit R (ctxOf key) t d n P) (if d then AezSpec.tinyDec r (AezSpec.key key) D n v else AezSpec.tinyEnc r (AezSpec.key key) D n v) := by
  have hrel : Rel n (halves R (ctxOf key) t d n P)
      ((if d then (List.range (AezSpec.tinyRounds n)).reverse else List.range (AezSpec.tinyRounds n)).foldl (AezSpec.tinyRound r (AezSpec.key key) D n)
        (AezSpec.halvesOf n (if d then v ^^^ AezSpec.tinyBit r (AezSpec.key key) D n v else v))) := by
    rw [halves, dirConsts_eq, rounds_eq h1]
    refine rel_fold hr hk ht hn _ ?_ _ _ (rel_start hr hk ht hn h1 d hP)
    intro j hj
    have h24 : AezSpec.tinyRounds n ≤ 24 := by
      rw [← rounds_eq h1]; rcases rounds_cases n with h | h | h | h <;> omega
    cases d <;> simp at hj <;> omega
  have hj := isNum_joined hn h1 hrel
  cases d with
  | true =>
    simp only [if_true] at hj ⊢
    refine ⟨hj.1, fun k hk' => ?_⟩
    rw [outBit]
    simp only [Bool.true_eq_false, false_and, if_false]
    exact hj.2 k hk'
  | false =>
    simp only [Bool.false_eq_true, if_false] at hj ⊢
    simp only [AezSpec.tinyEnc]
    refine ⟨Nat.xor_lt_two_pow hj.1 (tinyBit_lt hr hk ht h1 _ hj.1), fun k hk' => ?_⟩
    rw [outBit, Nat.testBit_xor, ← hj.2 k hk']
    by_cases h16 : n < 16
    · simp only [h16, show k < 128 by omega, and_self, if_true]
      rw [bb_TB_eq hr hk ht hn h1 h16 hj k hk']
    · simp [h16, AezSpec.tinyBit]

end

end Verif.Aez
