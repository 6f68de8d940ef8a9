import Verif.Aez.Core
import Verif.ParityBytes

/-!
# C116: AEZ-core as a sequence of additions

Every step adds to some bytes a function of the others.
-/

namespace Verif.AezParity.Long

open Verif Verif.ParityBytes
open Verif.Aez (Ctx blk bx F aes fx fr0 fr1 fo0 fo1 initN fragN xsum offs byteOf W X T C0 C1 vals coreFn ozp)

section
variable {p : Nat → Bool} {G : (Nat → UInt8) → Nat → UInt8} {P : Nat → UInt8}

theorem blk_on {o : Nat} {V : Aez.Block} (h : ∀ k, k < 16 → p (o + k) = true) (hV : ∀ k, k < 16 → G P (o + k) = byteOf V k) :
    blk (stepF p G P) o = bx (blk P o) V := by
  funext k
  simp only [blk, bx, stepF]
  rw [if_pos (h _ k.2), hV _ k.2, Aez.byteOf_of_lt _ k.2]

theorem blk_off {o : Nat} (h : ∀ k, k < 16 → p (o + k) = false) : blk (stepF p G P) o = blk P o := by
  funext k
  simp only [blk, stepF]
  rw [if_neg (by rw [h _ k.2]; decide)]

theorem at_off {i : Nat} (h : p i = false) : stepF p G P i = P i := if_neg (by rw [h]; decide)
theorem at_on {i : Nat} (h : p i = true) : stepF p G P i = P i ^^^ G P i := if_pos h
end

theorem byteOf_mod (b : Aez.Block) {i k : Nat} (h : i % 16 = k % 16) : byteOf b i = byteOf b k := by
  unfold byteOf
  exact congrArg b (Fin.ext h)

section
variable (n : Nat)

/-- The first and the second halves of the pairs, the last two blocks, and what comes before them. -/
def ev (i : Nat) : Bool := decide (i < initN n ∧ i % 32 < 16)
def od (i : Nat) : Bool := decide (i < initN n ∧ 16 ≤ i % 32)
def lx (i : Nat) : Bool := decide (n - 32 ≤ i ∧ i < n - 16)
def ly (i : Nat) : Bool := decide (n - 16 ≤ i ∧ i < n)
def be (i : Nat) : Bool := decide (i < n - 32)
def fst (i : Nat) : Bool := decide ((i < initN n ∧ i % 32 < 16) ∨ (n - 32 ≤ i ∧ i < n - 16))
def snd (i : Nat) : Bool := decide ((i < initN n ∧ 16 ≤ i % 32) ∨ (n - 16 ≤ i ∧ i < n))
end

section
variable (R : Aez.Block → Aez.Block) (c : Ctx) (t : Aez.Block) (d : Bool) (n : Nat)

def g1 (P : Nat → UInt8) (i : Nat) : UInt8 := byteOf (F R c (bx (blk P (32 * (i / 32) + 16)) (offs c (initN n) (i / 32)))) i
def g2 (P : Nat → UInt8) (i : Nat) : UInt8 := byteOf (F R c (blk P (32 * (i / 32)))) i
def g3 (P : Nat → UInt8) (i : Nat) : UInt8 :=
  byteOf (bx (bx (fx R c n (fr0 n P) (fr1 n P) (xsum (fun j => blk P (32 * j + 16)) (initN n / 32))) t) (F R c (bx (blk P (n - 32 + 16)) (c.Id d))))
    (i - (n - 32))
def g4 (P : Nat → UInt8) (i : Nat) : UInt8 := byteOf (aes R c (blk P (n - 32)) (c.Jd d)) (i - (n - 32 + 16))
def g5 (P : Nat → UInt8) (i : Nat) : UInt8 :=
  let s := bx (blk P (n - 32)) (blk P (n - 32 + 16))
  if i < initN n then byteOf (Aez.G R c (bx s (offs c (initN n) (i / 32)))) i
  else if i - initN n < 16 then byteOf (aes R c s c.J2) (i - initN n)
  else byteOf (aes R c s (bx c.J2 c.J0)) (i - initN n - 16)
def g6 (P : Nat → UInt8) (i : Nat) : UInt8 := byteOf (aes R c (blk P (n - 32 + 16)) (c.Jd (!d))) (i - (n - 32))
def g7 (P : Nat → UInt8) (i : Nat) : UInt8 :=
  byteOf (bx (bx (fx R c n (fr0 n P) (fr1 n P) (xsum (fun j => blk P (32 * j)) (initN n / 32))) t) (F R c (bx (blk P (n - 32)) (c.Id (!d)))))
    (i - (n - 32 + 16))
def g8 (P : Nat → UInt8) (i : Nat) : UInt8 := byteOf (F R c (blk P (32 * (i / 32) + 16))) i
def g9 (P : Nat → UInt8) (i : Nat) : UInt8 := byteOf (F R c (bx (blk P (32 * (i / 32))) (offs c (initN n) (i / 32)))) i
def gA (P : Nat → UInt8) (i : Nat) : UInt8 := P (i + 16)
def gB (P : Nat → UInt8) (i : Nat) : UInt8 := P (i - 16)

/-- All steps but the last three, and all steps. -/
def nine (P : Nat → UInt8) : Nat → UInt8 :=
  stepF (od n) (g9 R c n) (stepF (ev n) (g8 R c) (stepF (ly n) (g7 R c t d n) (stepF (lx n) (g6 R c d n) (stepF (be n) (g5 R c n)
    (stepF (ly n) (g4 R c d n) (stepF (lx n) (g3 R c t d n) (stepF (od n) (g2 R c) (stepF (ev n) (g1 R c n) P))))))))

def swapF (P : Nat → UInt8) : Nat → UInt8 := stepF (fst n) gA (stepF (snd n) gB (stepF (fst n) gA P))

variable {n}

theorem nums (h : 32 ≤ n) : initN n % 32 = 0 ∧ initN n + fragN n + 32 = n ∧ fragN n < 32 := by
  simp only [initN, fragN]; omega

theorem fr0_congr {P Q : Nat → UInt8} (h : ∀ i, initN n ≤ i → i < initN n + fragN n → P i = Q i) : fr0 n P = fr0 n Q := by
  unfold fr0
  by_cases h16 : fragN n ≥ 16
  · rw [if_pos h16, if_pos h16]
    exact Aez.blk_congr fun i h1 h2 => h i h1 (by omega)
  · rw [if_neg h16, if_neg h16, Aez.ozp_congr (x := blk P (initN n)) (y := blk Q (initN n)) (n := fragN n) fun k hk => h _ (by omega) (by omega)]

theorem fr1_congr {P Q : Nat → UInt8} (h : ∀ i, initN n ≤ i → i < initN n + fragN n → P i = Q i) : fr1 n P = fr1 n Q := by
  unfold fr1
  by_cases h16 : fragN n ≥ 16
  · rw [if_pos h16, if_pos h16]
    exact Aez.ozp_congr fun k hk => h _ (by omega) (by omega)
  · rw [if_neg h16, if_neg h16]

/-! ## Every step uses only bytes that it does not change -/

theorem free1 : Free (ev n) (g1 R c n) := fun P P' h i hi => by
  unfold g1
  rw [Aez.blk_congr fun j h1 h2 => h j (decide_eq_false (by omega))]

theorem free2 : Free (od n) (g2 R c) := fun P P' h i hi => by
  unfold g2
  rw [Aez.blk_congr fun j h1 h2 => h j (decide_eq_false (by omega))]

theorem free3 (h32 : 32 ≤ n) : Free (lx n) (g3 R c t d n) := fun P P' h i hi => by
  obtain ⟨e1, e2, e3⟩ := nums h32
  unfold g3
  rw [Aez.blk_congr (g := P') (off := n - 32 + 16) fun j h1 h2 => h j (decide_eq_false (by omega)),
    fr0_congr (Q := P') fun j h1 h2 => h j (decide_eq_false (by omega)), fr1_congr (Q := P') fun j h1 h2 => h j (decide_eq_false (by omega)),
    Aez.xsum_congr (g := fun j => blk P' (32 * j + 16)) _ fun k hk => Aez.blk_congr fun j h1 h2 => h j (decide_eq_false (by omega))]

theorem free4 (h32 : 32 ≤ n) : Free (ly n) (g4 R c d n) := fun P P' h i hi => by
  unfold g4
  rw [Aez.blk_congr fun j h1 h2 => h j (decide_eq_false (by omega))]

theorem free5 : Free (be n) (g5 R c n) := fun P P' h i hi => by
  unfold g5
  rw [Aez.blk_congr (g := P') (off := n - 32) fun j h1 h2 => h j (decide_eq_false (by omega)),
    Aez.blk_congr (g := P') (off := n - 32 + 16) fun j h1 h2 => h j (decide_eq_false (by omega))]

theorem free6 (h32 : 32 ≤ n) : Free (lx n) (g6 R c d n) := fun P P' h i hi => by
  unfold g6
  rw [Aez.blk_congr fun j h1 h2 => h j (decide_eq_false (by omega))]

theorem free7 (h32 : 32 ≤ n) : Free (ly n) (g7 R c t d n) := fun P P' h i hi => by
  obtain ⟨e1, e2, e3⟩ := nums h32
  unfold g7
  rw [Aez.blk_congr (g := P') (off := n - 32) fun j h1 h2 => h j (decide_eq_false (by omega)),
    fr0_congr (Q := P') fun j h1 h2 => h j (decide_eq_false (by omega)), fr1_congr (Q := P') fun j h1 h2 => h j (decide_eq_false (by omega)),
    Aez.xsum_congr (g := fun j => blk P' (32 * j)) _ fun k hk => Aez.blk_congr fun j h1 h2 => h j (decide_eq_false (by omega))]

theorem free8 : Free (ev n) (g8 R c) := fun P P' h i hi => by
  unfold g8
  rw [Aez.blk_congr fun j h1 h2 => h j (decide_eq_false (by omega))]

theorem free9 : Free (od n) (g9 R c n) := fun P P' h i hi => by
  unfold g9
  rw [Aez.blk_congr fun j h1 h2 => h j (decide_eq_false (by omega))]

theorem freeA (h32 : 32 ≤ n) : Free (fst n) gA := fun P P' h i hi => by
  obtain ⟨e1, e2, e3⟩ := nums h32
  have := of_decide_eq_true hi
  exact h _ (decide_eq_false (by omega))

theorem freeB (h32 : 32 ≤ n) : Free (snd n) gB := fun P P' h i hi => by
  obtain ⟨e1, e2, e3⟩ := nums h32
  have := of_decide_eq_true hi
  exact h _ (decide_eq_false (by omega))

theorem out_ev (h32 : 32 ≤ n) (i : Nat) (h : n ≤ i) : ev n i = false := by
  obtain ⟨e1, e2, e3⟩ := nums h32
  exact decide_eq_false (by omega)
theorem out_od (h32 : 32 ≤ n) (i : Nat) (h : n ≤ i) : od n i = false := by
  obtain ⟨e1, e2, e3⟩ := nums h32
  exact decide_eq_false (by omega)
theorem out_lx (i : Nat) (h : n ≤ i) : lx n i = false := decide_eq_false (by omega)
theorem out_ly (i : Nat) (h : n ≤ i) : ly n i = false := decide_eq_false (by omega)
theorem out_be (i : Nat) (h : n ≤ i) : be n i = false := decide_eq_false (by omega)
theorem out_fst (h32 : 32 ≤ n) (i : Nat) (h : n ≤ i) : fst n i = false := by
  obtain ⟨e1, e2, e3⟩ := nums h32
  exact decide_eq_false (by omega)
theorem out_snd (h32 : 32 ≤ n) (i : Nat) (h : n ≤ i) : snd n i = false := by
  obtain ⟨e1, e2, e3⟩ := nums h32
  exact decide_eq_false (by omega)

/-- An even permutation that does all steps. -/
theorem exists_even (h32 : 32 ≤ n) :
    ∃ π : Equiv.Perm (Avg.Block n), Equiv.Perm.sign π = 1 ∧ ∀ b, rd (π b) = swapF n (nine R c t d n (rd b)) := by
  let s1 := step (n := n) (free1 R c) (out_ev h32)
  let s2 := step (n := n) (free2 R c) (out_od h32)
  let s3 := step (n := n) (free3 R c t d h32) out_lx
  let s4 := step (n := n) (free4 R c d h32) out_ly
  let s5 := step (n := n) (free5 R c) out_be
  let s6 := step (n := n) (free6 R c d h32) out_lx
  let s7 := step (n := n) (free7 R c t d h32) out_ly
  let s8 := step (n := n) (free8 R c) (out_ev h32)
  let s9 := step (n := n) (free9 R c) (out_od h32)
  let sA := step (n := n) (freeA h32) (out_fst h32)
  let sB := step (n := n) (freeB h32) (out_snd h32)
  refine ⟨sA * (sB * (sA * (s9 * (s8 * (s7 * (s6 * (s5 * (s4 * (s3 * (s2 * s1)))))))))), ?_, fun b => ?_⟩
  · simp only [Equiv.Perm.sign_mul, s1, s2, s3, s4, s5, s6, s7, s8, s9, sA, sB, step_even, mul_one]
  · simp only [Equiv.Perm.mul_apply, s1, s2, s3, s4, s5, s6, s7, s8, s9, sA, sB, rd_step, nine, swapF]

/-! ## What the steps compute -/

theorem xor_back (x y : UInt8) : y ^^^ (x ^^^ y) = x := by rw [UInt8.xor_comm x y, ← UInt8.xor_assoc, UInt8.xor_self, UInt8.zero_xor]

theorem swap_on (h32 : 32 ≤ n) (P : Nat → UInt8) {i : Nat} (h : fst n i = true) : swapF n P i = P (i + 16) ∧ swapF n P (i + 16) = P i := by
  obtain ⟨e1, e2, e3⟩ := nums h32
  have hi := of_decide_eq_true h
  have h1 : fst n (i + 16) = false := decide_eq_false (by omega)
  have h2 : snd n i = false := decide_eq_false (by omega)
  have h3 : snd n (i + 16) = true := decide_eq_true (by omega)
  unfold swapF
  rw [at_on h, at_off h1, at_off h2, at_on h3, at_on h, at_off h1]
  unfold gA gB
  rw [at_on h3, Nat.add_sub_cancel, at_off h1, at_on h]
  show P i ^^^ P (i + 16) ^^^ (P (i + 16) ^^^ (P i ^^^ P (i + 16))) = P (i + 16) ∧ P (i + 16) ^^^ (P i ^^^ P (i + 16)) = P i
  exact ⟨xor_back _ _, xor_back _ _⟩

theorem swap_off (P : Nat → UInt8) {i : Nat} (h : fst n i = false) (h' : snd n i = false) : swapF n P i = P i := by
  unfold swapF
  rw [at_off h, at_off h', at_off h]

/-- The fragments after the fifth step. -/
def pad (s : Aez.Block) (i : Nat) : UInt8 :=
  if i - initN n < 16 then byteOf (aes R c s c.J2) (i - initN n) else byteOf (aes R c s (bx c.J2 c.J0)) (i - initN n - 16)

theorem byteOf_bx (a b : Aez.Block) (i : Nat) : byteOf (bx a b) i = byteOf a i ^^^ byteOf b i := rfl

theorem frag0 {s : Aez.Block} {P Q : Nat → UInt8} (h : ∀ i, initN n ≤ i → i < initN n + fragN n → Q i = P i ^^^ pad (n := n) R c s i) :
    fr0 n Q = fo0 R c n s (fr0 n P) := by
  unfold fr0 fo0
  by_cases h16 : fragN n ≥ 16
  · rw [if_pos h16, if_pos h16, if_pos h16]
    funext k
    simp only [blk, bx]
    rw [h _ (by omega) (by omega)]
    unfold pad
    rw [if_pos (by omega), show initN n + k.1 - initN n = k.1 by omega, Aez.byteOf_of_lt _ k.2]
  · rw [if_neg h16, if_neg h16, if_neg h16]
    by_cases h0 : fragN n ≠ 0
    · rw [if_pos h0, if_pos h0, if_pos h0]
      refine Aez.ozp_congr fun k hk => ?_
      simp only [blk, bx, ozp, hk, if_true]
      rw [h _ (by omega) (by omega)]
      unfold pad
      rw [if_pos (by omega), show initN n + k.1 - initN n = k.1 by omega, Aez.byteOf_of_lt _ k.2]
    · rw [if_neg h0, if_neg h0]

theorem frag1 {s : Aez.Block} {P Q : Nat → UInt8} (h : ∀ i, initN n ≤ i → i < initN n + fragN n → Q i = P i ^^^ pad (n := n) R c s i) :
    fr1 n Q = fo1 R c n s (fr1 n P) := by
  unfold fr1 fo1
  by_cases h16 : fragN n ≥ 16
  · rw [if_pos h16, if_pos h16, if_pos h16]
    refine Aez.ozp_congr fun k hk => ?_
    simp only [blk, bx, ozp, hk, if_true]
    rw [h _ (by omega) (by omega)]
    unfold pad
    rw [if_neg (by omega), show initN n + 16 + k.1 - initN n - 16 = k.1 by omega, Aez.byteOf_of_lt _ k.2]
  · rw [if_neg h16, if_neg h16]

/-- The bytes of the fragments. -/
theorem frag_byte (h32 : 32 ≤ n) (s : Aez.Block) (P : Nat → UInt8) {i : Nat} (h1 : initN n ≤ i) (h2 : i < initN n + fragN n) :
    (if i - initN n < 16 then byteOf (fo0 R c n s (fr0 n P)) (i - initN n) else byteOf (fo1 R c n s (fr1 n P)) (i - initN n - 16)) =
      P i ^^^ pad (n := n) R c s i := by
  obtain ⟨e1, e2, e3⟩ := nums h32
  unfold pad fr0 fo0 fr1 fo1
  by_cases hi : i - initN n < 16
  · rw [if_pos hi, if_pos hi]
    by_cases h16 : fragN n ≥ 16
    · rw [if_pos h16, if_pos h16, byteOf_bx, Aez.blk_byteOf P _ i h1 (by omega)]
    · rw [if_neg h16, if_pos (by omega), if_neg h16, if_pos (by omega), Aez.byteOf_of_lt _ hi, Aez.byteOf_of_lt _ hi]
      simp only [ozp, bx, blk]
      rw [if_pos (by omega), if_pos (by omega), show initN n + (i - initN n) = i by omega]
  · rw [if_neg hi, if_neg hi, if_pos (by omega), if_pos (by omega), Aez.byteOf_of_lt _ (by omega), Aez.byteOf_of_lt _ (by omega)]
    simp only [ozp, bx, blk]
    rw [if_pos (by omega), if_pos (by omega), show initN n + 16 + (i - initN n - 16) = i by omega]

/-- What the first nine steps compute. -/
theorem nine_ok (h32 : 32 ≤ n) (P : Nat → UInt8) :
    (∀ j, j < initN n / 32 →
      blk (nine R c t d n P) (32 * j) = C1 R c (offs c (initN n)) (vals R c t d n P).s (W R c (offs c (initN n)) P) (X R c (offs c (initN n)) P) j ∧
      blk (nine R c t d n P) (32 * j + 16) = C0 R c (offs c (initN n)) (vals R c t d n P).s (W R c (offs c (initN n)) P) (X R c (offs c (initN n)) P) j) ∧
    blk (nine R c t d n P) (n - 32) = (vals R c t d n P).f0'' ∧
    blk (nine R c t d n P) (n - 32 + 16) = bx (bx (vals R c t d n P).f1'' (vals R c t d n P).y) t ∧
    ∀ i, initN n ≤ i → i < initN n + fragN n → nine R c t d n P i = P i ^^^ pad (n := n) R c (vals R c t d n P).s i := by
  obtain ⟨e1, e2, e3⟩ := nums h32
  have hT : ∀ {p : Prop} [Decidable p], p → decide p = true := fun h => decide_eq_true h
  have hF : ∀ {p : Prop} [Decidable p], ¬p → decide p = false := fun h => decide_eq_false h
  obtain ⟨v, hv⟩ : ∃ v, v = vals R c t d n P := ⟨_, rfl⟩
  obtain ⟨off, hoff⟩ : ∃ o, o = offs c (initN n) := ⟨_, rfl⟩
  obtain ⟨x0, hx0⟩ : ∃ x, x = blk P (n - 32) := ⟨_, rfl⟩
  obtain ⟨y0, hy0⟩ : ∃ x, x = blk P (n - 32 + 16) := ⟨_, rfl⟩
  have vx : v.x = fx R c n (fr0 n P) (fr1 n P) (xsum (X R c off P) (initN n / 32)) := by rw [hv, hoff]; rfl
  have vf0 : v.f0' = bx (F R c (bx y0 (c.Id d))) (bx (bx x0 v.x) t) := by rw [hv, hx0, hy0]; rfl
  have vf1 : v.f1' = bx y0 (aes R c v.f0' (c.Jd d)) := by rw [hv, hy0]; rfl
  have vs : v.s = bx v.f0' v.f1' := by rw [hv]; rfl
  have vg0 : v.f0'' = bx v.f0' (aes R c v.f1' (c.Jd (!d))) := by rw [hv]; rfl
  have vg1 : v.f1'' = bx (F R c (bx v.f0'' (c.Id (!d)))) v.f1' := by rw [hv]; rfl
  have vy : v.y = fx R c n (fo0 R c n v.s (fr0 n P)) (fo1 R c n v.s (fr1 n P)) (xsum (T R c off v.s (W R c off P)) (initN n / 32)) := by
    rw [hv, hoff]; rfl
  rw [← hv, ← hoff]
  unfold nine
  -- 1
  obtain ⟨P1, h1⟩ : ∃ x, x = stepF (ev n) (g1 R c n) P := ⟨_, rfl⟩
  rw [← h1]
  have a1 : ∀ j, j < initN n / 32 → blk P1 (32 * j) = W R c off P j := fun j hj => by
    rw [h1, blk_on (V := F R c (bx (blk P (32 * j + 16)) (off j))) (fun k hk => hT (by omega)) fun k hk => by
      unfold g1; rw [show (32 * j + k) / 32 = j by omega, ← hoff]; exact byteOf_mod _ (by omega), W, Aez.bx_comm]
  have b1 : ∀ j, j < initN n / 32 → blk P1 (32 * j + 16) = blk P (32 * j + 16) := fun j hj => by
    rw [h1, blk_off fun k hk => hF (by omega)]
  have x1 : blk P1 (n - 32) = x0 := by rw [h1, blk_off fun k hk => hF (by omega), hx0]
  have y1 : blk P1 (n - 32 + 16) = y0 := by rw [h1, blk_off fun k hk => hF (by omega), hy0]
  have f1 : ∀ i, initN n ≤ i → i < initN n + fragN n → P1 i = P i := fun i _ _ => by rw [h1, at_off (hF (by omega))]
  clear h1
  -- 2
  obtain ⟨P2, h2⟩ : ∃ x, x = stepF (od n) (g2 R c) P1 := ⟨_, rfl⟩
  rw [← h2]
  have a2 : ∀ j, j < initN n / 32 → blk P2 (32 * j) = W R c off P j := fun j hj => by
    rw [h2, blk_off fun k hk => hF (by omega), a1 j hj]
  have b2 : ∀ j, j < initN n / 32 → blk P2 (32 * j + 16) = X R c off P j := fun j hj => by
    rw [h2, blk_on (V := F R c (W R c off P j)) (fun k hk => hT (by omega)) fun k hk => by
      unfold g2; rw [show (32 * j + 16 + k) / 32 = j by omega, a1 j hj]; exact byteOf_mod _ (by omega), b1 j hj, X, Aez.bx_comm]
  have x2 : blk P2 (n - 32) = x0 := by rw [h2, blk_off fun k hk => hF (by omega), x1]
  have y2 : blk P2 (n - 32 + 16) = y0 := by rw [h2, blk_off fun k hk => hF (by omega), y1]
  have f2 : ∀ i, initN n ≤ i → i < initN n + fragN n → P2 i = P i := fun i u w => by rw [h2, at_off (hF (by omega)), f1 i u w]
  clear h2 a1 b1 x1 y1 f1
  -- 3
  obtain ⟨P3, h3⟩ : ∃ x, x = stepF (lx n) (g3 R c t d n) P2 := ⟨_, rfl⟩
  rw [← h3]
  have a3 : ∀ j, j < initN n / 32 → blk P3 (32 * j) = W R c off P j := fun j hj => by
    rw [h3, blk_off fun k hk => hF (by omega), a2 j hj]
  have b3 : ∀ j, j < initN n / 32 → blk P3 (32 * j + 16) = X R c off P j := fun j hj => by
    rw [h3, blk_off fun k hk => hF (by omega), b2 j hj]
  have x3 : blk P3 (n - 32) = v.f0' := by
    rw [h3, blk_on (V := bx (bx v.x t) (F R c (bx y0 (c.Id d)))) (fun k hk => hT (by omega)) fun k hk => by
      unfold g3; rw [fr0_congr f2, fr1_congr f2, Aez.xsum_congr _ b2, y2, ← vx, show n - 32 + k - (n - 32) = k by omega], x2, vf0]
    simp only [Aez.bx_comm, Aez.bx_left_comm, Aez.bx_assoc]
  have y3 : blk P3 (n - 32 + 16) = y0 := by rw [h3, blk_off fun k hk => hF (by omega), y2]
  have f3 : ∀ i, initN n ≤ i → i < initN n + fragN n → P3 i = P i := fun i u w => by rw [h3, at_off (hF (by omega)), f2 i u w]
  clear h3 a2 b2 x2 y2 f2
  -- 4
  obtain ⟨P4, h4⟩ : ∃ x, x = stepF (ly n) (g4 R c d n) P3 := ⟨_, rfl⟩
  rw [← h4]
  have a4 : ∀ j, j < initN n / 32 → blk P4 (32 * j) = W R c off P j := fun j hj => by
    rw [h4, blk_off fun k hk => hF (by omega), a3 j hj]
  have b4 : ∀ j, j < initN n / 32 → blk P4 (32 * j + 16) = X R c off P j := fun j hj => by
    rw [h4, blk_off fun k hk => hF (by omega), b3 j hj]
  have x4 : blk P4 (n - 32) = v.f0' := by rw [h4, blk_off fun k hk => hF (by omega), x3]
  have y4 : blk P4 (n - 32 + 16) = v.f1' := by
    rw [h4, blk_on (V := aes R c v.f0' (c.Jd d)) (fun k hk => hT (by omega)) fun k hk => by
      unfold g4; rw [x3, show n - 32 + 16 + k - (n - 32 + 16) = k by omega], y3, vf1]
  have f4 : ∀ i, initN n ≤ i → i < initN n + fragN n → P4 i = P i := fun i u w => by rw [h4, at_off (hF (by omega)), f3 i u w]
  clear h4 a3 b3 x3 y3 f3
  -- 5
  obtain ⟨P5, h5⟩ : ∃ x, x = stepF (be n) (g5 R c n) P4 := ⟨_, rfl⟩
  rw [← h5]
  have a5 : ∀ j, j < initN n / 32 → blk P5 (32 * j) = T R c off v.s (W R c off P) j := fun j hj => by
    rw [h5, blk_on (V := Aez.G R c (bx v.s (off j))) (fun k hk => hT (by omega)) fun k hk => by
      simp only [g5]; rw [if_pos (by omega), x4, y4, ← vs, show (32 * j + k) / 32 = j by omega, ← hoff]; exact byteOf_mod _ (by omega), a4 j hj, T]
  have b5 : ∀ j, j < initN n / 32 → blk P5 (32 * j + 16) = T R c off v.s (X R c off P) j := fun j hj => by
    rw [h5, blk_on (V := Aez.G R c (bx v.s (off j))) (fun k hk => hT (by omega)) fun k hk => by
      simp only [g5]; rw [if_pos (by omega), x4, y4, ← vs, show (32 * j + 16 + k) / 32 = j by omega, ← hoff]; exact byteOf_mod _ (by omega),
      b4 j hj, T]
  have x5 : blk P5 (n - 32) = v.f0' := by rw [h5, blk_off fun k hk => hF (by omega), x4]
  have y5 : blk P5 (n - 32 + 16) = v.f1' := by rw [h5, blk_off fun k hk => hF (by omega), y4]
  have f5 : ∀ i, initN n ≤ i → i < initN n + fragN n → P5 i = P i ^^^ pad (n := n) R c v.s i := fun i u w => by
    rw [h5, at_on (hT (by omega)), f4 i u w]
    simp only [g5]
    rw [if_neg (by omega), x4, y4, ← vs]
    rfl
  clear h5 a4 b4 x4 y4 f4
  -- 6
  obtain ⟨P6, h6⟩ : ∃ x, x = stepF (lx n) (g6 R c d n) P5 := ⟨_, rfl⟩
  rw [← h6]
  have a6 : ∀ j, j < initN n / 32 → blk P6 (32 * j) = T R c off v.s (W R c off P) j := fun j hj => by
    rw [h6, blk_off fun k hk => hF (by omega), a5 j hj]
  have b6 : ∀ j, j < initN n / 32 → blk P6 (32 * j + 16) = T R c off v.s (X R c off P) j := fun j hj => by
    rw [h6, blk_off fun k hk => hF (by omega), b5 j hj]
  have x6 : blk P6 (n - 32) = v.f0'' := by
    rw [h6, blk_on (V := aes R c v.f1' (c.Jd (!d))) (fun k hk => hT (by omega)) fun k hk => by
      unfold g6; rw [y5, show n - 32 + k - (n - 32) = k by omega], x5, vg0]
  have y6 : blk P6 (n - 32 + 16) = v.f1' := by rw [h6, blk_off fun k hk => hF (by omega), y5]
  have f6 : ∀ i, initN n ≤ i → i < initN n + fragN n → P6 i = P i ^^^ pad (n := n) R c v.s i := fun i u w => by
    rw [h6, at_off (hF (by omega)), f5 i u w]
  clear h6 a5 b5 x5 y5 f5
  -- 7
  obtain ⟨P7, h7⟩ : ∃ x, x = stepF (ly n) (g7 R c t d n) P6 := ⟨_, rfl⟩
  rw [← h7]
  have a7 : ∀ j, j < initN n / 32 → blk P7 (32 * j) = T R c off v.s (W R c off P) j := fun j hj => by
    rw [h7, blk_off fun k hk => hF (by omega), a6 j hj]
  have b7 : ∀ j, j < initN n / 32 → blk P7 (32 * j + 16) = T R c off v.s (X R c off P) j := fun j hj => by
    rw [h7, blk_off fun k hk => hF (by omega), b6 j hj]
  have x7 : blk P7 (n - 32) = v.f0'' := by rw [h7, blk_off fun k hk => hF (by omega), x6]
  have y7 : blk P7 (n - 32 + 16) = bx (bx v.f1'' v.y) t := by
    rw [h7, blk_on (V := bx (bx v.y t) (F R c (bx v.f0'' (c.Id (!d))))) (fun k hk => hT (by omega)) fun k hk => by
      unfold g7
      rw [frag0 R c f6, frag1 R c f6, Aez.xsum_congr _ a6, x6, ← vy, show n - 32 + 16 + k - (n - 32 + 16) = k by omega], y6, vg1]
    simp only [Aez.bx_comm, Aez.bx_left_comm, Aez.bx_assoc]
  have f7 : ∀ i, initN n ≤ i → i < initN n + fragN n → P7 i = P i ^^^ pad (n := n) R c v.s i := fun i u w => by
    rw [h7, at_off (hF (by omega)), f6 i u w]
  clear h7 a6 b6 x6 y6 f6
  -- 8
  obtain ⟨P8, h8⟩ : ∃ x, x = stepF (ev n) (g8 R c) P7 := ⟨_, rfl⟩
  rw [← h8]
  have a8 : ∀ j, j < initN n / 32 → blk P8 (32 * j) = C1 R c off v.s (W R c off P) (X R c off P) j := fun j hj => by
    rw [h8, blk_on (V := F R c (T R c off v.s (X R c off P) j)) (fun k hk => hT (by omega)) fun k hk => by
      unfold g8; rw [show (32 * j + k) / 32 = j by omega, b7 j hj]; exact byteOf_mod _ (by omega), a7 j hj, C1, Aez.bx_comm]
  have b8 : ∀ j, j < initN n / 32 → blk P8 (32 * j + 16) = T R c off v.s (X R c off P) j := fun j hj => by
    rw [h8, blk_off fun k hk => hF (by omega), b7 j hj]
  have x8 : blk P8 (n - 32) = v.f0'' := by rw [h8, blk_off fun k hk => hF (by omega), x7]
  have y8 : blk P8 (n - 32 + 16) = bx (bx v.f1'' v.y) t := by rw [h8, blk_off fun k hk => hF (by omega), y7]
  have f8 : ∀ i, initN n ≤ i → i < initN n + fragN n → P8 i = P i ^^^ pad (n := n) R c v.s i := fun i u w => by
    rw [h8, at_off (hF (by omega)), f7 i u w]
  clear h8 a7 b7 x7 y7 f7
  -- 9
  refine ⟨fun j hj => ⟨?_, ?_⟩, ?_, ?_, fun i u w => ?_⟩
  · rw [blk_off fun k hk => hF (by omega), a8 j hj]
  · rw [blk_on (V := F R c (bx (C1 R c off v.s (W R c off P) (X R c off P) j) (off j))) (fun k hk => hT (by omega)) fun k hk => by
      unfold g9; rw [show (32 * j + 16 + k) / 32 = j by omega, a8 j hj, ← hoff]; exact byteOf_mod _ (by omega), b8 j hj, C0, Aez.bx_comm]
  · rw [blk_off fun k hk => hF (by omega), x8]
  · rw [blk_off fun k hk => hF (by omega), y8]
  · rw [at_off (hF (by omega)), f8 i u w]

/-- The steps compute AEZ-core. -/
theorem steps_core (h32 : 32 ≤ n) (P : Nat → UInt8) (i : Nat) (hi : i < n) : swapF n (nine R c t d n P) i = coreFn R c t d n P i := by
  obtain ⟨e1, e2, e3⟩ := nums h32
  obtain ⟨hp, hx, hy, hf⟩ := nine_ok R c t d h32 P
  obtain ⟨Q, hQ⟩ : ∃ Q, Q = nine R c t d n P := ⟨_, rfl⟩
  rw [← hQ] at hp hx hy hf ⊢
  simp only [coreFn]
  by_cases h1 : i < initN n
  · rw [if_pos h1]
    by_cases h2 : i % 32 < 16
    · rw [if_pos h2, (swap_on h32 Q (decide_eq_true (by omega))).1, ← (hp (i / 32) (by omega)).2,
        show i % 32 = i + 16 - (32 * (i / 32) + 16) by omega, Aez.blk_byteOf _ _ _ (by omega) (by omega)]
    · have e : i = i - 16 + 16 := by omega
      have := (swap_on h32 Q (i := i - 16) (decide_eq_true (by omega))).2
      rw [← e] at this
      rw [if_neg h2, this, ← (hp (i / 32) (by omega)).1, show i % 32 - 16 = i - 16 - 32 * (i / 32) by omega,
        Aez.blk_byteOf _ _ _ (by omega) (by omega)]
  · rw [if_neg h1]
    by_cases h2 : i < initN n + fragN n
    · rw [if_pos h2, frag_byte R c h32 _ P (by omega) h2, swap_off Q (decide_eq_false (by omega)) (decide_eq_false (by omega)), hf i (by omega) h2]
    · rw [if_neg h2]
      by_cases h3 : i < n - 16
      · rw [if_pos h3, (swap_on h32 Q (decide_eq_true (by omega))).1, ← hy, show i - (n - 32) = i + 16 - (n - 32 + 16) by omega,
          Aez.blk_byteOf _ _ _ (by omega) (by omega)]
      · have e : i = i - 16 + 16 := by omega
        have := (swap_on h32 Q (i := i - 16) (decide_eq_true (by omega))).2
        rw [← e] at this
        rw [if_neg h3, this, ← hx, show i - (n - 16) = i - 16 - (n - 32) by omega, Aez.blk_byteOf _ _ _ (by omega) (by omega)]

end

end Verif.AezParity.Long
