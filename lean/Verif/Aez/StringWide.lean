import Verif.Aez.LemmasWide

/-!
# AEZ-core with any functions is inverted by exchanging two of them
-/

namespace Verif.AezWide

open Verif Verif.Avg Verif.Oracle Verif.AezRandom

/-! ## The parts of a string -/

theorem flat_length {f : Nat → Bytes} (h : ∀ i, (f i).length = 32) (m : Nat) : ((List.range m).flatMap f).length = 32 * m := by
  induction m with
  | zero => rfl
  | succ m ih =>
    rw [List.range_succ, List.flatMap_append, List.length_append, ih, List.flatMap_singleton, h]
    ring

theorem flat_drop {f : Nat → Bytes} (h : ∀ i, (f i).length = 32) {m i : Nat} (hi : i < m) (rest : Bytes) :
    ∃ t, ((List.range m).flatMap f ++ rest).drop (32 * i) = f i ++ t := by
  induction m generalizing rest with
  | zero => omega
  | succ m ih =>
    rw [List.range_succ, List.flatMap_append, List.flatMap_singleton, List.append_assoc]
    by_cases h' : i < m
    · exact ih h' _
    · have : i = m := by omega
      subst this
      refine ⟨rest, ?_⟩
      rw [List.drop_append_of_le_length (le_of_eq (flat_length h i).symm), List.drop_of_length_le (le_of_eq (flat_length h i)), List.nil_append]

section
variable {m : Nat} {p : Nat → Nat × Nat} {u v : Bytes} {x y : Nat}

theorem asm_eq : asm m p u v x y = (List.range m).flatMap (fun i => beBytes 16 (p (i + 1)).1 ++ beBytes 16 (p (i + 1)).2) ++
    (u ++ (v ++ (beBytes 16 x ++ beBytes 16 y))) := by
  unfold asm
  simp only [List.append_assoc]

theorem pair_length (i : Nat) : (beBytes 16 (p (i + 1)).1 ++ beBytes 16 (p (i + 1)).2).length = 32 := by
  rw [List.length_append, beBytes_len, beBytes_len]

theorem asm_length : (asm m p u v x y).length = 32 * m + (u.length + v.length) + 32 := by
  rw [asm_eq]
  simp only [List.length_append, flat_length (f := fun i => beBytes 16 (p (i + 1)).1 ++ beBytes 16 (p (i + 1)).2) pair_length, beBytes_len]
  omega

theorem asm_first (hp : ∀ i, (p i).1 < 2 ^ 128) {i : Nat} (h1 : 1 ≤ i) (h2 : i ≤ m) : AezSpec.block (asm m p u v x y) (32 * (i - 1)) = (p i).1 := by
  obtain ⟨t, ht⟩ := flat_drop (f := fun i => beBytes 16 (p (i + 1)).1 ++ beBytes 16 (p (i + 1)).2) pair_length (m := m) (i := i - 1) (by omega)
    (u ++ (v ++ (beBytes 16 x ++ beBytes 16 y)))
  unfold AezSpec.block
  rw [asm_eq, ht, show i - 1 + 1 = i by omega, List.append_assoc, List.take_left' (beBytes_len _ _), beNat_beBytes_of_lt]
  rw [pow_256]; exact hp i

theorem asm_second (hp : ∀ i, (p i).2 < 2 ^ 128) {i : Nat} (h1 : 1 ≤ i) (h2 : i ≤ m) : AezSpec.block (asm m p u v x y) (32 * (i - 1) + 16) = (p i).2 := by
  obtain ⟨t, ht⟩ := flat_drop (f := fun i => beBytes 16 (p (i + 1)).1 ++ beBytes 16 (p (i + 1)).2) pair_length (m := m) (i := i - 1) (by omega)
    (u ++ (v ++ (beBytes 16 x ++ beBytes 16 y)))
  unfold AezSpec.block
  rw [asm_eq, ← List.drop_drop, ht, show i - 1 + 1 = i by omega, List.append_assoc, List.drop_left' (beBytes_len _ _), List.take_left' (beBytes_len _ _),
    beNat_beBytes_of_lt]
  rw [pow_256]; exact hp i

theorem asm_drop : (asm m p u v x y).drop (32 * m) = u ++ (v ++ (beBytes 16 x ++ beBytes 16 y)) := by
  rw [asm_eq]
  exact List.drop_left' (flat_length pair_length m)

variable {r : Nat} (hr : r < 32) (hu : u.length = min 16 r) (hv : v.length = r - 16)
include hr hu hv

theorem asm_length' : (asm m p u v x y).length = 32 * m + r + 32 := by
  rw [asm_length, hu, hv]
  omega

theorem asm_pairs : AezSpec.pairs (asm m p u v x y) = m := by
  unfold AezSpec.pairs
  rw [asm_length' hr hu hv]
  omega

theorem asm_mod : (asm m p u v x y).length % 32 = r := by
  rw [asm_length' hr hu hv]
  omega

theorem asm_u : AezSpec.uPart (asm m p u v x y) = u := by
  unfold AezSpec.uPart
  rw [asm_pairs hr hu hv, asm_mod hr hu hv, asm_drop]
  exact List.take_left' hu

theorem asm_v : AezSpec.vPart (asm m p u v x y) = v := by
  unfold AezSpec.vPart
  rw [asm_pairs hr hu hv, asm_mod hr hu hv, ← List.drop_drop, asm_drop]
  by_cases h : r ≤ 16
  · have : v = [] := List.eq_nil_of_length_eq_zero (by omega)
    rw [this, show r - 16 = 0 by omega, List.take_zero]
  · rw [List.drop_left' (by omega)]
    exact List.take_left' hv

theorem asm_x (hx : x < 2 ^ 128) : AezSpec.block (asm m p u v x y) ((asm m p u v x y).length - 32) = x := by
  unfold AezSpec.block
  rw [asm_length' hr hu hv, show 32 * m + r + 32 - 32 = 32 * m + (u.length + v.length) by omega, ← List.drop_drop, asm_drop, ← List.append_assoc,
    List.drop_left' (List.length_append), List.take_left' (beBytes_len _ _), beNat_beBytes_of_lt]
  rw [pow_256]; exact hx

theorem asm_y (hy : y < 2 ^ 128) : AezSpec.block (asm m p u v x y) ((asm m p u v x y).length - 16) = y := by
  unfold AezSpec.block
  rw [asm_length' hr hu hv, show 32 * m + r + 32 - 16 = 32 * m + (u.length + v.length + 16) by omega, ← List.drop_drop, asm_drop, ← List.append_assoc,
    ← List.append_assoc, List.drop_left' (by rw [List.length_append, List.length_append, beBytes_len]), List.take_of_length_le (by rw [beBytes_len]),
    beNat_beBytes_of_lt]
  rw [pow_256]; exact hy

end

theorem beBytes_block {M : Bytes} {o : Nat} (h : o + 16 ≤ M.length) : beBytes 16 (AezSpec.block M o) = (M.drop o).take 16 := by
  unfold AezSpec.block
  exact beBytes_beNat'' (by rw [List.length_take, List.length_drop]; omega)

theorem block_lt (M : Bytes) (o : Nat) : AezSpec.block M o < 2 ^ 128 := by
  unfold AezSpec.block
  have h := beNat_lt ((M.drop o).take 16)
  refine lt_of_lt_of_le h ?_
  rw [pow_256]
  exact Nat.pow_le_pow_right (by decide) (by have := List.length_take_le 16 (M.drop o); omega)

theorem uPart_len {M : Bytes} (h : 32 ≤ M.length) : (AezSpec.uPart M).length = min 16 (M.length % 32) := by
  unfold AezSpec.uPart AezSpec.pairs
  rw [List.length_take, List.length_drop]
  omega

theorem vPart_len {M : Bytes} (h : 32 ≤ M.length) : (AezSpec.vPart M).length = M.length % 32 - 16 := by
  unfold AezSpec.vPart AezSpec.pairs
  rw [List.length_take, List.length_drop]
  omega

/-- A string is made of its parts. -/
theorem asm_parts {M : Bytes} (h : 32 ≤ M.length) :
    asm (AezSpec.pairs M) (fun i => (AezSpec.block M (32 * (i - 1)), AezSpec.block M (32 * (i - 1) + 16))) (AezSpec.uPart M) (AezSpec.vPart M)
      (AezSpec.block M (M.length - 32)) (AezSpec.block M (M.length - 16)) = M := by
  have hm : 32 * AezSpec.pairs M + M.length % 32 + 32 = M.length := by unfold AezSpec.pairs; omega
  have hf : ∀ m, 32 * m ≤ M.length →
      (List.range m).flatMap (fun i => beBytes 16 (AezSpec.block M (32 * (i + 1 - 1))) ++ beBytes 16 (AezSpec.block M (32 * (i + 1 - 1) + 16))) = M.take (32 * m) := by
    intro m hm
    induction m with
    | zero => rfl
    | succ m ih =>
      rw [List.range_succ, List.flatMap_append, List.flatMap_singleton, ih (by omega), show m + 1 - 1 = m by omega, beBytes_block (by omega),
        beBytes_block (by omega), show 32 * (m + 1) = 32 * m + (16 + 16) by ring, List.take_add, List.take_add, List.drop_drop]
  unfold asm
  simp only
  rw [hf _ (by omega), beBytes_block (by omega), beBytes_block (by omega)]
  unfold AezSpec.uPart AezSpec.vPart
  rw [← List.take_add]
  have hv : M.take (32 * AezSpec.pairs M + min 16 (M.length % 32)) ++ (M.drop (32 * AezSpec.pairs M + 16)).take (M.length % 32 - 16) =
      M.take (M.length - 32) := by
    by_cases hr : M.length % 32 ≤ 16
    · rw [show M.length % 32 - 16 = 0 by omega, List.take_zero, List.append_nil]
      congr 1
      omega
    · rw [show min 16 (M.length % 32) = 16 by omega, ← List.take_add]
      congr 1
      omega
  rw [hv, ← List.take_add]
  conv_rhs => rw [← List.take_append_drop (M.length - 32 + 16) M]
  rw [show M.length - 32 + 16 = M.length - 16 by omega, List.take_of_length_le (l := M.drop (M.length - 16)) (by rw [List.length_drop]; omega)]

theorem xorBytes_len {u : Bytes} (h : u.length ≤ 16) (x : Nat) : (AezSpec.xorBytes u (beBytes 16 x)).length = u.length := by
  unfold AezSpec.xorBytes
  rw [List.length_zipWith, beBytes_len]
  omega

theorem xorBytes_twice : ∀ {u w : Bytes}, u.length ≤ w.length → AezSpec.xorBytes (AezSpec.xorBytes u w) w = u
  | [], _, _ => rfl
  | a :: u, [], h => by simp at h
  | a :: u, b :: w, h => by
    show ((a ^^^ b) ^^^ b) :: AezSpec.xorBytes (AezSpec.xorBytes u w) w = a :: u
    rw [xorBytes_twice (by simpa using h), UInt8.xor_assoc, UInt8.xor_self, UInt8.xor_zero]

/-! ## The parts of the result -/

theorem xor_cancel (a b : Nat) : a ^^^ b ^^^ b = a := by rw [Nat.xor_assoc, Nat.xor_self, Nat.xor_zero]

theorem xor_left (a b c : Nat) : a ^^^ (b ^^^ c) = b ^^^ (a ^^^ c) := by rw [← Nat.xor_assoc, Nat.xor_comm a, Nat.xor_assoc]

section
variable {T : Nat × Nat → Nat} (hT : ∀ a, T a < 2 ^ 128)

theorem xorSum_lt {f : Nat → Nat} (h : ∀ i, f i < 2 ^ 128) : ∀ m, AezSpec.xorSum f m < 2 ^ 128
  | 0 => Nat.two_pow_pos 128
  | m + 1 => Nat.xor_lt_two_pow (xorSum_lt h m) (h _)

include hT

theorem wT_lt (M : Bytes) (i : Nat) : wT T M i < 2 ^ 128 := Nat.xor_lt_two_pow (block_lt _ _) (hT _)
theorem xT_lt (M : Bytes) (i : Nat) : xT T M i < 2 ^ 128 := Nat.xor_lt_two_pow (block_lt _ _) (hT _)
theorem uvT_lt (n : Nat) (u v : Bytes) : uvT T n u v < 2 ^ 128 := by
  unfold uvT
  split
  · exact Nat.two_pow_pos 128
  · split
    · exact hT _
    · exact Nat.xor_lt_two_pow (hT _) (hT _)
theorem sxT_lt (a : Nat) (M : Bytes) : sxT T a M < 2 ^ 128 :=
  Nat.xor_lt_two_pow (Nat.xor_lt_two_pow (block_lt _ _) (Nat.xor_lt_two_pow (xorSum_lt (xT_lt hT M) _) (uvT_lt hT _ _ _))) (hT _)
theorem syT_lt (a : Nat) (M : Bytes) : syT T a M < 2 ^ 128 := Nat.xor_lt_two_pow (block_lt _ _) (hT _)
theorem yT_lt (a : Nat) (M : Bytes) (i : Nat) : yT T a M i < 2 ^ 128 := Nat.xor_lt_two_pow (wT_lt hT _ _) (hT _)
theorem zT_lt (a : Nat) (M : Bytes) (i : Nat) : zT T a M i < 2 ^ 128 := Nat.xor_lt_two_pow (xT_lt hT _ _) (hT _)
theorem c1T_lt (a : Nat) (M : Bytes) (i : Nat) : c1T T a M i < 2 ^ 128 := Nat.xor_lt_two_pow (yT_lt hT _ _ _) (hT _)
theorem c0T_lt (a : Nat) (M : Bytes) (i : Nat) : c0T T a M i < 2 ^ 128 := Nat.xor_lt_two_pow (zT_lt hT _ _ _) (hT _)
theorem cyT_lt (a b : Nat) (M : Bytes) : cyT T a b M < 2 ^ 128 := Nat.xor_lt_two_pow (sxT_lt hT _ _) (hT _)
theorem cxT_lt (a b : Nat) (M : Bytes) : cxT T a b M < 2 ^ 128 :=
  Nat.xor_lt_two_pow (Nat.xor_lt_two_pow (syT_lt hT _ _) (Nat.xor_lt_two_pow (xorSum_lt (yT_lt hT a M) _) (uvT_lt hT _ _ _))) (hT _)

omit hT in
theorem cuT_len {M : Bytes} (h : 32 ≤ M.length) (a : Nat) : (cuT T a M).length = min 16 (M.length % 32) := by
  unfold cuT
  rw [xorBytes_len (by rw [uPart_len h]; omega), uPart_len h]
omit hT in
theorem cvT_len {M : Bytes} (h : 32 ≤ M.length) (a : Nat) : (cvT T a M).length = M.length % 32 - 16 := by
  unfold cvT
  rw [xorBytes_len (by rw [vPart_len h]; omega), vPart_len h]

omit hT in
theorem coreT_length (a b : Nat) {M : Bytes} (h : 32 ≤ M.length) : (coreT T a b M).length = M.length := by
  unfold coreT
  rw [asm_length' (r := M.length % 32) (Nat.mod_lt _ (by decide)) (cuT_len h a) (cvT_len h a)]
  unfold AezSpec.pairs
  omega

/-- Exchanging the roles of the two functions for the last two blocks inverts. -/
theorem core_core (a b : Nat) {M : Bytes} (h : 32 ≤ M.length) : coreT T b a (coreT T a b M) = M := by
  have hr : M.length % 32 < 32 := Nat.mod_lt _ (by decide)
  have hu := cuT_len (T := T) h a
  have hv := cvT_len (T := T) h a
  have p1 : AezSpec.pairs (coreT T a b M) = AezSpec.pairs M := asm_pairs hr hu hv
  have p2 : (coreT T a b M).length = M.length := coreT_length a b h
  have p3 : ∀ i, 1 ≤ i → i ≤ AezSpec.pairs M → AezSpec.block (coreT T a b M) (32 * (i - 1)) = c0T T a M i :=
    fun i h1 h2 => asm_first (p := fun i => (c0T T a M i, c1T T a M i)) (fun i => c0T_lt hT a M i) h1 h2
  have p4 : ∀ i, 1 ≤ i → i ≤ AezSpec.pairs M → AezSpec.block (coreT T a b M) (32 * (i - 1) + 16) = c1T T a M i :=
    fun i h1 h2 => asm_second (p := fun i => (c0T T a M i, c1T T a M i)) (fun i => c1T_lt hT a M i) h1 h2
  have p5 : AezSpec.uPart (coreT T a b M) = cuT T a M := asm_u hr hu hv
  have p6 : AezSpec.vPart (coreT T a b M) = cvT T a M := asm_v hr hu hv
  have p7 : AezSpec.block (coreT T a b M) ((coreT T a b M).length - 32) = cxT T a b M := asm_x hr hu hv (cxT_lt hT a b M)
  have p8 : AezSpec.block (coreT T a b M) ((coreT T a b M).length - 16) = cyT T a b M := asm_y hr hu hv (cyT_lt hT a b M)
  rw [p2] at p7 p8
  have w1 : ∀ i, 1 ≤ i → i ≤ AezSpec.pairs M → wT T (coreT T a b M) i = zT T a M i := by
    intro i h1 h2
    unfold wT
    rw [p3 i h1 h2, p4 i h1 h2]
    exact xor_cancel _ _
  have x1 : ∀ i, 1 ≤ i → i ≤ AezSpec.pairs M → xT T (coreT T a b M) i = yT T a M i := by
    intro i h1 h2
    unfold xT
    rw [w1 i h1 h2, p4 i h1 h2]
    exact xor_cancel _ _
  have s1 : sxT T b (coreT T a b M) = syT T a M := by
    unfold sxT
    rw [p1, p2, p5, p6, p7, p8, xorSum_congr x1]
    unfold cxT
    rw [Nat.xor_assoc (syT T a M ^^^ _), Nat.xor_comm (T _), ← Nat.xor_assoc (syT T a M ^^^ _), xor_cancel, xor_cancel]
  have s2 : syT T b (coreT T a b M) = sxT T a M := by
    unfold syT
    rw [p2, p8, s1]
    exact xor_cancel _ _
  have s3 : sT T b (coreT T a b M) = sT T a M := by
    unfold sT
    rw [s1, s2, Nat.xor_comm]
  have y1 : ∀ i, 1 ≤ i → i ≤ AezSpec.pairs M → yT T b (coreT T a b M) i = xT T M i := by
    intro i h1 h2
    unfold yT
    rw [w1 i h1 h2, s3]
    exact xor_cancel _ _
  have z1 : ∀ i, 1 ≤ i → i ≤ AezSpec.pairs M → zT T b (coreT T a b M) i = wT T M i := by
    intro i h1 h2
    unfold zT
    rw [x1 i h1 h2, s3]
    exact xor_cancel _ _
  have c1 : ∀ i, 1 ≤ i → i ≤ AezSpec.pairs M → c1T T b (coreT T a b M) i = AezSpec.block M (32 * (i - 1) + 16) := by
    intro i h1 h2
    unfold c1T
    rw [y1 i h1 h2, z1 i h1 h2]
    exact xor_cancel _ _
  have c0 : ∀ i, 1 ≤ i → i ≤ AezSpec.pairs M → c0T T b (coreT T a b M) i = AezSpec.block M (32 * (i - 1)) := by
    intro i h1 h2
    unfold c0T
    rw [c1 i h1 h2, z1 i h1 h2]
    exact xor_cancel _ _
  have cu : cuT T b (coreT T a b M) = AezSpec.uPart M := by
    unfold cuT
    rw [p5, s3]
    exact xorBytes_twice (by rw [uPart_len h, beBytes_len]; omega)
  have cv : cvT T b (coreT T a b M) = AezSpec.vPart M := by
    unfold cvT
    rw [p6, s3]
    exact xorBytes_twice (by rw [vPart_len h, beBytes_len]; omega)
  have cy : cyT T b a (coreT T a b M) = AezSpec.block M (M.length - 16) := by
    unfold cyT
    rw [s1, s2]
    exact xor_cancel _ _
  have cx : cxT T b a (coreT T a b M) = AezSpec.block M (M.length - 32) := by
    unfold cxT
    rw [p1, p2, s2, xorSum_congr y1, cu, cv, cy]
    unfold sxT
    rw [Nat.xor_assoc (AezSpec.block M (M.length - 32) ^^^ _), Nat.xor_comm (T _), ← Nat.xor_assoc (AezSpec.block M (M.length - 32) ^^^ _),
      xor_cancel, xor_cancel]
  conv_rhs => rw [← asm_parts h]
  show asm _ _ _ _ _ _ = _
  rw [cu, cv, cx, cy, p1]
  exact asm_congr (fun i h1 h2 => by rw [c0 i h1 h2, c1 i h1 h2]) _ _ _ _

end

/-! ## The keyed functions -/

theorem keyed_E1 (r : Nat → Nat) (k : Bytes) (i x : Nat) : keyed r k (16 + 2 * i, x) = AezSpec.E1 r (AezSpec.key k) i x := by
  unfold keyed
  simp only
  rw [if_neg (by omega), if_neg (by omega), if_neg (by omega), if_pos (by omega), show (16 + 2 * i - 16) / 2 = i by omega]

theorem keyed_E2 (r : Nat → Nat) (k : Bytes) (i x : Nat) : keyed r k (17 + 2 * i, x) = AezSpec.E2 r (AezSpec.key k) i x := by
  unfold keyed
  simp only
  rw [if_neg (by omega), if_neg (by omega), if_neg (by omega), if_neg (by omega), show (17 + 2 * i - 16) / 2 = i by omega]

theorem coreT_keyed (r : Nat → Nat) (k : Bytes) {a b : Nat} (h : a = 1 ∧ b = 2 ∨ a = 2 ∧ b = 1) (M : Bytes) :
    coreT (keyed r k) a b M = AezSpec.core r (AezSpec.key k) (AezSpec.delta r (AezSpec.key k)) a b M := by
  have hf : ∀ c, c = 1 ∨ c = 2 → ∀ x, keyed r k (c, x) = AezSpec.delta r (AezSpec.key k) ^^^ AezSpec.E0 r (AezSpec.key k) c x := by
    rintro c (rfl | rfl) x <;> rfl
  have hg : ∀ c, c = 1 ∨ c = 2 → ∀ x, keyed r k (8 + c, x) = AezSpec.Em1 r (AezSpec.key k) c x := by
    rintro c (rfl | rfl) x <;> rfl
  have ha : a = 1 ∨ a = 2 := by omega
  have hb : b = 1 ∨ b = 2 := by omega
  have e1 : wT (keyed r k) M = AezSpec.wOf r (AezSpec.key k) M := by
    funext i
    unfold wT AezSpec.wOf
    rw [keyed_E1]
  have e2 : xT (keyed r k) M = AezSpec.xOf r (AezSpec.key k) M := by
    funext i
    unfold xT AezSpec.xOf
    rw [e1]
    rfl
  have e3 : ∀ u v, uvT (keyed r k) M.length u v = AezSpec.uvSum r (AezSpec.key k) M.length u v := fun u v => rfl
  have e4 : sxT (keyed r k) a M = AezSpec.sxOf r (AezSpec.key k) (AezSpec.delta r (AezSpec.key k)) a M := by
    unfold sxT AezSpec.sxOf
    rw [e2, e3, hf a ha]
    simp only [Nat.xor_assoc, Nat.xor_comm, xor_left]
  have e5 : syT (keyed r k) a M = AezSpec.syOf r (AezSpec.key k) (AezSpec.delta r (AezSpec.key k)) a M := by
    unfold syT AezSpec.syOf
    rw [e4, hg a ha]
  have e6 : sT (keyed r k) a M = AezSpec.sOf r (AezSpec.key k) (AezSpec.delta r (AezSpec.key k)) a M := by
    unfold sT AezSpec.sOf
    rw [e4, e5]
  have e7 : yT (keyed r k) a M = AezSpec.yOf r (AezSpec.key k) (AezSpec.delta r (AezSpec.key k)) a M := by
    funext i
    unfold yT AezSpec.yOf
    rw [e1, e6, keyed_E2]
  have e8 : zT (keyed r k) a M = AezSpec.zOf r (AezSpec.key k) (AezSpec.delta r (AezSpec.key k)) a M := by
    funext i
    unfold zT AezSpec.zOf
    rw [e2, e6, keyed_E2]
  have e9 : c1T (keyed r k) a M = AezSpec.c1Of r (AezSpec.key k) (AezSpec.delta r (AezSpec.key k)) a M := by
    funext i
    unfold c1T AezSpec.c1Of
    rw [e7, e8]
    rfl
  have e10 : c0T (keyed r k) a M = AezSpec.c0Of r (AezSpec.key k) (AezSpec.delta r (AezSpec.key k)) a M := by
    funext i
    unfold c0T AezSpec.c0Of
    rw [e8, e9, keyed_E1]
  have e11 : cuT (keyed r k) a M = AezSpec.cuOf r (AezSpec.key k) (AezSpec.delta r (AezSpec.key k)) a M := by
    unfold cuT AezSpec.cuOf
    rw [e6]
    rfl
  have e12 : cvT (keyed r k) a M = AezSpec.cvOf r (AezSpec.key k) (AezSpec.delta r (AezSpec.key k)) a M := by
    unfold cvT AezSpec.cvOf
    rw [e6]
    rfl
  have e13 : cyT (keyed r k) a b M = AezSpec.cyOf r (AezSpec.key k) (AezSpec.delta r (AezSpec.key k)) a b M := by
    unfold cyT AezSpec.cyOf
    rw [e4, e5, hg b hb]
  have e14 : cxT (keyed r k) a b M = AezSpec.cxOf r (AezSpec.key k) (AezSpec.delta r (AezSpec.key k)) a b M := by
    unfold cxT AezSpec.cxOf
    rw [e5, e7, e11, e12, e13, e3, hf b hb]
    simp only [Nat.xor_assoc, Nat.xor_comm, xor_left]
  unfold coreT AezSpec.core asm
  rw [e9, e10, e11, e12, e13, e14]

end Verif.AezWide
