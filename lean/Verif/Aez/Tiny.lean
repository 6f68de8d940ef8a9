import Verif.Aez.Passes

/-! What `cipher_aez_tiny` computes, on the bits of the message, and that it is inverted by swapping the direction. -/

namespace Verif.Aez

open Verif

/-! ## Bits -/

/-- Bit `k` of a buffer, most significant bit of each byte first. -/
def gb (f : Nat → UInt8) (k : Nat) : Bool := (f (k / 8)).toBitVec.getMsbD (k % 8)

/-- Bit `k` of a block; false beyond the end. -/
def bb (x : Block) (k : Nat) : Bool := if h : k < 128 then (x ⟨k / 8, by omega⟩).toBitVec.getMsbD (k % 8) else false

theorem byte_ext {a b : UInt8} (h : ∀ j, j < 8 → a.toBitVec.getMsbD j = b.toBitVec.getMsbD j) : a = b := by
  apply UInt8.toBitVec_inj.1
  apply BitVec.eq_of_getMsbD_eq
  intro i hi
  exact h i hi

theorem bb_ext {x y : Block} (h : ∀ k, k < 128 → bb x k = bb y k) : x = y := by
  funext i
  refine byte_ext fun j hj => ?_
  have hi := i.2
  have := h (8 * i.1 + j) (by omega)
  simp only [bb, show 8 * i.1 + j < 128 by omega, dite_true, show (8 * i.1 + j) / 8 = i.1 by omega,
    show (8 * i.1 + j) % 8 = j by omega] at this
  exact this

theorem gb_ext {f g : Nat → UInt8} {n : Nat} (h : ∀ k, k < 8 * n → gb f k = gb g k) : ∀ i, i < n → f i = g i := by
  intro i hi
  refine byte_ext fun j hj => ?_
  have := h (8 * i + j) (by omega)
  simp only [gb, show (8 * i + j) / 8 = i by omega, show (8 * i + j) % 8 = j by omega] at this
  exact this

theorem bb_bx (x y : Block) (k : Nat) : bb (bx x y) k = (bb x k ^^ bb y k) := by
  by_cases h : k < 128 <;> simp [bb, bx, h]

theorem bb_band (x y : Block) (k : Nat) : bb (band x y) k = (bb x k && bb y k) := by
  by_cases h : k < 128 <;> simp [bb, band, h]

theorem bb_bor (x y : Block) (k : Nat) : bb (bor x y) k = (bb x k || bb y k) := by
  by_cases h : k < 128 <;> simp [bb, bor, h]

theorem bb_blk (f : Nat → UInt8) (off k : Nat) (h : k < 128) : bb (blk f off) k = gb f (8 * off + k) := by
  simp only [bb, h, dite_true, blk, gb]
  rw [show (8 * off + k) / 8 = off + k / 8 by omega, show (8 * off + k) % 8 = k % 8 by omega]

theorem gb_put_in (f : Nat → UInt8) (off : Nat) (x : Block) (k : Nat) (h1 : 8 * off ≤ k) (h2 : k < 8 * off + 128) :
    gb (put f off x) k = bb x (k - 8 * off) := by
  simp only [gb, put, bb]
  rw [dif_pos (by omega), dif_pos (by omega)]
  have e1 : (k - 8 * off) / 8 = k / 8 - off := by omega
  have e2 : (k - 8 * off) % 8 = k % 8 := by omega
  simp only [e1, e2]

theorem gb_put_out (f : Nat → UInt8) (off : Nat) (x : Block) (k : Nat) (h : k < 8 * off ∨ 8 * off + 128 ≤ k) :
    gb (put f off x) k = gb f k := by
  simp only [gb]
  rw [put_other (by omega)]

/-- The block with the given bits. -/
def ofBits (f : Nat → Bool) : Block := fun i =>
  UInt8.ofBitVec (BitVec.ofBoolListBE [f (8 * i.1), f (8 * i.1 + 1), f (8 * i.1 + 2), f (8 * i.1 + 3), f (8 * i.1 + 4),
    f (8 * i.1 + 5), f (8 * i.1 + 6), f (8 * i.1 + 7)])

theorem bb_ofBits (f : Nat → Bool) (k : Nat) (h : k < 128) : bb (ofBits f) k = f k := by
  simp only [bb, h, dite_true, ofBits]
  have := BitVec.getMsbD_ofBoolListBE (bs := [f (8 * (k / 8)), f (8 * (k / 8) + 1), f (8 * (k / 8) + 2), f (8 * (k / 8) + 3),
    f (8 * (k / 8) + 4), f (8 * (k / 8) + 5), f (8 * (k / 8) + 6), f (8 * (k / 8) + 7)]) (i := k % 8)
  refine Eq.trans this ?_
  have hk : k = 8 * (k / 8) + k % 8 := by omega
  have h8 : k % 8 < 8 := by omega
  generalize k / 8 = q at *
  generalize k % 8 = r at *
  subst hk
  match r, h8 with
  | 0, _ | 1, _ | 2, _ | 3, _ | 4, _ | 5, _ | 6, _ | 7, _ => rfl

/-! ## Shifts -/

theorem getMsbD_shl4 (a : UInt8) (j : Nat) (h : j < 8) :
    (a <<< 4).toBitVec.getMsbD j = (decide (j < 4) && a.toBitVec.getMsbD (j + 4)) := by
  have : (a <<< 4).toBitVec = a.toBitVec <<< 4 := by rfl
  rw [this, BitVec.getMsbD_shiftLeft]
  by_cases h4 : j < 4
  · simp [h4]
  · simp only [h4, decide_false, Bool.false_and]
    exact BitVec.getMsbD_of_ge _ _ (by omega)

theorem getMsbD_shr4 (a : UInt8) (j : Nat) (h : j < 8) :
    (a >>> 4).toBitVec.getMsbD j = (decide (4 ≤ j) && a.toBitVec.getMsbD (j - 4)) := by
  have : (a >>> 4).toBitVec = a.toBitVec >>> 4 := by rfl
  rw [this, BitVec.getMsbD_ushiftRight]
  by_cases h4 : j < 4
  · simp [h4, show ¬ 4 ≤ j by omega]
  · simp [h4, h, show 4 ≤ j by omega]

/-- `bswap16(srl4(bswap16(x)))` moves the bits four places to the front. -/
theorem bb_shl (x : Block) (k : Nat) (h : k < 128) : bb (bswap (srl4 (bswap x))) k = bb x (k + 4) := by
  have h16 : k / 8 < 16 := by omega
  have hb : bswap (srl4 (bswap x)) ⟨k / 8, h16⟩ =
      (x ⟨k / 8, h16⟩ <<< 4) ||| (if h : k / 8 < 15 then x ⟨k / 8 + 1, by omega⟩ >>> 4 else 0) := by
    simp only [bswap, srl4]
    congr 1
    · congr 2; apply Fin.ext; simp only; omega
    · by_cases h15 : k / 8 < 15
      · rw [if_pos (by omega), dif_pos h15]
        congr 2; apply Fin.ext; simp only; omega
      · rw [if_neg (by omega), dif_neg h15]
  simp only [bb, h, dite_true]
  rw [hb, UInt8.toBitVec_or, BitVec.getMsbD_or, getMsbD_shl4 _ _ (by omega)]
  by_cases h4 : k % 8 < 4
  · have e1 : (k + 4) / 8 = k / 8 := by omega
    have e2 : (k + 4) % 8 = k % 8 + 4 := by omega
    have hz : (if h : k / 8 < 15 then x ⟨k / 8 + 1, by omega⟩ >>> 4 else 0 : UInt8).toBitVec.getMsbD (k % 8) = false := by
      by_cases h15 : k / 8 < 15
      · rw [dif_pos h15, getMsbD_shr4 _ _ (by omega)]; simp [show ¬ 4 ≤ k % 8 by omega]
      · rw [dif_neg h15]; simp
    rw [hz]
    simp only [e1, e2, h4, decide_true, Bool.true_and, Bool.or_false, show k + 4 < 128 by omega, dite_true]
  · simp only [h4, decide_false, Bool.false_and, Bool.false_or]
    by_cases h15 : k / 8 < 15
    · have e1 : (k + 4) / 8 = k / 8 + 1 := by omega
      have e2 : (k + 4) % 8 = k % 8 - 4 := by omega
      rw [dif_pos h15, getMsbD_shr4 _ _ (by omega)]
      simp only [e1, e2, show 4 ≤ k % 8 by omega, decide_true, Bool.true_and, show k + 4 < 128 by omega, dite_true]
    · rw [dif_neg h15, dif_neg (by omega)]; simp

/-- `bswap16(sll4(bswap16(x)))` moves the bits four places to the back. -/
theorem bb_shr (x : Block) (k : Nat) (h : k < 128) :
    bb (bswap (sll4 (bswap x))) k = (decide (4 ≤ k) && bb x (k - 4)) := by
  have h16 : k / 8 < 16 := by omega
  have hb : bswap (sll4 (bswap x)) ⟨k / 8, h16⟩ =
      (x ⟨k / 8, h16⟩ >>> 4) ||| (if h : 0 < k / 8 then x ⟨k / 8 - 1, by omega⟩ <<< 4 else 0) := by
    simp only [bswap, sll4]
    congr 1
    · congr 2; apply Fin.ext; simp only; omega
    · by_cases h15 : 0 < k / 8
      · rw [dif_pos (by omega), dif_pos h15]
        congr 2; apply Fin.ext; simp only; omega
      · rw [dif_neg (by omega), dif_neg h15]
  have hk4 : k - 4 < 128 := by omega
  simp only [bb, h, hk4, dite_true]
  rw [hb, UInt8.toBitVec_or, BitVec.getMsbD_or, getMsbD_shr4 _ _ (by omega)]
  by_cases h4 : 4 ≤ k % 8
  · have e1 : (k - 4) / 8 = k / 8 := by omega
    have e2 : (k - 4) % 8 = k % 8 - 4 := by omega
    have hz : (if h : 0 < k / 8 then x ⟨k / 8 - 1, by omega⟩ <<< 4 else 0 : UInt8).toBitVec.getMsbD (k % 8) = false := by
      by_cases h15 : 0 < k / 8
      · rw [dif_pos h15, getMsbD_shl4 _ _ (by omega)]; simp [show ¬ k % 8 < 4 by omega]
      · rw [dif_neg h15]; simp
    rw [hz]
    simp only [e1, e2, h4, decide_true, Bool.true_and, Bool.or_false, show 4 ≤ k by omega]
  · simp only [h4, decide_false, Bool.false_and, Bool.false_or]
    by_cases h15 : 0 < k / 8
    · have e1 : (k - 4) / 8 = k / 8 - 1 := by omega
      have e2 : (k - 4) % 8 = k % 8 + 4 := by omega
      rw [dif_pos h15, getMsbD_shl4 _ _ (by omega)]
      simp only [e1, e2, show k % 8 < 4 by omega, decide_true, Bool.true_and, show 4 ≤ k by omega]
    · rw [dif_neg h15]; simp [show ¬ 4 ≤ k by omega]

/-! ## The masks -/

def ffF (n : Nat) : Block := fun i => if n % 2 = 1 ∧ i.1 = n / 2 then 0xf0 else pad.data (16 - n / 2 + i.1)
def m10F (n : Nat) : Block := if n % 2 = 1 then sll4 (blk pad.data (32 - n / 2)) else blk pad.data (32 - n / 2)

theorem tinyMasks_eq (n : Nat) (h : n < 32) : tinyMasks n = .ok (ffF n, m10F n) := by
  rw [tinyMasks, ld_ok (show 16 - n / 2 + 16 ≤ 48 by omega), ld_ok (show 32 - n / 2 + 16 ≤ 48 by omega)]
  simp only [Res.bind_ok, Res.pure_eq]
  by_cases h2 : n % 2 = 1
  · simp only [h2, if_true, m10F]
    congr 2
    funext i
    simp only [ffF, h2, true_and]
    rfl
  · simp only [h2, if_false, m10F]
    congr 2
    funext i
    simp only [ffF, h2, false_and, if_false]
    rfl

theorem bb_ff_all : ∀ n : Fin 32, ∀ k : Fin 128, bb (ffF n.1) k.1 = decide (k.1 < 4 * n.1) := by decide +kernel
theorem bb_m10_all : ∀ n : Fin 32, ∀ k : Fin 128, bb (m10F n.1) k.1 = decide (k.1 = 4 * n.1) := by decide +kernel

/-- The masked block for a message of `n` bytes. -/
def M (n : Nat) (x : Block) : Block := mask (ffF n) (m10F n) x

theorem bb_M (n : Nat) (h : n < 32) (x : Block) (k : Nat) (hk : k < 128) :
    bb (M n x) k = if k < 4 * n then bb x k else decide (k = 4 * n) := by
  have h1 := bb_ff_all ⟨n, h⟩ ⟨k, hk⟩
  have h2 := bb_m10_all ⟨n, h⟩ ⟨k, hk⟩
  simp only at h1 h2
  rw [M, mask, bb_bor, bb_band, h1, h2]
  by_cases h3 : k < 4 * n
  · simp [h3, show ¬ k = 4 * n by omega]
  · simp [h3]

theorem M_congr {n : Nat} (h : n < 32) {x y : Block} (hb : ∀ k, k < 4 * n → k < 128 → bb x k = bb y k) : M n x = M n y := by
  apply bb_ext
  intro k hk
  rw [bb_M n h x k hk, bb_M n h y k hk]
  by_cases h3 : k < 4 * n
  · rw [if_pos h3, if_pos h3, hb k h3 hk]
  · rw [if_neg h3, if_neg h3]

theorem M_M {n : Nat} (h : n < 32) (x : Block) : M n (M n x) = M n x :=
  M_congr h fun k h1 h2 => by rw [bb_M n h x k h2, if_pos h1]

theorem M_cancel {n : Nat} (h : n < 32) (f u : Block) : M n (bx f (M n (bx f u))) = M n u :=
  M_congr h fun k h1 h2 => by
    rw [bb_bx, bb_M n h _ k h2, if_pos h1, bb_bx, ← Bool.xor_assoc, Bool.xor_self, Bool.false_xor]

/-! ## The Feistel network -/

section
variable (R : Block → Block)

/-- One round. -/
def fstep (c : Ctx) (t : Block) (n : Nat) (rc : Block) (uv : Block × Block) : Block × Block :=
  (uv.2, M n (bx (F R c (bx (bx t uv.2) rc)) uv.1))

/-- The round constants. -/
def consts (rc one : Block) : Nat → List Block
  | 0 => []
  | n + 1 => rc :: consts (badd rc one) one n

theorem feistel_eq (c : Ctx) (t one : Block) (n : Nat) : ∀ (i : Nat) (rc : Block) (lr : Block × Block),
    feistel R c t (ffF n) (m10F n) one i rc lr = (consts rc one (2 * i)).foldl (fun s r => fstep R c t n r s) lr := by
  intro i
  induction i with
  | zero => intro rc lr; rfl
  | succ i ih =>
    rintro rc ⟨l, r⟩
    rw [feistel, show 2 * (i + 1) = 2 * i + 1 + 1 by omega, consts, consts, List.foldl_cons, List.foldl_cons, ih]
    simp only [aes4_eq]
    rfl

theorem fstep_swap (c : Ctx) (t : Block) {n : Nat} (h : n < 32) (rc u v : Block) :
    fstep R c t n rc (fstep R c t n rc (u, v)).swap = (M n u, v).swap := by
  simp only [fstep, Prod.swap]
  rw [M_cancel h]

theorem fold_swap (c : Ctx) (t : Block) {n : Nat} (h : n < 32) : ∀ (L : List Block) (u v : Block), M n u = u → M n v = v →
    L.reverse.foldl (fun s r => fstep R c t n r s) (L.foldl (fun s r => fstep R c t n r s) (u, v)).swap = (u, v).swap := by
  intro L
  induction L with
  | nil => intro u v _ _; rfl
  | cons rc L ih =>
    intro u v hu hv
    rw [List.reverse_cons, List.foldl_append, List.foldl_cons (l := L)]
    have e : fstep R c t n rc (u, v) = (v, M n (bx (F R c (bx (bx t v) rc)) u)) := rfl
    rw [e, ih _ _ hv (M_M h _), ← e, List.foldl_cons, List.foldl_nil, fstep_swap R c t h, hu]

/-- Masking the first half does not change the result. -/
theorem fold_M (c : Ctx) (t : Block) {n : Nat} (h : n < 32) (rc : Block) (L : List Block) (u v : Block) :
    (rc :: L).foldl (fun s r => fstep R c t n r s) (u, v) = (rc :: L).foldl (fun s r => fstep R c t n r s) (M n u, v) := by
  rw [List.foldl_cons, List.foldl_cons]
  congr 1
  simp only [fstep]
  congr 1
  exact M_congr h fun k h1 h2 => by rw [bb_bx, bb_bx, bb_M n h _ k h2, if_pos h1]

/-- The result of at least one round has its second half masked; of at least two, both. -/
theorem fold_masked (c : Ctx) (t : Block) {n : Nat} (h : n < 32) : ∀ (L : List Block) (u v : Block), M n u = u → M n v = v →
    M n (L.foldl (fun s r => fstep R c t n r s) (u, v)).1 = (L.foldl (fun s r => fstep R c t n r s) (u, v)).1 ∧
    M n (L.foldl (fun s r => fstep R c t n r s) (u, v)).2 = (L.foldl (fun s r => fstep R c t n r s) (u, v)).2 := by
  intro L
  induction L with
  | nil => intro u v hu hv; exact ⟨hu, hv⟩
  | cons rc L ih =>
    intro u v _ hv
    rw [List.foldl_cons]
    exact ih _ _ hv (M_M h _)

/-- The round constants of the direction `d`. -/
def dirConsts (d : Bool) (n : Nat) : List Block :=
  consts (if d then zeroSetByte (UInt8.ofNat (rounds n - 1)) 15 else bzero)
    (if d then zeroSetByte 255 15 else zeroSetByte 1 15) (2 * (rounds n / 2))

/-- The round constants as bytes. -/
def constsB (rc one : UInt8) : Nat → List UInt8
  | 0 => []
  | n + 1 => rc :: constsB (rc + one) one n

theorem consts_eq (one : UInt8) : ∀ (n : Nat) (rc : UInt8),
    consts (zeroSetByte rc 15) (zeroSetByte one 15) n = (constsB rc one n).map (zeroSetByte · 15) := by
  intro n
  induction n with
  | zero => intro rc; rfl
  | succ n ih =>
    intro rc
    have : badd (zeroSetByte rc 15) (zeroSetByte one 15) = zeroSetByte (rc + one) 15 := by
      funext i
      simp only [badd, zeroSetByte]
      by_cases h : i = 15 <;> simp [h]
    rw [consts, this, ih, constsB, List.map_cons]

theorem bzero_eq : bzero = zeroSetByte 0 15 := by
  funext i
  simp only [bzero, zeroSetByte, ite_self]

theorem consts_rev (n : Nat) (h : constsB (UInt8.ofNat (n - 1)) 255 (2 * (n / 2)) = (constsB 0 1 (2 * (n / 2))).reverse) :
    consts (zeroSetByte (UInt8.ofNat (n - 1)) 15) (zeroSetByte 255 15) (2 * (n / 2)) =
      (consts bzero (zeroSetByte 1 15) (2 * (n / 2))).reverse := by
  rw [bzero_eq, consts_eq, consts_eq, h, List.map_reverse]

theorem rounds_cases (n : Nat) : rounds n = 8 ∨ rounds n = 10 ∨ rounds n = 16 ∨ rounds n = 24 := by
  simp only [rounds]
  by_cases h1 : n ≥ 16
  · simp [h1]
  · by_cases h2 : n ≥ 3
    · simp [h1, h2]
    · by_cases h3 : n = 2
      · simp [h3]
      · simp [h1, h2, h3]

theorem dirConsts_rev (d : Bool) (n : Nat) : dirConsts (!d) n = (dirConsts d n).reverse := by
  have key : dirConsts true n = (dirConsts false n).reverse := by
    simp only [dirConsts, if_true, Bool.false_eq_true, if_false]
    rcases rounds_cases n with h | h | h | h <;> rw [h]
    · exact consts_rev 8 (by decide)
    · exact consts_rev 10 (by decide)
    · exact consts_rev 16 (by decide)
    · exact consts_rev 24 (by decide)
  cases d
  · exact key
  · show dirConsts false n = _
    rw [key, List.reverse_reverse]

theorem dirConsts_cons (d : Bool) (n : Nat) : ∃ a L, dirConsts d n = a :: L := by
  simp only [dirConsts]
  rcases rounds_cases n with h | h | h | h <;> rw [h] <;> exact ⟨_, _, rfl⟩

/-! ## The function on bits -/

/-- The block with the first bits of the message. -/
def lIn (n : Nat) (P : Nat → Bool) : Block := ofBits fun k => decide (k < 8 * n) && P k
/-- The second half of the message, padded. -/
def rIn (n : Nat) (P : Nat → Bool) : Block := ofBits fun k => if k < 4 * n then P (4 * n + k) else decide (k = 4 * n)

/-- The single bit mixed into short messages. -/
def TB (c : Ctx) (t0 x : Block) : Block :=
  band (F R c (bx (bx (bor x (blk pad.data 32)) t0) (bx c.I0 c.I1))) (blk pad.data 32)

/-- The left half before the Feistel network. -/
def lStart (c : Ctx) (t : Block) (d : Bool) (n : Nat) (P : Nat → Bool) : Block :=
  if d = true ∧ n < 16 then bx (lIn n P) (TB R c t (lIn n P)) else lIn n P

theorem lStart_false (c : Ctx) (t : Block) (n : Nat) (P : Nat → Bool) : lStart R c t false n P = lIn n P := by
  simp [lStart]

theorem lStart_true_lt (c : Ctx) (t : Block) {n : Nat} (h : n < 16) (P : Nat → Bool) :
    lStart R c t true n P = bx (lIn n P) (TB R c t (lIn n P)) := by
  simp [lStart, h]

theorem lStart_true_ge (c : Ctx) (t : Block) {n : Nat} (h : ¬ n < 16) (P : Nat → Bool) :
    lStart R c t true n P = lIn n P := by
  simp [lStart, h]

/-- The halves after the Feistel network. -/
def halves (c : Ctx) (t : Block) (d : Bool) (n : Nat) (P : Nat → Bool) : Block × Block :=
  (dirConsts d n).foldl (fun s r => fstep R c (tinyTweak c t n) n r s) (lStart R c t d n P, rIn n P)

def preBit (n : Nat) (lr : Block × Block) (k : Nat) : Bool := if k < 4 * n then bb lr.2 k else bb lr.1 (k - 4 * n)

def outBit (c : Ctx) (t : Block) (d : Bool) (n : Nat) (P : Nat → Bool) (k : Nat) : Bool :=
  let lr := halves R c t d n P
  if d = false ∧ n < 16 ∧ k < 128 then (preBit n lr k ^^ bb (TB R c t (lIn n (preBit n lr))) k) else preBit n lr k

theorem bb_pad32 : ∀ k : Fin 128, bb (blk pad.data 32) k.1 = decide (k.1 = 0) := by decide +kernel

theorem TB_congr (c : Ctx) (t0 : Block) {x y : Block} (h : ∀ k, 0 < k → k < 128 → bb x k = bb y k) :
    TB R c t0 x = TB R c t0 y := by
  have : bor x (blk pad.data 32) = bor y (blk pad.data 32) := by
    apply bb_ext
    intro k hk
    have := bb_pad32 ⟨k, hk⟩
    simp only at this
    rw [bb_bor, bb_bor, this]
    by_cases h0 : k = 0
    · simp [h0]
    · rw [h k (by omega) hk]
  rw [TB, TB, this]

theorem bb_TB (c : Ctx) (t0 x : Block) (k : Nat) (h0 : 0 < k) (hk : k < 128) : bb (TB R c t0 x) k = false := by
  have := bb_pad32 ⟨k, hk⟩
  simp only at this
  rw [TB, bb_band, this]
  simp [show ¬ k = 0 by omega]

theorem bb_lIn (n : Nat) (P : Nat → Bool) (k : Nat) (h : k < 128) : bb (lIn n P) k = (decide (k < 8 * n) && P k) :=
  bb_ofBits _ k h

theorem bb_rIn (n : Nat) (P : Nat → Bool) (k : Nat) (h : k < 128) :
    bb (rIn n P) k = if k < 4 * n then P (4 * n + k) else decide (k = 4 * n) :=
  bb_ofBits _ k h

theorem M_rIn {n : Nat} (h : n < 32) (P : Nat → Bool) : M n (rIn n P) = rIn n P := by
  apply bb_ext
  intro k hk
  rw [bb_M n h _ k hk, bb_rIn n P k hk]
  by_cases h3 : k < 4 * n
  · rw [if_pos h3, if_pos h3]
  · rw [if_neg h3, if_neg h3]

theorem halves_masked (c : Ctx) (t : Block) (d : Bool) {n : Nat} (h : n < 32) (P : Nat → Bool) :
    M n (halves R c t d n P).1 = (halves R c t d n P).1 ∧ M n (halves R c t d n P).2 = (halves R c t d n P).2 := by
  obtain ⟨a, L, e⟩ := dirConsts_cons d n
  simp only [halves]
  rw [e, fold_M R c _ h]
  exact fold_masked R c _ h _ _ _ (M_M h _) (M_rIn h P)

/-- The Feistel networks of the two directions undo each other. -/
theorem halves_inv (c : Ctx) (t : Block) (d : Bool) {n : Nat} (h : n < 32) (l r : Block) (hl : M n l = l) (hr : M n r = r) :
    (dirConsts (!d) n).foldl (fun s r => fstep R c t n r s)
      ((dirConsts d n).foldl (fun s r => fstep R c t n r s) (l, r)).swap = (r, l) := by
  rw [dirConsts_rev, fold_swap R c t h _ _ _ hl hr]
  rfl

theorem rIn_swap {n : Nat} (h : n < 32) (Q : Nat → Bool) (x : Block) (hx : M n x = x)
    (hq : ∀ k, 4 * n ≤ k → k < 8 * n → Q k = bb x (k - 4 * n)) : rIn n Q = x := by
  rw [← hx]
  apply bb_ext
  intro k hk
  rw [bb_rIn n Q k hk, bb_M n h x k hk]
  by_cases h3 : k < 4 * n
  · rw [if_pos h3, if_pos h3, hq _ (by omega) (by omega)]; congr 1; omega
  · rw [if_neg h3, if_neg h3]

theorem outBit_inv (c : Ctx) (t : Block) (d : Bool) (n : Nat) (h1 : 1 ≤ n) (h : n < 32) (P Q : Nat → Bool)
    (hQ : ∀ k, k < 8 * n → Q k = outBit R c t d n P k) : ∀ k, k < 8 * n → outBit R c t (!d) n Q k = P k := by
  have hm := halves_masked R c t d h P
  generalize hlr : halves R c t d n P = lr at hm
  -- second half of `Q`
  have hr : rIn n Q = lr.1 := by
    refine rIn_swap h Q lr.1 hm.1 fun k h2 h3 => ?_
    rw [hQ k h3, outBit]
    simp only [hlr]
    have hp : preBit n lr k = bb lr.1 (k - 4 * n) := by rw [preBit, if_neg (by omega)]
    by_cases hc : d = false ∧ n < 16 ∧ k < 128
    · rw [if_pos hc, bb_TB R c t _ k (by omega) hc.2.2, Bool.xor_false, hp]
    · rw [if_neg hc, hp]
  cases d with
  | false =>
    -- decryption after encryption
    have hl : M n (lStart R c t true n Q) = lr.2 := by
      by_cases h16 : n < 16
      · rw [lStart_true_lt R c t h16, ← hm.2]
        refine M_congr h fun k h2 h3 => ?_
        have : TB R c t (lIn n Q) = TB R c t (lIn n (preBit n lr)) := by
          refine TB_congr R c t fun j hj0 hj => ?_
          rw [bb_lIn n Q j hj, bb_lIn n _ j hj]
          by_cases hj8 : j < 8 * n
          · simp only [hj8, decide_true, Bool.true_and]
            rw [hQ j hj8, outBit]
            simp only [hlr, h16, hj, and_self, if_true]
            rw [bb_TB R c t _ j hj0 hj, Bool.xor_false]
          · simp [hj8]
        rw [bb_bx, this, bb_lIn n Q k h3, hQ k (by omega), outBit]
        simp only [hlr, h16, h3, and_self, if_true, show k < 8 * n by omega, decide_true, Bool.true_and, preBit, h2]
        rw [Bool.xor_assoc, Bool.xor_self, Bool.xor_false]
      · rw [lStart_true_ge R c t h16, ← hm.2]
        refine M_congr h fun k h2 h3 => ?_
        rw [bb_lIn n Q k h3, hQ k (by omega), outBit]
        simp only [hlr, h16, false_and, and_false, if_false, show k < 8 * n by omega, decide_true, Bool.true_and, preBit, h2,
          if_true]
    have hh : halves R c t true n Q = (rIn n P, M n (lIn n P)) := by
      obtain ⟨a, L, e⟩ := dirConsts_cons true n
      rw [halves, e, fold_M R c _ h, ← e, hl, hr]
      have : lr = (dirConsts false n).foldl (fun s r => fstep R c (tinyTweak c t n) n r s) (M n (lIn n P), rIn n P) := by
        rw [← hlr, halves, lStart_false]
        obtain ⟨a, L, e⟩ := dirConsts_cons false n
        rw [e, fold_M R c _ h]
      rw [show (lr.2, lr.1) = lr.swap from rfl, this]
      exact halves_inv R c _ false h _ _ (M_M h _) (M_rIn h P)
    intro k hk
    show outBit R c t true n Q k = _
    rw [outBit]
    simp only [hh, Bool.true_eq_false, false_and, if_false, preBit]
    by_cases h2 : k < 4 * n
    · rw [if_pos h2, bb_M n h _ k (by omega), if_pos h2, bb_lIn n P k (by omega)]
      simp [hk]
    · rw [if_neg h2, bb_rIn n P _ (by omega), if_pos (by omega)]
      congr 1; omega
  | true =>
    -- encryption after decryption
    have hl : M n (lIn n Q) = lr.2 := by
      rw [← hm.2]
      refine M_congr h fun k h2 h3 => ?_
      rw [bb_lIn n Q k h3, hQ k (by omega), outBit]
      simp only [hlr, Bool.true_eq_false, false_and, if_false, show k < 8 * n by omega, decide_true, Bool.true_and, preBit, h2,
        if_true]
    have hh : halves R c t false n Q =
        (rIn n P, M n (lStart R c t true n P)) := by
      obtain ⟨a, L, e⟩ := dirConsts_cons false n
      rw [halves, lStart_false, e, fold_M R c _ h, ← e, hl, hr]
      have : lr = (dirConsts true n).foldl (fun s r => fstep R c (tinyTweak c t n) n r s)
          (M n (lStart R c t true n P), rIn n P) := by
        rw [← hlr, halves]
        obtain ⟨a, L, e⟩ := dirConsts_cons true n
        rw [e, fold_M R c _ h]
      rw [show (lr.2, lr.1) = lr.swap from rfl, this]
      exact halves_inv R c _ true h _ _ (M_M h _) (M_rIn h P)
    intro k hk
    show outBit R c t false n Q k = _
    rw [outBit]
    simp only [hh]
    by_cases h16 : n < 16
    · rw [if_pos ⟨trivial, h16, by omega⟩, lStart_true_lt R c t h16]
      have hpre : ∀ j, j < 8 * n → preBit n (rIn n P, M n (bx (lIn n P) (TB R c t (lIn n P)))) j =
          (P j ^^ bb (TB R c t (lIn n P)) j) := by
        intro j hj
        simp only [preBit]
        by_cases h2 : j < 4 * n
        · rw [if_pos h2, bb_M n h _ j (by omega), if_pos h2, bb_bx, bb_lIn n P j (by omega)]
          simp [hj]
        · rw [if_neg h2, bb_rIn n P _ (by omega), if_pos (by omega), bb_TB R c t _ j (by omega) (by omega), Bool.xor_false]
          congr 1; omega
      have htb : TB R c t (lIn n (preBit n (rIn n P, M n (bx (lIn n P) (TB R c t (lIn n P)))))) = TB R c t (lIn n P) := by
        refine TB_congr R c t fun j hj0 hj => ?_
        rw [bb_lIn n _ j hj, bb_lIn n _ j hj]
        by_cases hj8 : j < 8 * n
        · rw [hpre j hj8, bb_TB R c t _ j hj0 hj, Bool.xor_false]
        · simp [hj8]
      rw [htb, hpre k hk, Bool.xor_assoc, Bool.xor_self, Bool.xor_false]
    · rw [if_neg (by simp [h16]), lStart_true_ge R c t h16]
      simp only [preBit]
      by_cases h2 : k < 4 * n
      · rw [if_pos h2, bb_M n h _ k (by omega), if_pos h2, bb_lIn n P k (by omega)]
        simp [hk]
      · rw [if_neg h2, bb_rIn n P _ (by omega), if_pos (by omega)]
        congr 1; omega

end

end Verif.Aez
