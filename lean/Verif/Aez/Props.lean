import Verif.Aez.Core
import Verif.Aez.TinyMem

/-!
# Properties of the PRP (C30, C31, C32)

`R` is the AES round function without the key addition; nothing is assumed about it.
-/

namespace Verif.Aez

open Verif

section
variable (R : Block → Block)

theorem hash_ok (c : Ctx) : ∃ t, hash R c = .ok t := by
  rw [hash, oneZeroPad_eq bzero 16 0 rfl (by omega), ld_ok (show 32 + 16 ≤ 48 by omega)]
  exact ⟨_, rfl⟩

/-- The bytes written by `aez_encrypt`/`aez_decrypt` for the message `P` of `n` bytes, as a relation. -/
def Out (c : Ctx) (t : Block) (d : Bool) (n : Nat) (P Q : Nat → UInt8) : Prop :=
  if n < 32 then ∀ k, k < 8 * n → gb Q k = outBit R c t d n (gb P) k else ∀ i, i < n → Q i = coreFn R c t d n P i

theorem aez_ok (c : Ctx) (t : Block) (ht : hash R c = .ok t) (d al : Bool) (n : Nat) (m : Mem)
    (hS : n ≤ ssize al m) (hD : n ≤ m.dst.size) :
    ∃ m', aez R c d al n m = .ok m' ∧ m'.src = m.src ∧ m'.dst.size = m.dst.size ∧
      Out R c t d n (sdat al m) m'.dst.data ∧ (∀ i, n ≤ i → m'.dst.data i = m.dst.data i) := by
  rw [aez, ht]
  simp only [Res.bind_ok]
  by_cases h0 : n = 0
  · subst h0
    rw [if_pos rfl]
    exact ⟨m, rfl, rfl, rfl, by rw [Out, if_pos (by omega)]; intro k hk; omega, fun _ _ => rfl⟩
  · rw [if_neg h0]
    by_cases h32 : n < 32
    · rw [if_pos h32]
      obtain ⟨m', e, h1, h2, h3, h4⟩ := tiny_ok R c t d al n m h32 hS hD
      exact ⟨m', e, h1, h2, by rw [Out, if_pos h32]; exact h3, h4⟩
    · rw [if_neg h32]
      obtain ⟨m', e, h1, h2, h3, h4⟩ := core_ok R c t d al n m (by omega) hS hD
      exact ⟨m', e, h1, h2, by rw [Out, if_neg h32]; exact h3, h4⟩

theorem coreFn_congr (c : Ctx) (t : Block) (d : Bool) (n : Nat) (h32 : 32 ≤ n) (P P' : Nat → UInt8)
    (h : ∀ i, i < n → P i = P' i) (i : Nat) (hi : i < n) : coreFn R c t d n P i = coreFn R c t d n P' i := by
  -- run the code on both messages: it only reads the first `n` bytes
  obtain ⟨m1, e1, -, -, o1, -⟩ := core_ok R c t d false n ⟨⟨n, P⟩, ⟨n, P⟩⟩ h32 (Nat.le_refl _) (Nat.le_refl _)
  have hin : initN n + fragN n + 32 = n := by simp only [initN, fragN]; omega
  have hd : initN n % 32 = 0 := by simp only [initN]; omega
  have hb : ∀ o, o + 16 ≤ n → blk P o = blk P' o := fun o ho => blk_congr fun j _ _ => h j (by omega)
  have hW : ∀ j, j < initN n / 32 → W R c (offs c (initN n)) P j = W R c (offs c (initN n)) P' j := by
    intro j hj; rw [W, W, hb _ (by omega), hb _ (by omega)]
  have hX : ∀ j, j < initN n / 32 → X R c (offs c (initN n)) P j = X R c (offs c (initN n)) P' j := by
    intro j hj; rw [X, X, hW j hj, hb _ (by omega)]
  have hf0 : fr0 n P = fr0 n P' := by
    have := fragN n
    simp only [fr0]
    rw [hb _ (by omega)]
  have hf1 : fr1 n P = fr1 n P' := by
    simp only [fr1]
    rw [hb _ (by omega)]
  have hv : vals R c t d n P = vals R c t d n P' := by
    simp only [vals]
    rw [hf0, hf1, xsum_congr _ hX, hb _ (by omega), hb _ (by omega)]
    congr 2
    refine xsum_congr _ fun j hj => ?_
    rw [T, T, hW j hj]
  simp only [coreFn]
  rw [hv, hf0, hf1]
  by_cases h1 : i < initN n
  · rw [if_pos h1, if_pos h1, C0, C0, C1, C1, T, T, T, T, hW _ (by omega), hX _ (by omega)]
  · rw [if_neg h1, if_neg h1]

/-- The output is determined by the first `n` bytes of the message. -/
theorem Out_det (c : Ctx) (t : Block) (d : Bool) (n : Nat) (P P' Q Q' : Nat → UInt8) (hP : ∀ i, i < n → P i = P' i)
    (h : Out R c t d n P Q) (h' : Out R c t d n P' Q') : ∀ i, i < n → Q i = Q' i := by
  simp only [Out] at h h'
  by_cases h32 : n < 32
  · rw [if_pos h32] at h h'
    have hl : lIn n (gb P) = lIn n (gb P') := by
      apply bb_ext; intro k hk
      rw [bb_lIn _ _ _ hk, bb_lIn _ _ _ hk]
      by_cases h8 : k < 8 * n
      · rw [gb_congr (hP _ (by omega))]
      · simp [h8]
    have hr : rIn n (gb P) = rIn n (gb P') := by
      apply bb_ext; intro k hk
      rw [bb_rIn _ _ _ hk, bb_rIn _ _ _ hk]
      by_cases h8 : k < 4 * n
      · rw [if_pos h8, if_pos h8, gb_congr (hP _ (by omega))]
      · rw [if_neg h8, if_neg h8]
    refine gb_ext fun k hk => ?_
    rw [h k hk, h' k hk]
    simp only [outBit, halves, lStart, hl, hr]
  · rw [if_neg h32] at h h'
    intro i hi
    rw [h i hi, h' i hi]
    exact coreFn_congr R c t d n (by omega) P P' hP i hi

/-- The opposite direction on the output gives back the message. -/
theorem Out_inv (c : Ctx) (t : Block) (d : Bool) (n : Nat) (P Q Z : Nat → UInt8) (h : Out R c t d n P Q)
    (h' : Out R c t (!d) n Q Z) : ∀ i, i < n → Z i = P i := by
  simp only [Out] at h h'
  by_cases h32 : n < 32
  · rw [if_pos h32] at h h'
    by_cases h0 : n = 0
    · intro i hi; omega
    · refine gb_ext fun k hk => ?_
      rw [h' k hk, outBit_inv R c t d n (by omega) h32 (gb P) (gb Q) h k hk]
  · rw [if_neg h32] at h h'
    intro i hi
    rw [h' i hi, coreFn_congr R c t (!d) n (by omega) Q (coreFn R c t d n P) h i hi, coreFn_inv R c t d n P (by omega) i hi]

/-! ## Memory safety -/

/-- C32: for every length, every key and both directions, on buffers of at least that size (the same buffer or two), the code
returns normally — every load and store of the source, destination and local buffers is in bounds —, leaves the source and the
bytes of the destination behind the message as they were, and what it writes to the first `n` bytes does not depend on the former
content of the destination: each of them is written. -/
theorem c32_memory (c : Ctx) (d : Bool) (n : Nat) (src dst dst' : Buf) (hS : n ≤ src.size) (hD : n ≤ dst.size)
    (hD' : n ≤ dst'.size) :
    ∃ m m', aez R c d false n ⟨src, dst⟩ = .ok m ∧ aez R c d false n ⟨src, dst'⟩ = .ok m' ∧
      m.src = src ∧ m.dst.size = dst.size ∧ (∀ i, n ≤ i → m.dst.data i = dst.data i) ∧
      (∀ i, i < n → m.dst.data i = m'.dst.data i) := by
  obtain ⟨t, ht⟩ := hash_ok R c
  obtain ⟨m, e, h1, h2, h3, h4⟩ := aez_ok R c t ht d false n ⟨src, dst⟩ hS hD
  obtain ⟨m', e', h1', h2', h3', h4'⟩ := aez_ok R c t ht d false n ⟨src, dst'⟩ hS hD'
  exact ⟨m, m', e, e', h1, h2, h4, Out_det R c t d n _ _ _ _ (fun _ _ => rfl) h3 h3'⟩

/-- C32, in place: encrypting or decrypting a buffer onto itself returns normally and writes the same bytes as with a separate
destination. -/
theorem c32_in_place (c : Ctx) (d : Bool) (n : Nat) (src other dst : Buf) (hS : n ≤ src.size) (hD : n ≤ dst.size) :
    ∃ m m', aez R c d true n ⟨other, src⟩ = .ok m ∧ aez R c d false n ⟨src, dst⟩ = .ok m' ∧
      m.src = other ∧ m.dst.size = src.size ∧ (∀ i, n ≤ i → m.dst.data i = src.data i) ∧
      (∀ i, i < n → m.dst.data i = m'.dst.data i) := by
  obtain ⟨t, ht⟩ := hash_ok R c
  obtain ⟨m, e, h1, h2, h3, h4⟩ := aez_ok R c t ht d true n ⟨other, src⟩ hS hS
  obtain ⟨m', e', h1', h2', h3', h4'⟩ := aez_ok R c t ht d false n ⟨src, dst⟩ hS hD
  exact ⟨m, m', e, e', h1, h2, h4, Out_det R c t d n _ _ _ _ (fun _ _ => rfl) h3 h3'⟩

/-! ## Strings -/

theorem toList_eq (b : Buf) (l : Bytes) (hs : b.size = l.length) (h : ∀ i, i < l.length → b.data i = l.getD i 0) : b.toList = l := by
  apply List.ext_getElem
  · simp [Buf.toList, hs]
  · intro i h1 h2
    simp only [Buf.toList, List.getElem_map, List.getElem_range]
    rw [h i h2, List.getD_eq_getElem?_getD, List.getElem?_eq_getElem h2]
    rfl

theorem getD_toList (b : Buf) (i : Nat) (h : i < b.size) : b.toList.getD i 0 = b.data i := by
  simp [Buf.toList, List.getD_eq_getElem?_getD, h]

@[simp] theorem toList_length (b : Buf) : b.toList.length = b.size := by simp [Buf.toList]

theorem prpString_ok (c : Ctx) (t : Block) (ht : hash R c = .ok t) (junk : Nat → UInt8) (d : Bool) (s : Bytes)
    (h : s.length ≤ 4294967295) :
    ∃ r, prpString R true (some c) junk d s = .ok r ∧ r.length = s.length ∧
      Out R c t d s.length (fun i => s.getD i 0) (fun i => r.getD i 0) := by
  obtain ⟨m, e, h1, h2, h3, -⟩ := aez_ok R c t ht d false s.length ⟨Buf.ofList s, ⟨s.length, junk⟩⟩ (Nat.le_refl _) (Nat.le_refl _)
  have h2' : m.dst.size = s.length := h2
  refine ⟨m.dst.toList, ?_, by rw [toList_length]; exact h2, ?_⟩
  · simp only [prpString, Bool.true_eq_false, if_false, show ¬ s.length > 4294967295 by omega, prpBuf, e, Res.map_ok]
  · have hd : ∀ i, i < s.length → m.dst.toList.getD i 0 = m.dst.data i := fun i hi => getD_toList _ _ (by omega)
    simp only [Out] at h3 ⊢
    by_cases h32 : s.length < 32
    · rw [if_pos h32] at h3 ⊢
      intro k hk
      exact Eq.trans (gb_congr (hd _ (by omega))) (h3 k hk)
    · rw [if_neg h32] at h3 ⊢
      intro i hi
      exact Eq.trans (hd i hi) (h3 i hi)

theorem list_ext_getD {a b : Bytes} (hl : a.length = b.length) (h : ∀ i, i < b.length → a.getD i 0 = b.getD i 0) : a = b := by
  apply List.ext_getElem hl
  intro i h1 h2
  have := h i h2
  rw [List.getD_eq_getElem?_getD, List.getD_eq_getElem?_getD, List.getElem?_eq_getElem h1, List.getElem?_eq_getElem h2] at this
  exact this

/-- C30: on every string of up to 2^32-1 bytes, in either order, the two directions return normally, preserve the length and undo
each other. -/
theorem c30_roundtrip (c : Ctx) (junk junk' : Nat → UInt8) (d : Bool) (s : Bytes) (h : s.length ≤ 4294967295) :
    ∃ r, prpString R true (some c) junk d s = .ok r ∧ r.length = s.length ∧ prpString R true (some c) junk' (!d) r = .ok s := by
  obtain ⟨t, ht⟩ := hash_ok R c
  obtain ⟨r, e1, l1, o1⟩ := prpString_ok R c t ht junk d s h
  obtain ⟨z, e2, l2, o2⟩ := prpString_ok R c t ht junk' (!d) r (by omega)
  refine ⟨r, e1, l1, ?_⟩
  rw [e2]
  rw [l1] at o2
  have := Out_inv R c t d s.length _ _ _ o1 o2
  exact congrArg Res.ok (list_ext_getD (by omega) this)

/-- C30: encryption (and decryption) is a permutation of the strings of each length: injective, surjective, and the result is a
function of the key and the string alone. -/
theorem c30_permutation (c : Ctx) (d : Bool) (n : Nat) (h : n ≤ 4294967295) :
    ∃ π : Bytes → Bytes, (∀ s : Bytes, s.length = n → ∀ junk, prpString R true (some c) junk d s = .ok (π s)) ∧
      (∀ s : Bytes, s.length = n → (π s).length = n) ∧
      (∀ s s' : Bytes, s.length = n → s'.length = n → π s = π s' → s = s') ∧
      (∀ r : Bytes, r.length = n → ∃ s : Bytes, s.length = n ∧ π s = r) := by
  obtain ⟨t, ht⟩ := hash_ok R c
  have hdet : ∀ s : Bytes, s.length = n → ∃ r : Bytes, r.length = n ∧ ∀ junk, prpString R true (some c) junk d s = .ok r := by
    intro s hs
    obtain ⟨r, e1, l1, o1⟩ := prpString_ok R c t ht (fun _ => 0) d s (by omega)
    refine ⟨r, by omega, fun junk => ?_⟩
    obtain ⟨r', e2, l2, o2⟩ := prpString_ok R c t ht junk d s (by omega)
    rw [e2]
    exact congrArg Res.ok (list_ext_getD (by omega) fun i hi => Out_det R c t d s.length _ _ _ _ (fun _ _ => rfl) o2 o1 i (by omega))
  refine ⟨fun s => match prpString R true (some c) (fun _ => 0) d s with | .ok r => r | _ => [], ?_, ?_, ?_, ?_⟩
  · intro s hs junk
    obtain ⟨r, -, hr⟩ := hdet s hs
    simp only [hr]
  · intro s hs
    obtain ⟨r, hl, hr⟩ := hdet s hs
    simp only [hr]
    exact hl
  · intro s s' hs hs' he
    obtain ⟨r, e1, -, e2⟩ := c30_roundtrip R c (fun _ => 0) (fun _ => 0) d s (by omega)
    obtain ⟨r', e1', -, e2'⟩ := c30_roundtrip R c (fun _ => 0) (fun _ => 0) d s' (by omega)
    simp only [e1, e1'] at he
    subst he
    rw [e2] at e2'
    exact (Res.ok.inj e2')
  · intro r hr
    obtain ⟨s, e1, l1, e2⟩ := c30_roundtrip R c (fun _ => 0) (fun _ => 0) (!d) r (by omega)
    rw [Bool.not_not] at e2
    exact ⟨s, by omega, by simp only [e2]⟩

/-- Longer strings, an unavailable PRP and a moved-from object are refused. -/
theorem c30_refusals (ctx : Option Ctx) (junk : Nat → UInt8) (d : Bool) (s : Bytes) :
    prpString R false ctx junk d s = .exc .runtimeError ∧
    (s.length > 4294967295 → prpString R true ctx junk d s = .exc .runtimeError) ∧
    prpString R true none junk d s = .exc .runtimeError := by
  refine ⟨by simp [prpString], fun h => by simp [prpString, h], ?_⟩
  by_cases h : s.length > 4294967295
  · simp [prpString, h]
  · simp [prpString, h, prpBuf]

/-! ## Integers -/

theorem prpInt_eq (c : Ctx) (junk : Nat → UInt8) (d : Bool) (n x : Nat) (hn : n ≤ 4294967295) :
    prpInt R true (some c) junk d n x = leNat <$> prpString R true (some c) junk d (leBytes n x) := by
  simp only [prpInt, prpString, leBytes_length, Bool.true_eq_false, if_false, show ¬ n > 4294967295 by omega]
  generalize prpBuf R true (some c) d false n _ = z
  cases z <;> rfl

/-- C31: the integer versions, for 32-bit (`n` = 4) and 64-bit (`n` = 8) integers: both directions return an integer of the same
width and undo each other. -/
theorem c31_roundtrip (c : Ctx) (junk junk' : Nat → UInt8) (d : Bool) (n x : Nat) (hn : n = 4 ∨ n = 8) (hx : x < 256 ^ n) :
    ∃ y, prpInt R true (some c) junk d n x = .ok y ∧ y < 256 ^ n ∧ prpInt R true (some c) junk' (!d) n y = .ok x := by
  have hn' : n ≤ 4294967295 := by omega
  obtain ⟨r, e1, l1, e2⟩ := c30_roundtrip R c junk junk' d (leBytes n x) (by simp; omega)
  rw [leBytes_length] at l1
  refine ⟨leNat r, by rw [prpInt_eq R c junk d n x hn', e1]; rfl, by rw [← l1]; exact leNat_lt r, ?_⟩
  rw [prpInt_eq R c junk' (!d) n _ hn']
  have : leBytes n (leNat r) = r := by rw [← l1]; exact leBytes_leNat r
  rw [this, e2, Res.map_ok, leNat_leBytes_of_lt hx]

/-- C31: they are bijections of the integers of the width. -/
theorem c31_bijection (c : Ctx) (junk : Nat → UInt8) (d : Bool) (n : Nat) (hn : n = 4 ∨ n = 8) :
    (∀ x x' y, x < 256 ^ n → x' < 256 ^ n → prpInt R true (some c) junk d n x = .ok y →
      prpInt R true (some c) junk d n x' = .ok y → x = x') ∧
    (∀ y, y < 256 ^ n → ∃ x, x < 256 ^ n ∧ prpInt R true (some c) junk d n x = .ok y) := by
  refine ⟨fun x x' y hx hx' h h' => ?_, fun y hy => ?_⟩
  · obtain ⟨z, e1, -, e2⟩ := c31_roundtrip R c junk junk d n x hn hx
    obtain ⟨z', e1', -, e2'⟩ := c31_roundtrip R c junk junk d n x' hn hx'
    rw [e1] at h
    rw [e1'] at h'
    cases h; cases h'
    rw [e2] at e2'
    exact Res.ok.inj e2'
  · obtain ⟨x, e1, hx, e2⟩ := c31_roundtrip R c junk junk (!d) n y hn hy
    rw [Bool.not_not] at e2
    exact ⟨x, hx, e2⟩

/-! ## The key schedule -/

/-- A Prp made from a key works on every string: with `mkPrp` for the constructor. -/
theorem c30_from_key (key : Bytes) (junk junk' : Nat → UInt8) (d : Bool) (s : Bytes) (h : s.length ≤ 4294967295) :
    ∃ c r, mkPrp true (some key) = .ok c ∧ prpString R true (some c) junk d s = .ok r ∧ r.length = s.length ∧
      prpString R true (some c) junk' (!d) r = .ok s := by
  obtain ⟨r, h1, h2, h3⟩ := c30_roundtrip R (setup fun i => key.getD i 0) junk junk' d s h
  exact ⟨_, r, rfl, h1, h2, h3⟩

end

/-! ## Examples -/

/-- A small round function for the examples. -/
def toyR : Block → Block := fun x i => x i * 3 + x (i + 1) + 1

def toyCtx : Ctx := setup fun i => UInt8.ofNat (7 * i + 3)

example : ∃ r, prpString toyR true (some toyCtx) (fun _ => 0) false [1, 2, 3] = .ok r ∧ r.length = 3 ∧
    prpString toyR true (some toyCtx) (fun _ => 9) true r = .ok [1, 2, 3] :=
  c30_roundtrip toyR toyCtx _ _ false [1, 2, 3] (by decide)

example : ∃ r, prpString toyR true (some toyCtx) (fun _ => 0) true (List.replicate 1000 5) = .ok r ∧ r.length = 1000 ∧
    prpString toyR true (some toyCtx) (fun _ => 9) false r = .ok (List.replicate 1000 5) := by
  have := c30_roundtrip toyR toyCtx (fun _ => 0) (fun _ => 9) true (List.replicate 1000 5) (by rw [List.length_replicate]; omega)
  rwa [List.length_replicate] at this

example : ∃ y, prpInt toyR true (some toyCtx) (fun _ => 0) false 4 123456789 = .ok y ∧ y < 256 ^ 4 ∧
    prpInt toyR true (some toyCtx) (fun _ => 0) true 4 y = .ok 123456789 :=
  c31_roundtrip toyR toyCtx _ _ false 4 _ (Or.inl rfl) (by decide)

example : ∃ m m', aez toyR toyCtx false false 77 ⟨⟨77, fun i => UInt8.ofNat i⟩, ⟨80, fun _ => 0⟩⟩ = .ok m ∧
    aez toyR toyCtx false false 77 ⟨⟨77, fun i => UInt8.ofNat i⟩, ⟨80, fun _ => 1⟩⟩ = .ok m' ∧
    m.src = ⟨77, fun i => UInt8.ofNat i⟩ ∧ m.dst.size = 80 ∧ (∀ i, 77 ≤ i → m.dst.data i = 0) ∧
    (∀ i, i < 77 → m.dst.data i = m'.dst.data i) :=
  c32_memory toyR toyCtx false 77 _ _ _ (by decide) (by decide) (by decide)

end Verif.Aez
