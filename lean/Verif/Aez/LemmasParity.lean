import Verif.Parity
import Verif.Aez.PropsRandom
import Verif.Aez.Exchange

/-!
# The parity of the permutation of short strings: lemmas
-/

namespace Verif.AezParity

open Verif Verif.Avg Verif.Oracle Verif.AezRandom Equiv Equiv.Perm

variable {m : Nat}

/-! ## The permutation of a table -/

section
variable (ρ : Table) {i : Len m}

/-- The rounds. -/
def net (i : Len m) (js : List Nat) : Perm (V i × V i) := Parity.network (js.map fun j R => tbl ρ j ⟨i, R⟩)

theorem nat_net : ∀ (js : List Nat) (p : V i × V i), nat (net ρ i js p) = js.foldl (roundT (look ρ) i.1.1) (nat p)
  | [], _ => rfl
  | j :: js, p => by
    show nat (net ρ i js (Parity.round (fun R => tbl ρ j ⟨i, R⟩) p)) = _
    rw [nat_net js]
    rfl

theorem net_even (h1 : 1 ≤ i.1.1) (js : List Nat) : sign (net ρ i js) = 1 := Parity.network_even (by omega) _

theorem joined_net (js : List Nat) (p : V i × V i) : AezSpec.joined i.1.1 (js.foldl (roundT (look ρ) i.1.1) (nat p)) = num (Parity.exch (net ρ i js p)) := by
  rw [← nat_net]
  rfl

theorem permOf_long (hm : 1 ≤ m) (h : 16 ≤ i.1.1) : permOf hm ρ i = Parity.exch * net ρ i (List.range (count i.1.1)) := by
  refine Equiv.ext fun p => num_inj ?_
  rw [num_permOf]
  unfold encT
  rw [halves_num, joined_net]
  have : ∀ y, bitT (look ρ) i.1.1 y = 0 := fun y => if_neg (by omega)
  simp only [this, Nat.xor_zero]
  rfl

theorem sign_long (hm : 1 ≤ m) (h : 16 ≤ i.1.1) : sign (permOf hm ρ i) = 1 := by
  rw [permOf_long ρ hm h, sign_mul, net_even ρ (by omega), Parity.exch_even (by omega), mul_one]

theorem xor_high {e z : Nat} (hz : z < 2 ^ e) : z ^^^ 2 ^ e = 2 ^ e + z := by
  apply Nat.eq_of_testBit_eq
  intro k
  rw [show 2 ^ e + z = 2 ^ e * 1 + z by omega, Nat.testBit_two_pow_mul_add _ hz, Nat.testBit_xor, Nat.testBit_two_pow]
  by_cases h : k < e
  · rw [if_pos h]
    have : ¬ e = k := by omega
    simp [this]
  · rw [if_neg h, Nat.testBit_lt_two_pow (lt_of_lt_of_le hz (Nat.pow_le_pow_right (by decide) (by omega)))]
    by_cases h' : e = k
    · subst h'; simp
    · rw [Nat.testBit_lt_two_pow (show 1 < 2 ^ (k - e) from Nat.one_lt_two_pow (by omega))]
      simp [h']

theorem point_high {n x : Nat} (h1 : 1 ≤ n) (hn : n < 16) :
    (x ^^^ 2 ^ (8 * n - 1)) * 2 ^ (128 - 8 * n) ||| 2 ^ 127 = x * 2 ^ (128 - 8 * n) ||| 2 ^ 127 := by
  apply Nat.eq_of_testBit_eq
  intro k
  rw [Nat.testBit_or, Nat.testBit_or, Nat.testBit_mul_two_pow, Nat.testBit_mul_two_pow, Nat.testBit_xor, Nat.testBit_two_pow, Nat.testBit_two_pow]
  by_cases hk : 127 = k
  · simp [hk]
  · by_cases hk' : 128 - 8 * n ≤ k
    · have : ¬ 8 * n - 1 = k - (128 - 8 * n) := by omega
      simp [this]
    · simp [hk']

/-- The first bit and the others. -/
def cut (h1 : 1 ≤ i.1.1) : Fin 2 × Fin (2 ^ (8 * i.1.1 - 1)) ≃ V i × V i :=
  have e : 2 ^ (8 * i.1.1) = 2 ^ (8 * i.1.1 - 1) * 2 := by rw [← pow_succ]; congr 1; omega
  have lt : ∀ q : Fin 2 × Fin (2 ^ (8 * i.1.1 - 1)), 2 ^ (8 * i.1.1 - 1) * q.1.1 + q.2.1 < 2 ^ (8 * i.1.1) := fun q => by
    rw [e]
    calc _ < 2 ^ (8 * i.1.1 - 1) * q.1.1 + 2 ^ (8 * i.1.1 - 1) := Nat.add_lt_add_left q.2.2 _
      _ = 2 ^ (8 * i.1.1 - 1) * (q.1.1 + 1) := by ring
      _ ≤ _ := Nat.mul_le_mul_left _ q.1.2
  { toFun := fun q => pairOf i (2 ^ (8 * i.1.1 - 1) * q.1.1 + q.2.1)
    invFun := fun p => (⟨num p / 2 ^ (8 * i.1.1 - 1), Nat.div_lt_of_lt_mul (by rw [← e]; exact num_lt p)⟩,
      ⟨num p % 2 ^ (8 * i.1.1 - 1), Nat.mod_lt _ (Nat.two_pow_pos _)⟩)
    left_inv := fun q => by
      refine Prod.ext (Fin.ext ?_) (Fin.ext ?_)
      · show num (pairOf i _) / _ = _
        rw [num_pairOf i (lt q), Nat.mul_add_div (Nat.two_pow_pos _), Nat.div_eq_of_lt q.2.2, Nat.add_zero]
      · show num (pairOf i _) % _ = _
        rw [num_pairOf i (lt q), Nat.mul_add_mod, Nat.mod_eq_of_lt q.2.2]
    right_inv := fun p => by
      show pairOf i (2 ^ (8 * i.1.1 - 1) * (num p / 2 ^ (8 * i.1.1 - 1)) + num p % 2 ^ (8 * i.1.1 - 1)) = p
      rw [Nat.div_add_mod, pairOf_num] }

theorem num_cut (h1 : 1 ≤ i.1.1) (q : Fin 2 × Fin (2 ^ (8 * i.1.1 - 1))) : num (cut h1 q) = 2 ^ (8 * i.1.1 - 1) * q.1.1 + q.2.1 := by
  have e : 2 ^ (8 * i.1.1) = 2 ^ (8 * i.1.1 - 1) * 2 := by rw [← pow_succ]; congr 1; omega
  refine num_pairOf i ?_
  rw [e]
  calc _ < 2 ^ (8 * i.1.1 - 1) * q.1.1 + 2 ^ (8 * i.1.1 - 1) := Nat.add_lt_add_left q.2.2 _
    _ = 2 ^ (8 * i.1.1 - 1) * (q.1.1 + 1) := by ring
    _ ≤ _ := Nat.mul_le_mul_left _ q.1.2

/-- Whether the first bit is flipped. -/
def bit (T : Nat × Nat → Nat) (n z : Nat) : Bool := decide (2 ^ 127 ≤ T (3, z * 2 ^ (128 - 8 * n) ||| 2 ^ 127))

theorem bitT_eq {n : Nat} (hn : n < 16) (z : Nat) : bitT (look ρ) n z = if bit (look ρ) n z then 2 ^ (8 * n - 1) else 0 := by
  unfold bitT bit
  rw [if_pos hn]
  have h2 := look_lt ρ (3, z * 2 ^ (128 - 8 * n) ||| 2 ^ 127)
  by_cases h : 2 ^ 127 ≤ look ρ (3, z * 2 ^ (128 - 8 * n) ||| 2 ^ 127)
  · have e : look ρ (3, z * 2 ^ (128 - 8 * n) ||| 2 ^ 127) / 2 ^ 127 = 1 := by
      generalize look ρ _ = v at *
      omega
    rw [if_pos (by simpa using h), e, Nat.one_mul]
  · rw [if_neg (by simpa using h), Nat.div_eq_of_lt (by omega), Nat.zero_mul]

/-- The flips of the first bit. -/
def flipPerm (h1 : 1 ≤ i.1.1) : Perm (V i × V i) := (cut h1).permCongr (Parity.flips fun z => bit (look ρ) i.1.1 z.1)

theorem num_flipPerm (h1 : 1 ≤ i.1.1) (h : i.1.1 < 16) (p : V i × V i) : num (flipPerm ρ h1 p) = num p ^^^ bitT (look ρ) i.1.1 (num p) := by
  obtain ⟨⟨t, z⟩, rfl⟩ := (cut h1).surjective p
  rw [flipPerm, Equiv.permCongr_apply, Equiv.symm_apply_apply, Parity.flips_apply, num_cut, num_cut]
  dsimp only
  have hx := xor_high z.2
  have hz : bitT (look ρ) i.1.1 (2 ^ (8 * i.1.1 - 1) * t.1 + z.1) = bitT (look ρ) i.1.1 z.1 := by
    have ht : t.1 = 0 ∨ t.1 = 1 := by omega
    rcases ht with ht | ht
    · rw [ht, Nat.mul_zero, Nat.zero_add]
    · rw [ht, Nat.mul_one, ← hx]
      unfold bitT
      rw [if_pos h, if_pos h, point_high h1 h]
  rw [hz, bitT_eq ρ h]
  by_cases hb : bit (look ρ) i.1.1 z.1 = true
  · rw [if_pos hb, if_pos hb]
    have ht : t = 0 ∨ t = 1 := by omega
    rcases ht with rfl | rfl
    · rw [swap_apply_left]
      show 2 ^ (8 * i.1.1 - 1) * 1 + z.1 = (2 ^ (8 * i.1.1 - 1) * 0 + z.1) ^^^ _
      rw [Nat.mul_one, Nat.mul_zero, Nat.zero_add, hx]
    · rw [swap_apply_right]
      show 2 ^ (8 * i.1.1 - 1) * 0 + z.1 = (2 ^ (8 * i.1.1 - 1) * 1 + z.1) ^^^ _
      rw [Nat.mul_one, Nat.mul_zero, Nat.zero_add, ← hx, Nat.xor_assoc, Nat.xor_self, Nat.xor_zero]
  · rw [if_neg hb, if_neg hb, Nat.xor_zero]
    rfl

theorem permOf_short (hm : 1 ≤ m) (h1 : 1 ≤ i.1.1) (h : i.1.1 < 16) :
    permOf hm ρ i = flipPerm ρ h1 * (Parity.exch * net ρ i (List.range (count i.1.1))) := by
  refine Equiv.ext fun p => num_inj ?_
  rw [num_permOf]
  show _ = num (flipPerm ρ h1 (Parity.exch (net ρ i (List.range (count i.1.1)) p)))
  rw [num_flipPerm ρ h1 h]
  unfold encT
  rw [halves_num, joined_net]

theorem sign_short (hm : 1 ≤ m) (h1 : 1 ≤ i.1.1) (h : i.1.1 < 16) :
    sign (permOf hm ρ i) = ∏ z : Fin (2 ^ (8 * i.1.1 - 1)), if bit (look ρ) i.1.1 z.1 then -1 else 1 := by
  rw [permOf_short ρ hm h1 h, sign_mul, sign_mul, net_even ρ h1, Parity.exch_even (by omega), mul_one, mul_one, flipPerm, sign_permCongr,
    Parity.flips_sign]

end

/-! ## From strings to pairs of halves -/

/-- The permutation of strings that a table gives. -/
noncomputable def strPerm (ρ : Table) {n : Nat} (h1 : 1 ≤ n) (hn : n < 33) : Perm (Block n) :=
  (strings (⟨⟨n, hn⟩, h1⟩ : Len 1)).permCongr (permOf (le_refl 1) ρ ⟨⟨n, hn⟩, h1⟩)

theorem strPerm_apply (ρ : Table) {n : Nat} (h1 : 1 ≤ n) (hn : n < 33) (b : Block n) :
    toBytes (strPerm ρ h1 hn b) = cipherT (look ρ) (false, toBytes b) := by
  have hl : (toBytes b).length = n := toBytes_len b
  have e : cipherT (look ρ) (false, toBytes b) = beBytes n (encT (look ρ) n (beNat (toBytes b))) := by
    unfold cipherT
    simp only [hl, Bool.false_eq_true, if_false]
    split
    · rename_i h
      subst h
      exact (coreT_eq ρ false (s := toBytes b) hl).trans (congrArg (beBytes 32) (if_neg Bool.false_ne_true))
    · rfl
  have hs := strings_symm (i := (⟨⟨n, hn⟩, h1⟩ : Len 1)) (s := toBytes b) hl
  rw [ofBytes_toBytes] at hs
  rw [strPerm, Equiv.permCongr_apply, toBytes_strings, num_permOf, e, hs, num_pairOf _ (beNat_lt' hl)]

theorem sign_strPerm (ρ : Table) {n : Nat} (h1 : 1 ≤ n) (hn : n < 33) : sign (strPerm ρ h1 hn) = sign (permOf (le_refl 1) ρ (⟨⟨n, hn⟩, h1⟩ : Len 1)) :=
  sign_permCongr _ _

theorem toBytes_inj {n : Nat} {b b' : Block n} (h : toBytes b = toBytes b') : b = b' := by rw [← ofBytes_toBytes b, h, ofBytes_toBytes]

/-! ## Functions that agree on blocks give the same answers -/

section
variable {T T' : Nat × Nat → Nat} (hT : ∀ a, T' a < 2 ^ 128) (h : ∀ a : Nat × Nat, a.1 < 12 → a.2 < 2 ^ 128 → T a = T' a)
include hT h

theorem rounds_congr {n : Nat} (hn : n < 33) : ∀ (js : List Nat) {p : Nat × Nat}, (∀ j ∈ js, j < cap n) → p.1 < 2 ^ (4 * n) → p.2 < 2 ^ (4 * n) →
    js.foldl (roundT T n) p = js.foldl (roundT T' n) p
  | [], _, _, _, _ => rfl
  | j :: js, p, hj, h1, h2 => by
    have e : roundT T n p j = roundT T' n p j := by
      unfold roundT
      rw [h _ (point_fst n p.2 j).1 (point_lt hn h2 (hj j List.mem_cons_self))]
    obtain ⟨a, b⟩ := roundT_lt hT hn h1 h2 j
    show js.foldl (roundT T n) (roundT T n p j) = js.foldl (roundT T' n) (roundT T' n p j)
    rw [e]
    exact rounds_congr hn js (fun k hk => hj k (List.mem_cons_of_mem _ hk)) a b

theorem cipherT_congr {s : Bytes} (h1 : 1 ≤ s.length) (hn : s.length < 33) : cipherT T (false, s) = cipherT T' (false, s) := by
  unfold cipherT
  by_cases h32 : s.length = 32
  · simp only [h32, if_true]
    unfold coreT
    have a : beNat (s.take 16) < 2 ^ 128 := beNat_lt' (n := 16) (by rw [List.length_take]; omega)
    have b : beNat (s.drop 16) < 2 ^ 128 := beNat_lt' (n := 16) (by rw [List.length_drop]; omega)
    simp only [Bool.false_eq_true, if_false]
    rw [rounds_congr hT h (n := 32) (by omega) [0, 1, 2, 3] (by intro j hj; have : cap 32 = 4 := rfl; simp at hj; omega) a b]
  · simp only [h32, if_false, Bool.false_eq_true]
    obtain ⟨a, b⟩ := halves_lt (n := s.length) (x := beNat s) (beNat_lt' rfl)
    have hr := rounds_congr hT h hn (List.range (count s.length)) (fun j hj => lt_of_lt_of_le (List.mem_range.1 hj) (count_cap _)) a b
    obtain ⟨c, d⟩ := rounds_lt hT hn (List.range (count s.length)) a b
    unfold encT
    rw [hr]
    have hb : ∀ y, y < 2 ^ (8 * s.length) → bitT T s.length y = bitT T' s.length y := by
      intro y hy
      unfold bitT
      by_cases h16 : s.length < 16
      · have hlt : y * 2 ^ (128 - 8 * s.length) < 2 ^ 128 :=
          calc y * 2 ^ (128 - 8 * s.length) < 2 ^ (8 * s.length) * 2 ^ (128 - 8 * s.length) := Nat.mul_lt_mul_of_pos_right hy (Nat.two_pow_pos _)
            _ = 2 ^ 128 := by rw [← pow_add]; congr 1; omega
        rw [if_pos h16, if_pos h16, h (3, y * 2 ^ (128 - 8 * s.length) ||| 2 ^ 127) (show 3 < 12 by decide)
          (Nat.or_lt_two_pow hlt (Nat.pow_lt_pow_right (by decide) (by decide)))]
      · rw [if_neg h16, if_neg h16]
    simp only [hb _ (joined_lt c d)]

end

/-! ## The keyed functions have values of 128 bits -/

section
variable {r : Nat → Nat} (hr : ∀ x, x < 2 ^ 128 → r x < 2 ^ 128)
include hr

theorem aesRounds_lt : ∀ (l : List Nat) {x : Nat}, x < 2 ^ 128 → (∀ k ∈ l, k < 2 ^ 128) → AezSpec.aesRounds r x l < 2 ^ 128
  | [], _, hx, _ => hx
  | k :: l, x, hx, hl => by
    show AezSpec.aesRounds r (r x ^^^ k) l < _
    exact aesRounds_lt l (Nat.xor_lt_two_pow (hr x hx) (hl k List.mem_cons_self)) fun k' hk => hl k' (List.mem_cons_of_mem _ hk)

omit hr in
theorem times_lt {v : Nat} (hv : v < 2 ^ 128) (n : Nat) : AezSpec.times n v < 2 ^ 128 := by
  have h0 : (0 : Nat) < 2 ^ 128 := Nat.two_pow_pos _
  have hd := AezWide.double_lt hv
  have hdd := AezWide.double_lt hd
  unfold AezSpec.times
  refine Nat.xor_lt_two_pow (Nat.xor_lt_two_pow ?_ ?_) ?_ <;> split <;> assumption

omit hr in
theorem off_lt {v : Nat} (hv : v < 2 ^ 128) (i : Nat) : AezSpec.off v i < 2 ^ 128 := Nat.xor_lt_two_pow (AezWide.shift_lt hv _) (times_lt hv _)

variable {k : AezSpec.Key} (hI : k.I < 2 ^ 128) (hJ : k.J < 2 ^ 128) (hL : k.L < 2 ^ 128)
include hI hJ hL

omit hr hI in
theorem offH_lt (j i : Nat) : AezSpec.offH k j i < 2 ^ 128 := by
  unfold AezSpec.offH
  refine Nat.xor_lt_two_pow (AezWide.shift_lt hL _) ?_
  split
  · exact Nat.two_pow_pos _
  · exact off_lt hJ i

theorem EH_lt (j i : Nat) {x : Nat} (hx : x < 2 ^ 128) : AezSpec.EH r k j i x < 2 ^ 128 := by
  have ho := offH_lt hJ hL (k := k) j i
  refine aesRounds_lt hr _ (Nat.xor_lt_two_pow hx ho) ?_
  intro a ha
  simp only [List.mem_cons, List.not_mem_nil, or_false] at ha
  rcases ha with rfl | rfl | rfl | rfl <;> assumption

theorem delta_lt : AezSpec.delta r k < 2 ^ 128 :=
  Nat.xor_lt_two_pow (Nat.xor_lt_two_pow (EH_lt hr hI hJ hL 3 1 (Nat.two_pow_pos _)) (EH_lt hr hI hJ hL 4 1 (Nat.two_pow_pos _)))
    (EH_lt hr hI hJ hL 5 0 (Nat.pow_lt_pow_right (by decide) (by decide)))

theorem E0_lt (i : Nat) {x : Nat} (hx : x < 2 ^ 128) : AezSpec.E0 r k i x < 2 ^ 128 := by
  have h0 : (0 : Nat) < 2 ^ 128 := Nat.two_pow_pos _
  refine aesRounds_lt hr _ (Nat.xor_lt_two_pow hx (times_lt hI _)) ?_
  intro a ha
  simp only [List.mem_cons, List.not_mem_nil, or_false] at ha
  rcases ha with rfl | rfl | rfl | rfl <;> assumption

theorem Em1_lt (i : Nat) {x : Nat} (hx : x < 2 ^ 128) : AezSpec.Em1 r k i x < 2 ^ 128 := by
  refine aesRounds_lt hr _ (Nat.xor_lt_two_pow hx (times_lt hJ _)) ?_
  intro a ha
  simp only [List.mem_cons, List.not_mem_nil, or_false] at ha
  rcases ha with rfl | rfl | rfl | rfl | rfl | rfl | rfl | rfl | rfl | rfl <;> assumption

end

theorem key_lt (k : Bytes) (o : Nat) : beNat ((k.drop o).take 16) < 2 ^ 128 := by
  refine lt_of_lt_of_le (beNat_lt' (n := ((k.drop o).take 16).length) rfl) (Nat.pow_le_pow_right (by decide) ?_)
  rw [List.length_take]
  omega

theorem keyed_lt {r : Nat → Nat} (hr : ∀ x, x < 2 ^ 128 → r x < 2 ^ 128) (k : Bytes) {a : Nat × Nat} (ha : a.2 < 2 ^ 128) : keyed r k a < 2 ^ 128 := by
  have hI : (AezSpec.key k).I < 2 ^ 128 := key_lt k 0
  have hJ : (AezSpec.key k).J < 2 ^ 128 := key_lt k 16
  have hL : (AezSpec.key k).L < 2 ^ 128 := key_lt k 32
  have hd := delta_lt hr hI hJ hL
  unfold keyed
  split
  · exact Nat.xor_lt_two_pow hd (E0_lt hr hI hJ hL _ ha)
  · split
    · exact E0_lt hr hI hJ hL _ (Nat.xor_lt_two_pow hd ha)
    · exact Em1_lt hr hI hJ hL _ ha

/-- The keyed functions as a table. -/
def tableOf (r : Nat → Nat) (k : Bytes) : Table := fun a => ⟨keyed r k (a.1.1, a.2.1) % 2 ^ 128, Nat.mod_lt _ (Nat.two_pow_pos _)⟩

theorem look_tableOf {r : Nat → Nat} (hr : ∀ x, x < 2 ^ 128 → r x < 2 ^ 128) (k : Bytes) (a : Nat × Nat) (h1 : a.1 < 12) (h2 : a.2 < 2 ^ 128) :
    keyed r k a = look (tableOf r k) a := by
  show _ = keyed r k (a.1 % 12, a.2 % 2 ^ 128) % 2 ^ 128
  rw [Nat.mod_eq_of_lt h1, Nat.mod_eq_of_lt h2]
  exact (Nat.mod_eq_of_lt (keyed_lt hr k h2)).symm

end Verif.AezParity
