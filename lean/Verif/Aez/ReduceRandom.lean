import Verif.Aez.LemmasRandom

/-!
# Random tables give four random rounds

The first four rounds of the permutation of short strings ask the table at points that nothing else asks for.  Therefore they can be replaced by
independent random functions, and C110 follows from the theorem on four rounds.
-/

namespace Verif.AezRandom

open Verif Verif.Avg Verif.Oracle Verif.Feistel

/-! ## A table with random values added at some points -/

section
variable {κ δ : Type}

/-- Values `g` at the points `pt`, 0 elsewhere. -/
noncomputable def spread (pt : κ → δ) (g : κ → Nat) (a : δ) : Nat :=
  haveI := Classical.propDecidable
  if h : ∃ k, pt k = a then g h.choose else 0

theorem spread_pt {pt : κ → δ} (hp : Function.Injective pt) (g : κ → Nat) (k : κ) : spread pt g (pt k) = g k := by
  have h : ∃ k', pt k' = pt k := ⟨k, rfl⟩
  unfold spread
  rw [dif_pos h, hp h.choose_spec]

theorem spread_else {pt : κ → δ} {g : κ → Nat} {a : δ} (h : ∀ k, pt k ≠ a) : spread pt g a = 0 := by
  unfold spread
  rw [dif_neg fun ⟨k, e⟩ => h k e]

theorem spread_lt {pt : κ → δ} {g : κ → Nat} {e : Nat} (h : ∀ k, g k < 2 ^ e) (a : δ) : spread pt g a < 2 ^ e := by
  unfold spread
  split
  · exact h _
  · exact Nat.two_pow_pos _

/-- The table with values added. -/
noncomputable def shifted {e : Nat} (v : δ → Nat) (hv : ∀ a, v a < 2 ^ e) (ρ : δ → Fin (2 ^ e)) : δ → Fin (2 ^ e) :=
  fun a => ⟨(ρ a).1 ^^^ v a, Nat.xor_lt_two_pow (ρ a).2 (hv a)⟩

theorem shifted_invol {e : Nat} (v : δ → Nat) (hv : ∀ a, v a < 2 ^ e) : Function.Involutive (shifted v hv) := by
  intro ρ
  funext a
  apply Fin.ext
  show ((ρ a).1 ^^^ v a) ^^^ v a = (ρ a).1
  rw [Nat.xor_assoc, Nat.xor_self, Nat.xor_zero]

theorem E_shifted {e : Nat} [Fintype δ] [DecidableEq δ] (v : δ → Nat) (hv : ∀ a, v a < 2 ^ e) (F : (δ → Fin (2 ^ e)) → ℚ) :
    E (fun ρ => F (shifted v hv ρ)) = E F := E_equiv (Function.Involutive.toPerm _ (shifted_invol v hv)) F

end

/-! ## Halves -/

section
variable {m : Nat}

/-- A half of a string. -/
abbrev V (i : Len m) : Type := Fin (2 ^ (4 * i.1.1))

instance (i : Len m) : Nonempty (V i) := ⟨⟨0, Nat.two_pow_pos _⟩⟩

def xr (i : Len m) (a b : V i) : V i := ⟨a.1 ^^^ b.1, Nat.xor_lt_two_pow a.2 b.2⟩

theorem xr_xr (i : Len m) (a b : V i) : xr i a (xr i a b) = b := by
  apply Fin.ext
  show a.1 ^^^ (a.1 ^^^ b.1) = b.1
  rw [← Nat.xor_assoc, Nat.xor_self, Nat.zero_xor]

theorem xr_comm (i : Len m) (a b : V i) : xr i a b = xr i b a := Fin.ext (Nat.xor_comm _ _)

def nat {i : Len m} (p : V i × V i) : Nat × Nat := (p.1.1, p.2.1)

theorem nat_inj {i : Len m} {p p' : V i × V i} (h : nat p = nat p') : p = p' := by
  obtain ⟨a, b⟩ := p
  obtain ⟨a', b'⟩ := p'
  injection h with h1 h2
  exact Prod.ext (Fin.ext h1) (Fin.ext h2)

/-- The number of a string. -/
def num {i : Len m} (p : V i × V i) : Nat := AezSpec.joined i.1.1 (nat p).swap

def pairOf (i : Len m) (x : Nat) : V i × V i :=
  (⟨x / 2 ^ (4 * i.1.1) % 2 ^ (4 * i.1.1), Nat.mod_lt _ (Nat.two_pow_pos _)⟩, ⟨x % 2 ^ (4 * i.1.1), Nat.mod_lt _ (Nat.two_pow_pos _)⟩)

theorem num_lt {i : Len m} (p : V i × V i) : num p < 2 ^ (8 * i.1.1) := joined_lt (p := (nat p).swap) p.2.2 p.1.2

theorem halves_num {i : Len m} (p : V i × V i) : AezSpec.halvesOf i.1.1 (num p) = nat p := halves_joined (p := (nat p).swap) p.2.2

theorem nat_pairOf (i : Len m) {x : Nat} (hx : x < 2 ^ (8 * i.1.1)) : nat (pairOf i x) = AezSpec.halvesOf i.1.1 x := by
  show (_, _) = (_, _)
  congr 1
  exact Nat.mod_eq_of_lt (halves_lt hx).1

theorem num_pairOf (i : Len m) {x : Nat} (hx : x < 2 ^ (8 * i.1.1)) : num (pairOf i x) = x := by
  unfold num
  rw [nat_pairOf i hx, joined_halves]

theorem pairOf_num {i : Len m} (p : V i × V i) : pairOf i (num p) = p := nat_inj (by rw [nat_pairOf i (num_lt p), halves_num])

theorem num_inj {i : Len m} {p p' : V i × V i} (h : num p = num p') : p = p' := by rw [← pairOf_num p, h, pairOf_num]

/-! ## The permutations of a table -/

/-- The function of round `j`. -/
def tbl (ρ : Table) (j : Nat) : Fn (V (m := m)) := fun p =>
  ⟨look ρ (point p.1.1.1 p.2.1 j) / 2 ^ (128 - 4 * p.1.1.1), Nat.div_lt_of_lt_mul (by
    rw [← pow_add, show 128 - 4 * p.1.1.1 + 4 * p.1.1.1 = 128 by have := p.1.1.2; omega]
    exact look_lt _ _)⟩

def tables (ρ : Table) : Four (V (m := m)) := ((tbl ρ 0, tbl ρ 3), (tbl ρ 1, tbl ρ 2))

theorem nat_round (ρ : Table) (j : Nat) {i : Len m} (p : V i × V i) : nat (roundFn xr (tbl ρ j) i p) = roundT (look ρ) i.1.1 (nat p) j := rfl

/-- What follows the first four rounds. -/
def rest (T : Nat × Nat → Nat) (n : Nat) (p : Nat × Nat) : Nat :=
  let y := AezSpec.joined n (((List.range (count n)).drop 4).foldl (roundT T n) p)
  y ^^^ bitT T n y

theorem rest_four (ρ : Table) {i : Len m} (p : V i × V i) : rest (look ρ) i.1.1 (nat (fourOf xr (tables ρ) i p)) = encT (look ρ) i.1.1 (num p) := by
  unfold rest encT
  rw [halves_num]
  have h : (List.range (count i.1.1)) = [0, 1, 2, 3] ++ (List.range (count i.1.1)).drop 4 := by
    conv_lhs => rw [← List.take_append_drop 4 (List.range _)]
    rw [List.take_range, Nat.min_eq_left (four_le_count _)]
    rfl
  conv_rhs => rw [h, List.foldl_append]
  rfl

theorem rest_lt (ρ : Table) (hm : 1 ≤ m) {i : Len m} (p : V i × V i) : rest (look ρ) i.1.1 (nat p) < 2 ^ (8 * i.1.1) := by
  obtain ⟨c, d⟩ := rounds_lt (look_lt ρ) i.1.2 ((List.range (count i.1.1)).drop 4) (p := nat p) p.1.2 p.2.2
  exact Nat.xor_lt_two_pow (joined_lt c d) (bitT_lt (look_lt ρ) (le_trans hm i.2) _)

theorem rest_inj (ρ : Table) (hm : 1 ≤ m) {i : Len m} {p p' : V i × V i} (h : rest (look ρ) i.1.1 (nat p) = rest (look ρ) i.1.1 (nat p')) : p = p' := by
  have hn : 1 ≤ i.1.1 := le_trans hm i.2
  unfold rest at h
  obtain ⟨c, d⟩ := rounds_lt (look_lt ρ) i.1.2 ((List.range (count i.1.1)).drop 4) (p := nat p) p.1.2 p.2.2
  obtain ⟨c', d'⟩ := rounds_lt (look_lt ρ) i.1.2 ((List.range (count i.1.1)).drop 4) (p := nat p') p'.1.2 p'.2.2
  have inv : ∀ y, (y ^^^ bitT (look ρ) i.1.1 y) ^^^ bitT (look ρ) i.1.1 (y ^^^ bitT (look ρ) i.1.1 y) = y := by
    intro y
    rw [bitT_bitT (look_lt ρ) hn, Nat.xor_assoc, Nat.xor_self, Nat.xor_zero]
  have h2 := congrArg (fun z => z ^^^ bitT (look ρ) i.1.1 z) h
  beta_reduce at h2
  rw [inv, inv] at h2
  have h3 := congrArg (AezSpec.halvesOf i.1.1) h2
  rw [halves_joined c, halves_joined c'] at h3
  have h4 := congrArg (((List.range (count i.1.1)).drop 4).reverse.foldl (roundT (look ρ) i.1.1)) h3
  rw [rounds_reverse, rounds_reverse] at h4
  exact nat_inj (Prod.swap_injective h4)

theorem tail_bij (ρ : Table) (hm : 1 ≤ m) (i : Len m) : Function.Bijective (fun p : V i × V i => pairOf i (rest (look ρ) i.1.1 (nat p))) := by
  refine Finite.injective_iff_bijective.1 fun p p' h => rest_inj ρ hm ?_
  have := congrArg num h
  beta_reduce at this
  rwa [num_pairOf i (rest_lt ρ hm p), num_pairOf i (rest_lt ρ hm p')] at this

noncomputable def tailPerm (hm : 1 ≤ m) (ρ : Table) : Fam (V (m := m)) := fun i => Equiv.ofBijective _ (tail_bij ρ hm i)

/-- The permutations that a table gives. -/
noncomputable def permOf (hm : 1 ≤ m) (ρ : Table) : Fam (V (m := m)) := before xr_xr xr_comm (tailPerm hm ρ) (tables ρ)

theorem num_permOf (hm : 1 ≤ m) (ρ : Table) {i : Len m} (p : V i × V i) : num (permOf hm ρ i p) = encT (look ρ) i.1.1 (num p) := by
  show num (pairOf i (rest (look ρ) i.1.1 (nat (fourOf xr (tables ρ) i p)))) = _
  rw [num_pairOf i (rest_lt ρ hm _), rest_four]

theorem num_symm (hm : 1 ≤ m) (ρ : Table) {i : Len m} (p : V i × V i) : num ((permOf hm ρ i).symm p) = decT (look ρ) i.1.1 (num p) := by
  have h := num_permOf hm ρ ((permOf hm ρ i).symm p)
  rw [Equiv.apply_symm_apply] at h
  rw [h, decT_encT (look_lt ρ) (le_trans hm i.2) i.1.2 (num_lt _)]

/-! ## The first four rounds are random -/

/-- The functions of the rounds. -/
def sel (f : Four (V (m := m))) : Fin 4 → Fn (V (m := m))
  | 0 => f.1.1
  | 1 => f.2.1
  | 2 => f.2.2
  | 3 => f.1.2

/-- Where round `j` asks. -/
def pt (k : Fin 4 × Pt (V (m := m))) : Fin 12 × Fin (2 ^ 128) :=
  (⟨(point k.2.1.1.1 k.2.2.1 k.1.1).1 % 12, Nat.mod_lt _ (by decide)⟩, ⟨(point k.2.1.1.1 k.2.2.1 k.1.1).2 % 2 ^ 128, Nat.mod_lt _ (Nat.two_pow_pos 128)⟩)

theorem four_le_cap (n : Nat) (j : Fin 4) : j.1 < cap n := by
  unfold cap
  have := j.2
  split_ifs <;> omega

theorem pt_inj : Function.Injective (pt (m := m)) := by
  rintro ⟨j, i, R⟩ ⟨j', i', R'⟩ h
  injection h with h1 h2
  have h1' : (point i.1.1 R.1 j.1).1 % 12 = (point i'.1.1 R'.1 j'.1).1 % 12 := congrArg Fin.val h1
  have h2' : (point i.1.1 R.1 j.1).2 % 2 ^ 128 = (point i'.1.1 R'.1 j'.1).2 % 2 ^ 128 := congrArg Fin.val h2
  rw [Nat.mod_eq_of_lt (point_fst _ _ _).1, Nat.mod_eq_of_lt (point_fst _ _ _).1] at h1'
  rw [Nat.mod_eq_of_lt (point_lt i.1.2 R.2 (four_le_cap _ _)), Nat.mod_eq_of_lt (point_lt i'.1.2 R'.2 (four_le_cap _ _))] at h2'
  obtain ⟨a, b, c⟩ := point_inj i.1.2 i'.1.2 (four_le_cap _ _) (four_le_cap _ _) (Prod.ext h1' h2')
  have hi : i = i' := Subtype.ext (Fin.ext a)
  subst hi
  rw [Fin.ext b, Fin.ext c]

/-- The values that are added: the functions `f` in the first bits. -/
def high (f : Four (V (m := m))) (k : Fin 4 × Pt (V (m := m))) : Nat := (sel f k.1 k.2).1 * 2 ^ (128 - 4 * k.2.1.1.1)

theorem high_lt (f : Four (V (m := m))) (k : Fin 4 × Pt (V (m := m))) : high f k < 2 ^ 128 := by
  have e : (2 : Nat) ^ 128 = 2 ^ (4 * k.2.1.1.1) * 2 ^ (128 - 4 * k.2.1.1.1) := by
    rw [← pow_add]; congr 1; have := k.2.1.1.2; omega
  rw [e]
  exact Nat.mul_lt_mul_of_pos_right (sel f k.1 k.2).2 (Nat.two_pow_pos _)

/-- The table with the functions added. -/
noncomputable def added (f : Four (V (m := m))) (ρ : Table) : Table := shifted (spread pt (high f)) (spread_lt (high_lt f)) ρ

theorem look_added (f : Four (V (m := m))) (ρ : Table) (a : Nat × Nat) :
    look (added f ρ) a = look ρ a ^^^ spread pt (high f) (⟨a.1 % 12, Nat.mod_lt _ (by decide)⟩, ⟨a.2 % 2 ^ 128, Nat.mod_lt _ (Nat.two_pow_pos 128)⟩) := rfl

theorem look_added_pt (f : Four (V (m := m))) (ρ : Table) (k : Fin 4 × Pt (V (m := m))) :
    look (added f ρ) (point k.2.1.1.1 k.2.2.1 k.1.1) =
      look ρ (point k.2.1.1.1 k.2.2.1 k.1.1) ^^^ high f k := by
  rw [look_added]
  congr 1
  exact spread_pt pt_inj _ k

theorem look_added_three (f : Four (V (m := m))) (ρ : Table) (x : Nat) : look (added f ρ) (3, x) = look ρ (3, x) := by
  rw [look_added, spread_else, Nat.xor_zero]
  intro k h
  injection h with h1 _
  have h1' : (point k.2.1.1.1 k.2.2.1 k.1.1).1 % 12 = 3 % 12 := congrArg Fin.val h1
  rw [Nat.mod_eq_of_lt (point_fst _ _ _).1] at h1'
  exact (point_fst _ _ _).2 h1'

theorem look_added_late (f : Four (V (m := m))) (ρ : Table) {n R j : Nat} (hn : n < 33) (hR : R < 2 ^ (4 * n)) (h4 : 4 ≤ j) (hj : j < cap n) :
    look (added f ρ) (point n R j) = look ρ (point n R j) := by
  rw [look_added, spread_else, Nat.xor_zero]
  intro k h
  injection h with h1 h2
  have h1' : (point k.2.1.1.1 k.2.2.1 k.1.1).1 % 12 = (point n R j).1 % 12 := congrArg Fin.val h1
  have h2' : (point k.2.1.1.1 k.2.2.1 k.1.1).2 % 2 ^ 128 = (point n R j).2 % 2 ^ 128 := congrArg Fin.val h2
  rw [Nat.mod_eq_of_lt (point_fst _ _ _).1, Nat.mod_eq_of_lt (point_fst _ _ _).1] at h1'
  rw [Nat.mod_eq_of_lt (point_lt k.2.1.1.2 k.2.2.2 (four_le_cap _ _)), Nat.mod_eq_of_lt (point_lt hn hR hj)] at h2'
  obtain ⟨-, -, c⟩ := point_inj k.2.1.1.2 hn (four_le_cap _ _) hj (Prod.ext h1' h2')
  have := k.1.2
  omega

theorem bitT_added (f : Four (V (m := m))) (ρ : Table) (n x : Nat) : bitT (look (added f ρ)) n x = bitT (look ρ) n x := by
  unfold bitT
  rw [look_added_three]

theorem rounds_added (f : Four (V (m := m))) (ρ : Table) {n : Nat} (hn : n < 33) : ∀ (js : List Nat) {p : Nat × Nat}, (∀ j ∈ js, 4 ≤ j ∧ j < cap n) →
    p.1 < 2 ^ (4 * n) → p.2 < 2 ^ (4 * n) → js.foldl (roundT (look (added f ρ)) n) p = js.foldl (roundT (look ρ) n) p
  | [], _, _, _, _ => rfl
  | j :: js, p, hj, h1, h2 => by
    rw [List.foldl_cons, List.foldl_cons]
    have e : roundT (look (added f ρ)) n p j = roundT (look ρ) n p j := by
      unfold roundT
      rw [look_added_late f ρ hn h2 (hj j List.mem_cons_self).1 (hj j List.mem_cons_self).2]
    rw [e]
    obtain ⟨a, b⟩ := roundT_lt (look_lt ρ) hn h1 h2 j
    exact rounds_added f ρ hn js (fun j' h' => hj j' (List.mem_cons_of_mem _ h')) a b

theorem rest_added (f : Four (V (m := m))) (ρ : Table) {i : Len m} (p : V i × V i) : rest (look (added f ρ)) i.1.1 (nat p) = rest (look ρ) i.1.1 (nat p) := by
  unfold rest
  rw [rounds_added f ρ i.1.2 _ ?_ p.1.2 p.2.2]
  · simp only [bitT_added]
  · intro j hj
    rw [List.range_eq_range', List.drop_range'] at hj
    rw [List.mem_range'_1] at hj
    have := count_cap i.1.1
    omega

theorem tailPerm_added (hm : 1 ≤ m) (f : Four (V (m := m))) (ρ : Table) : tailPerm hm (added f ρ) = tailPerm hm ρ := by
  funext i
  apply Equiv.ext
  intro p
  show pairOf i _ = pairOf i _
  rw [rest_added]

/-- The functions of two families, added. -/
def addFour (g f : Four (V (m := m))) : Four (V (m := m)) :=
  ((fun p => xr p.1 (g.1.1 p) (f.1.1 p), fun p => xr p.1 (g.1.2 p) (f.1.2 p)), (fun p => xr p.1 (g.2.1 p) (f.2.1 p), fun p => xr p.1 (g.2.2 p) (f.2.2 p)))

theorem addFour_invol (g : Four (V (m := m))) : Function.Involutive (addFour g) := by
  intro f
  simp only [addFour, xr_xr]

theorem tbl_added (f : Four (V (m := m))) (ρ : Table) (j : Fin 4) (p : Pt (V (m := m))) : tbl (added f ρ) j.1 p = xr p.1 (tbl ρ j.1 p) (sel f j p) := by
  apply Fin.ext
  show look (added f ρ) _ / _ = look ρ _ / _ ^^^ _
  rw [look_added_pt f ρ (j, p), Aez.xor_div]
  congr 1
  exact Nat.mul_div_cancel _ (Nat.two_pow_pos _)

theorem tables_added (f : Four (V (m := m))) (ρ : Table) : tables (added f ρ) = addFour (tables ρ) f := by
  have e : ∀ j : Fin 4, tbl (m := m) (added f ρ) j.1 = fun p => xr p.1 (tbl ρ j.1 p) (sel f j p) := fun j => funext fun p => tbl_added f ρ j p
  show ((tbl _ (0 : Fin 4).1, tbl _ (3 : Fin 4).1), (tbl _ (1 : Fin 4).1, tbl _ (2 : Fin 4).1)) = _
  rw [e, e, e, e]
  rfl

theorem E_permOf (hm : 1 ≤ m) (F : Fam (V (m := m)) → ℚ) :
    E (fun ρ : Table => F (permOf hm ρ)) = E (fun ρ : Table => E (fun f : Four (V (m := m)) => F (before xr_xr xr_comm (tailPerm hm ρ) f))) := by
  have h1 : E (fun ρ : Table => F (permOf hm ρ)) = E (fun f : Four (V (m := m)) => E (fun ρ : Table => F (permOf hm (added f ρ)))) := by
    have : ∀ f : Four (V (m := m)), E (fun ρ : Table => F (permOf hm (added f ρ))) = E (fun ρ : Table => F (permOf hm ρ)) :=
      fun f => E_shifted _ (spread_lt (high_lt f)) (fun ρ => F (permOf hm ρ))
    simp only [this]
    rw [E_const]
  rw [h1, E_comm]
  congr 1
  funext ρ
  have h2 : ∀ f : Four (V (m := m)), permOf hm (added f ρ) = before xr_xr xr_comm (tailPerm hm ρ) (addFour (tables ρ) f) := by
    intro f
    unfold permOf
    rw [tailPerm_added, tables_added]
  simp only [h2]
  exact E_equiv (Function.Involutive.toPerm _ (addFour_invol (tables ρ))) (fun f => F (before xr_xr xr_comm (tailPerm hm ρ) f))

/-! ## Strings -/

theorem beBytes_len (n x : Nat) : (beBytes n x).length = n := by
  simp [beBytes]

theorem toBytes_ofBytes {n : Nat} {s : Bytes} (h : s.length = n) : toBytes (ofBytes n s) = s := by
  subst h
  unfold toBytes ofBytes
  apply List.ext_getElem
  · simp
  · intro k h1 h2
    rw [List.getElem_ofFn, List.getD_eq_getElem?_getD, List.getElem?_eq_getElem h2]
    rfl

theorem ofBytes_toBytes {n : Nat} (b : Block n) : ofBytes n (toBytes b) = b := by
  funext k
  unfold toBytes ofBytes
  rw [List.getD_eq_getElem?_getD, List.getElem?_eq_getElem (by simp), List.getElem_ofFn]
  rfl

theorem pow_256 (n : Nat) : 256 ^ n = 2 ^ (8 * n) := by
  rw [pow_mul]
  norm_num

theorem beNat_lt' {s : Bytes} {n : Nat} (h : s.length = n) : beNat s < 2 ^ (8 * n) := by
  rw [← pow_256, ← h]
  exact beNat_lt s

theorem toBytes_len {n : Nat} (b : Block n) : (toBytes b).length = n := List.length_ofFn

theorem beBytes_beNat'' {s : Bytes} {n : Nat} (h : s.length = n) : beBytes n (beNat s) = s := by
  subst h
  exact beBytes_beNat s

/-- Pairs of halves are strings. -/
def strings (i : Len m) : V i × V i ≃ Block i.1.1 where
  toFun p := ofBytes i.1.1 (beBytes i.1.1 (num p))
  invFun b := pairOf i (beNat (toBytes b))
  left_inv p := by
    beta_reduce
    rw [toBytes_ofBytes (beBytes_len _ _), beNat_beBytes_of_lt (by rw [pow_256]; exact num_lt p), pairOf_num]
  right_inv b := by
    beta_reduce
    rw [num_pairOf i (beNat_lt' (toBytes_len b)), beBytes_beNat'' (toBytes_len b), ofBytes_toBytes]

theorem toBytes_strings {i : Len m} (p : V i × V i) : toBytes (strings i p) = beBytes i.1.1 (num p) := toBytes_ofBytes (beBytes_len _ _)

theorem strings_symm {i : Len m} {s : Bytes} (h : s.length = i.1.1) : (strings i).symm (ofBytes i.1.1 s) = pairOf i (beNat s) := by
  show pairOf i (beNat (toBytes (ofBytes i.1.1 s))) = _
  rw [toBytes_ofBytes h]

/-- The same attack, on pairs of halves. -/
def onPairs (m : Nat) : Att Ask Bytes → Att (Bool × Msg (V (m := m))) (Msg (V (m := m)))
  | .done b => .done b
  | .ask a c =>
    if h : m ≤ a.2.length ∧ a.2.length < 33 then
      .ask (a.1, ⟨⟨⟨a.2.length, h.2⟩, h.1⟩, pairOf _ (beNat a.2)⟩) fun r => onPairs m (c (beBytes r.1.1.1 (num r.2)))
    else .done false

theorem atMost_onPairs {q : Nat} {A : Att Ask Bytes} (hA : AtMost q A) : AtMost q (onPairs m A) := by
  induction hA with
  | done b => exact .done b
  | @ask q a c _ ih =>
    unfold onPairs
    split
    · exact .ask fun r => ih _
    · exact .done false

/-- Answers in bytes of permutations of pairs. -/
def bytesOf (P : Fam (V (m := m))) (a : Ask) : Bytes :=
  if h : m ≤ a.2.length ∧ a.2.length < 33 then
    let i : Len m := ⟨⟨a.2.length, h.2⟩, h.1⟩
    beBytes a.2.length (num (if a.1 then (P i).symm (pairOf i (beNat a.2)) else P i (pairOf i (beNat a.2))))
  else []

theorem play_onPairs (P : Fam (V (m := m))) {F : Ask → Bytes} (hF : ∀ a, Short m a → F a = bytesOf P a) {A : Att Ask Bytes} (hA : Asks (Short m) A) :
    play (answer P) (onPairs m A) = play F A := by
  induction hA with
  | done b => rfl
  | @ask a c ha _ ih =>
    unfold onPairs
    rw [dif_pos (show _ ∧ _ from ha)]
    show play (answer P) (onPairs m (c _)) = play F (c (F a))
    rw [ih, hF a ha]
    congr 2
    obtain ⟨d, s⟩ := a
    unfold bytesOf
    rw [dif_pos (show _ ∧ _ from ha)]
    cases d <;> rfl

theorem beNat_append (a : Bytes) : ∀ b : Bytes, beNat (a ++ b) = beNat a * 256 ^ b.length + beNat b := by
  intro b
  have h := leNat_append b.reverse a.reverse
  rw [beNat_eq_leNat_reverse, beNat_eq_leNat_reverse, beNat_eq_leNat_reverse, List.reverse_append, h, List.length_reverse]
  ring

theorem beNat_cut (s : Bytes) (h : s.length = 32) : beNat s = beNat (s.take 16) * 2 ^ 128 + beNat (s.drop 16) := by
  conv_lhs => rw [← List.take_append_drop 16 s]
  rw [beNat_append, List.length_drop, h, pow_256]

/-- Strings of 32 bytes are like the others. -/
theorem coreT_eq (ρ : Table) (d : Bool) {s : Bytes} (h : s.length = 32) :
    coreT (look ρ) d s = beBytes 32 (if d then decT (look ρ) 32 (beNat s) else encT (look ρ) 32 (beNat s)) := by
  have h1 : beNat (s.take 16) < 2 ^ (4 * 32) := beNat_lt' (n := 16) (by rw [List.length_take, h]; rfl)
  have h2 : beNat (s.drop 16) < 2 ^ (4 * 32) := beNat_lt' (n := 16) (by rw [List.length_drop, h])
  have hh : AezSpec.halvesOf 32 (beNat s) = (beNat (s.take 16), beNat (s.drop 16)) := by
    rw [beNat_cut s h]
    exact halves_joined (n := 32) (p := (beNat (s.drop 16), beNat (s.take 16))) h2
  have hj : ∀ js : List Nat, beBytes 32 (AezSpec.joined 32 (js.foldl (roundT (look ρ) 32) (beNat (s.take 16), beNat (s.drop 16)))) =
      beBytes 16 (js.foldl (roundT (look ρ) 32) (beNat (s.take 16), beNat (s.drop 16))).2 ++
        beBytes 16 (js.foldl (roundT (look ρ) 32) (beNat (s.take 16), beNat (s.drop 16))).1 := by
    intro js
    obtain ⟨c, e⟩ := rounds_lt (look_lt ρ) (by decide) js (p := (beNat (s.take 16), beNat (s.drop 16))) h1 h2
    generalize js.foldl (roundT (look ρ) 32) (beNat (s.take 16), beNat (s.drop 16)) = p at c e ⊢
    have hl : (beBytes 16 p.2 ++ beBytes 16 p.1).length = 32 := by rw [List.length_append, beBytes_len, beBytes_len]
    rw [← beBytes_beNat'' hl, beNat_append, beBytes_len, beNat_beBytes_of_lt (by rw [pow_256]; exact e),
      beNat_beBytes_of_lt (by rw [pow_256]; exact c), pow_256]
    rfl
  have hb : ∀ x, bitT (look ρ) 32 x = 0 := fun x => if_neg (by decide)
  cases d
  · simp only [coreT, encT, hb, Nat.xor_zero, hh, Bool.false_eq_true, if_false]
    rw [← hj]
    rfl
  · simp only [coreT, decT, hb, Nat.xor_zero, hh, if_true]
    rw [← hj]
    rfl

theorem bytesOf_permOf (hm : 1 ≤ m) (ρ : Table) {a : Ask} (ha : Short m a) : cipherT (look ρ) a = bytesOf (permOf hm ρ) a := by
  have e : cipherT (look ρ) a = beBytes a.2.length (if a.1 then decT (look ρ) a.2.length (beNat a.2) else encT (look ρ) a.2.length (beNat a.2)) := by
    unfold cipherT
    split
    · rename_i h
      rw [coreT_eq ρ a.1 h, h]
    · rfl
  rw [e]
  obtain ⟨d, s⟩ := a
  unfold bytesOf
  rw [dif_pos (show _ ∧ _ from ha)]
  have hl : beNat s < 2 ^ (8 * (⟨⟨s.length, ha.2⟩, ha.1⟩ : Len m).1.1) := beNat_lt' rfl
  cases d
  · simp only [Bool.false_eq_true, if_false, num_permOf, num_pairOf _ hl]
  · simp only [if_true, num_symm, num_pairOf _ hl]

theorem bytesOf_perm (P : Fam (V (m := m))) {a : Ask} (ha : Short m a) :
    permAnswer (Equiv.piCongrRight (fun i : Len m => (strings i).permCongr) P) a = bytesOf P a := by
  obtain ⟨d, s⟩ := a
  unfold bytesOf permAnswer
  rw [dif_pos (show _ ∧ _ from ha), dif_pos (show _ ∧ _ from ha)]
  have hs := strings_symm (i := (⟨⟨s.length, ha.2⟩, ha.1⟩ : Len m)) (s := s) rfl
  cases d
  · show toBytes (strings _ (P _ ((strings _).symm _))) = _
    rw [toBytes_strings]
    rw [hs]
    rfl
  · show toBytes (strings _ ((P _).symm ((strings _).symm _))) = _
    rw [toBytes_strings]
    rw [hs]
    rfl

/-- Random tables look like random permutations. -/
theorem random_close (hm : 1 ≤ m) {q : Nat} {A : Att Ask Bytes} (hA : AtMost q A) (hs : Asks (Short m) A) :
    |E (fun ρ : Table => play (cipherT (look ρ)) A) - ideal m A| ≤ (q : ℚ) * (q - 1) / 16 ^ m + (q : ℚ) * (q - 1) / (2 * 256 ^ m) := by
  have e1 : ∀ ρ : Table, play (cipherT (look ρ)) A = play (answer (permOf hm ρ)) (onPairs m A) :=
    fun ρ => (play_onPairs (permOf hm ρ) (fun a ha => bytesOf_permOf hm ρ ha) hs).symm
  have e2 : ideal m A = E (fun P : Fam (V (m := m)) => play (answer P) (onPairs m A)) := by
    unfold ideal
    rw [← E_equiv (Equiv.piCongrRight fun i : Len m => (strings i).permCongr)]
    congr 1
    funext P
    exact (play_onPairs P (fun a ha => bytesOf_perm P ha) hs).symm
  simp only [e1]
  rw [e2, E_permOf hm (fun P => play (answer P) (onPairs m A)),
    ← E_const (α := Table) (E (fun P : Fam (V (m := m)) => play (answer P) (onPairs m A)))]
  refine abs_E_sub_le _ _ fun ρ => ?_
  have := feistel_close (x := xr (m := m)) xr_xr xr_comm (N := 16 ^ m) (M := 256 ^ m) (by positivity) (by positivity) ?_ ?_ (tailPerm hm ρ) (atMost_onPairs (m := m) hA)
  · push_cast at this
    exact this
  · intro i
    rw [Fintype.card_fin, show (16 : Nat) ^ m = 2 ^ (4 * m) by rw [pow_mul]; norm_num]
    exact Nat.pow_le_pow_right (by decide) (by have := i.2; omega)
  · intro i
    rw [Fintype.card_prod, Fintype.card_fin, pow_256, ← pow_add]
    exact Nat.pow_le_pow_right (by decide) (by have := i.2; omega)

end

end Verif.AezRandom
