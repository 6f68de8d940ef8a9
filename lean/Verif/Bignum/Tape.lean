import Verif.Bignum.PropsPrime
import Mathlib.Data.Fin.Tuple.Basic
import Mathlib.Data.Fintype.BigOperators
import Mathlib.Data.Fintype.Pi
import Mathlib.Algebra.BigOperators.Fin
import Mathlib.Algebra.Order.BigOperators.Group.Finset
import Mathlib.Tactic.Ring
import Mathlib.Tactic.Linarith

/-!
# Counting the sequences of random numbers for which the primality test accepts
-/

namespace Verif.Bignum.Tape

open Verif Verif.Bignum Verif.Tdp

/-! ## The test as a function of the list of numbers drawn -/

/-- The test with `r` rounds to go; `none` at the beginning of a round, `some c` when `c` more candidates for the base are looked at. -/
def acc (u s : Nat → Bool) : List Nat → Nat → Option Nat → Bool
  | _, 0, _ => true
  | [], _ + 1, _ => false
  | _ :: l, r + 1, none => acc u s l (r + 1) (some 31)
  | _ :: _, _ + 1, some 0 => false
  | v :: l, r + 1, some (c + 1) => if u v then s v && acc u s l r none else acc u s l (r + 1) (some c)

/-- The calls from `i` on give the numbers of the list. -/
def Reads (g : Rng) (sz i : Nat) (L : List Nat) : Prop := ∀ u (h : u < L.length), g (i + u) sz = .ok (beBytes sz L[u]) ∧ L[u] < 256 ^ sz

theorem Reads.head {g : Rng} {sz i v : Nat} {L : List Nat} (h : Reads g sz i (v :: L)) : g i sz = .ok (beBytes sz v) ∧ v < 256 ^ sz :=
  h 0 (by simp)

theorem Reads.tail {g : Rng} {sz i v : Nat} {L : List Nat} (h : Reads g sz i (v :: L)) : Reads g sz (i + 1) L := fun u hu => by
  have := h (u + 1) (by simpa using hu)
  rw [show i + 1 + u = i + (u + 1) by omega]
  exact this

/-- The base that a number drawn stands for. -/
def base (n v : Nat) : Nat := cutVal (n - 1) v

theorem baseOf_beBytes {n sz v : Nat} (h : v < 256 ^ sz) : baseOf n (beBytes sz v) = base n v := by
  rw [baseOf, base, beNat_beBytes_of_lt h]

section
open Classical

/-- The numbers that give a base, and a base for which `n` passes. -/
noncomputable def use (n v : Nat) : Bool := decide (Usable n (base n v))
noncomputable def pass (n v : Nat) : Bool := decide (Strong n (base n v))

theorem acc_picks {g : Rng} {sz n r a : Nat} : ∀ {t c i : Nat} {L : List Nat}, Reads g sz i L → t < L.length → t < c → Useless g sz n i t →
    (∃ b, g (i + t) sz = .ok b ∧ b.length = sz ∧ baseOf n b = a) → Usable n a →
    acc (use n) (pass n) L (r + 1) (some c) = (decide (Strong n a) && acc (use n) (pass n) (L.drop (t + 1)) r none) := by
  intro t
  induction t with
  | zero =>
    intro c i L hL hl hc _ hb ha
    obtain ⟨c, rfl⟩ : ∃ c', c = c' + 1 := ⟨c - 1, by omega⟩
    cases L with
    | nil => simp at hl
    | cons v L =>
      obtain ⟨b, b1, -, b2⟩ := hb
      obtain ⟨h1, h2⟩ := hL.head
      rw [Nat.add_zero, h1, Out.ok.injEq] at b1
      rw [← b1, baseOf_beBytes h2] at b2
      rw [acc, if_pos (by rw [use, b2]; exact decide_eq_true ha), pass, b2]
      rfl
  | succ t ih =>
    intro c i L hL hl hc hu hb ha
    obtain ⟨c, rfl⟩ : ∃ c', c = c' + 1 := ⟨c - 1, by omega⟩
    cases L with
    | nil => simp at hl
    | cons v L =>
      obtain ⟨h1, h2⟩ := hL.head
      obtain ⟨b, b1, -, b2⟩ := hu 0 (by omega)
      rw [Nat.add_zero, h1, Out.ok.injEq] at b1
      rw [← b1, baseOf_beBytes h2] at b2
      rw [acc, if_neg (by rw [use]; simpa using b2), List.drop_succ_cons]
      refine ih hL.tail (by simpa using hl) (by omega) (fun w hw => ?_) ?_ ha
      · rw [show i + 1 + w = i + (w + 1) by omega]
        exact hu (w + 1) (by omega)
      · rw [show i + 1 + t = i + (t + 1) by omega]
        exact hb

theorem acc_useless {g : Rng} {sz n r : Nat} : ∀ {c i : Nat} {L : List Nat}, Reads g sz i L → Useless g sz n i c →
    acc (use n) (pass n) L (r + 1) (some c) = false := by
  intro c
  induction c with
  | zero => intro i L _ _; cases L <;> rfl
  | succ c ih =>
    intro i L hL hu
    cases L with
    | nil => rfl
    | cons v L =>
      obtain ⟨h1, h2⟩ := hL.head
      obtain ⟨b, b1, -, b2⟩ := hu 0 (by omega)
      rw [Nat.add_zero, h1, Out.ok.injEq] at b1
      rw [← b1, baseOf_beBytes h2] at b2
      rw [acc, if_neg (by rw [use]; simpa using b2)]
      refine ih hL.tail (fun w hw => ?_)
      rw [show i + 1 + w = i + (w + 1) by omega]
      exact hu (w + 1) (by omega)

theorem Reads.drop {g : Rng} {sz i : Nat} {L : List Nat} (h : Reads g sz i L) (k : Nat) : Reads g sz (i + k) (L.drop k) := fun u hu => by
  rw [List.length_drop] at hu
  have := h (k + u) (by omega)
  rw [List.getElem_drop, show i + k + u = i + (k + u) by omega]
  exact this

theorem Reads.from {g : Rng} {sz i j : Nat} {L : List Nat} (h : Reads g sz i L) (hij : i < j) : Reads g sz j (L.drop (j - i)) := by
  have := h.drop (j - i)
  rwa [Nat.add_sub_cancel' (Nat.le_of_lt hij)] at this

theorem acc_round {g : Rng} {sz n r a i j : Nat} {L : List Nat} (hL : Reads g sz i L) (hl : 32 ≤ L.length) (h : Round g sz n i a j) :
    acc (use n) (pass n) L (r + 1) none = (decide (Strong n a) && acc (use n) (pass n) (L.drop (j - i)) r none) ∧ i < j ∧ j ≤ i + 32 := by
  obtain ⟨-, t, h1, h2, h3, h4, h5⟩ := h
  cases L with
  | nil => simp at hl
  | cons v L =>
    rw [acc, acc_picks hL.tail (by simp at hl; omega) h1 h2 h3 h4, h5, show i + 1 + t + 1 - i = (t + 1) + 1 by omega, List.drop_succ_cons]
    exact ⟨rfl, by omega, by omega⟩

/-- Accepted numbers. -/
theorem acc_of_passes {g : Rng} {sz n r i j : Nat} {l : List Nat} (h : Passes g sz n r i l j) : ∀ {L : List Nat}, Reads g sz i L → 32 * r ≤ L.length →
    acc (use n) (pass n) L r none = true := by
  induction h with
  | nil i => intro L _ _; cases L <;> rfl
  | cons h1 h2 _ ih =>
    intro L hL hl
    obtain ⟨h3, h4, h5⟩ := acc_round (r := _) hL (by omega) h1
    rw [h3, decide_eq_true h2, Bool.true_and]
    exact ih (hL.from h4) (by rw [List.length_drop]; omega)

/-- Rejected numbers. -/
theorem acc_of_rejects {g : Rng} {sz n r i j : Nat} (h : Rejects g sz n r i j) : ∀ {L : List Nat}, Reads g sz i L → 32 * r ≤ L.length →
    acc (use n) (pass n) L r none = false := by
  induction h with
  | none _ h =>
    intro L hL hl
    cases L with
    | nil => rfl
    | cons v L => rw [acc]; exact acc_useless hL.tail h
  | fails h1 h2 =>
    intro L hL hl
    rw [(acc_round (r := _) hL (by omega) h1).1, decide_eq_false h2, Bool.false_and]
  | cons h1 h2 _ ih =>
    intro L hL hl
    obtain ⟨h3, h4, h5⟩ := acc_round (r := _) hL (by omega) h1
    rw [h3, ih (hL.from h4) (by rw [List.length_drop]; omega), Bool.and_false]

/-! ## Counting -/

variable {V : Nat}

/-- How many sequences of `M` numbers below `V` have the property. -/
noncomputable def num (V : Nat) (F : List Nat → Bool) (M : Nat) : Nat :=
  (Finset.univ.filter fun t : Fin M → Fin V => F (List.ofFn fun i => (t i).val) = true).card

theorem num_succ (F : List Nat → Bool) (M : Nat) : num V F (M + 1) = ∑ v : Fin V, num V (fun l => F (v.val :: l)) M := by
  unfold num
  simp only [← Fintype.card_subtype]
  rw [← Fintype.card_sigma]
  refine Fintype.card_congr ⟨fun t => ⟨t.1 0, Fin.tail t.1, ?_⟩, fun p => ⟨Fin.cons p.1 p.2.1, ?_⟩, fun t => ?_, fun p => ?_⟩
  · have := t.2
    rw [List.ofFn_succ] at this
    exact this
  · rw [List.ofFn_succ]
    simpa using p.2.2
  · exact Subtype.ext (Fin.cons_self_tail t.1)
  · obtain ⟨v, t, h⟩ := p
    refine Sigma.ext rfl (heq_of_eq (Subtype.ext ?_))
    exact Fin.tail_cons (α := fun _ => Fin V) v t

theorem num_true (M : Nat) : num V (fun _ => true) M = V ^ M := by
  unfold num
  rw [Finset.filter_true_of_mem (fun _ _ => rfl), Finset.card_univ, Fintype.card_fun, Fintype.card_fin, Fintype.card_fin]

theorem num_false (M : Nat) : num V (fun _ => false) M = 0 := by
  unfold num
  rw [Finset.card_eq_zero, Finset.filter_false_of_mem]
  simp

theorem num_not (F : List Nat → Bool) (M : Nat) : num V F M + num V (fun l => !F l) M = V ^ M := by
  have := Finset.card_filter_add_card_filter_not (s := (Finset.univ : Finset (Fin M → Fin V))) (fun t => F (List.ofFn fun i => (t i).val) = true)
  rw [Finset.card_univ, Fintype.card_fun, Fintype.card_fin, Fintype.card_fin] at this
  rw [← this]
  unfold num
  congr 2
  ext t
  simp

/-- The numbers below `V` with a property. -/
noncomputable def many (V : Nat) (f : Nat → Bool) : Nat := (Finset.univ.filter fun v : Fin V => f v.val = true).card

theorem many_not (f : Nat → Bool) : many V f + many V (fun v => !f v) = V := by
  have := Finset.card_filter_add_card_filter_not (s := (Finset.univ : Finset (Fin V))) (fun v => f v.val = true)
  rw [Finset.card_univ, Fintype.card_fin] at this
  conv_rhs => rw [← this]
  unfold many
  congr 2
  ext v
  simp

theorem many_eq (f : Nat → Bool) : many V f = ((Finset.range V).filter fun v => f v = true).card := by
  unfold many
  refine Finset.card_bij (fun v _ => v.val) (fun v hv => ?_) (fun v _ w _ h => Fin.ext h) (fun v hv => ?_)
  · rw [Finset.mem_filter] at hv ⊢
    exact ⟨Finset.mem_range.2 v.2, hv.2⟩
  · rw [Finset.mem_filter, Finset.mem_range] at hv
    exact ⟨⟨v, hv.1⟩, by simpa using hv.2, rfl⟩

theorem sum_two (f : Nat → Bool) (A B : Nat) : (∑ v : Fin V, if f v.val = true then A else B) = many V f * A + many V (fun v => !f v) * B := by
  rw [Finset.sum_ite, Finset.sum_const, Finset.sum_const, smul_eq_mul, smul_eq_mul]
  unfold many
  congr 3
  ext v
  simp

theorem num_search (u s : Nat → Bool) (r c M : Nat) : num V (fun l => acc u s l (r + 1) (some (c + 1))) (M + 1) =
    many V (fun v => u v && s v) * num V (fun l => acc u s l r none) M + many V (fun v => !u v) * num V (fun l => acc u s l (r + 1) (some c)) M := by
  rw [num_succ]
  have : ∀ v : Fin V, num V (fun l => acc u s (v.val :: l) (r + 1) (some (c + 1))) M =
      (if u v.val && s v.val then num V (fun l => acc u s l r none) M else 0) +
      if !u v.val then num V (fun l => acc u s l (r + 1) (some c)) M else 0 := by
    intro v
    cases hu : u v.val
    · rw [if_neg (by simp), if_pos (by simp), Nat.zero_add]
      congr 1
      funext l
      rw [acc, hu, if_neg (by simp)]
    · cases hs : s v.val
      · rw [if_neg (by simp), if_neg (by simp), Nat.zero_add, ← num_false (V := V) M]
        congr 1
        funext l
        rw [acc, hu, hs]
        rfl
      · rw [if_pos (by simp), if_neg (by simp)]
        refine Eq.trans ?_ (Nat.add_zero _).symm
        congr 1
        funext l
        rw [acc, hu, hs]
        rfl
  rw [Finset.sum_congr rfl fun v _ => this v, Finset.sum_add_distrib, sum_two (fun v => u v && s v), sum_two (fun v => !u v), Nat.mul_zero, Nat.mul_zero,
    Nat.add_zero, Nat.add_zero]

theorem num_first (u s : Nat → Bool) (r M : Nat) : num V (fun l => acc u s l (r + 1) none) (M + 1) = V * num V (fun l => acc u s l (r + 1) (some 31)) M := by
  rw [num_succ]
  simp only [acc]
  rw [Finset.sum_const, Finset.card_univ, Fintype.card_fin, smul_eq_mul]

theorem num_nil (u s : Nat → Bool) (r : Nat) (c : Option Nat) : num V (fun l => acc u s l (r + 1) c) 0 = 0 := by
  rw [← num_false (V := V) 0]
  unfold num
  congr 1

theorem num_zero (u s : Nat → Bool) (r M : Nat) : num V (fun l => acc u s l (r + 1) (some 0)) M = 0 := by
  rw [show (fun l => acc u s l (r + 1) (some 0)) = fun _ => false by funext l; cases l <;> rfl, num_false]

theorem num_done (u s : Nat → Bool) (c : Option Nat) (M : Nat) : num V (fun l => acc u s l 0 c) M = V ^ M := by
  rw [← num_true (V := V) M]
  congr 1
  funext l
  cases l <;> rfl

/-- Upper bound: each round is passed by at most the share of passing numbers among the usable ones. -/
theorem num_le (u s : Nat → Bool) : ∀ (M r : Nat), num V (fun l => acc u s l r none) M * many V u ^ r ≤ many V (fun v => u v && s v) ^ r * V ^ M ∧
    ∀ c, num V (fun l => acc u s l (r + 1) (some c)) M * many V u ^ (r + 1) ≤ many V (fun v => u v && s v) ^ (r + 1) * V ^ M := by
  intro M
  induction M with
  | zero =>
    intro r
    refine ⟨?_, fun c => by rw [num_nil, Nat.zero_mul]; exact Nat.zero_le _⟩
    cases r with
    | zero => rw [num_done]; simp
    | succ r => rw [num_nil, Nat.zero_mul]; exact Nat.zero_le _
  | succ M ih =>
    have hV := many_not (V := V) u
    intro r
    constructor
    · cases r with
      | zero => rw [num_done]; simp
      | succ r =>
        rw [num_first, Nat.pow_succ V M, Nat.mul_assoc, ← Nat.mul_assoc _ (V ^ M) V, Nat.mul_comm _ V]
        exact Nat.mul_le_mul_left _ ((ih r).2 31)
    · intro c
      cases c with
      | zero => rw [num_zero, Nat.zero_mul]; exact Nat.zero_le _
      | succ c =>
        rw [num_search]
        have h1 := Nat.mul_le_mul_left (many V (fun v => u v && s v) * many V u) (ih r).1
        have h2 := Nat.mul_le_mul_left (many V (fun v => !u v)) ((ih r).2 c)
        generalize many V (fun v => u v && s v) = P at *
        generalize many V (fun v => !u v) = Q at *
        generalize many V u = U at *
        generalize num V (fun l => acc u s l r none) M = A at *
        generalize num V (fun l => acc u s l (r + 1) (some c)) M = B at *
        subst hV
        calc (P * A + Q * B) * U ^ (r + 1) = P * U * (A * U ^ r) + Q * (B * U ^ (r + 1)) := by ring
          _ ≤ P * U * (P ^ r * (U + Q) ^ M) + Q * (P ^ (r + 1) * (U + Q) ^ M) := Nat.add_le_add h1 h2
          _ = P ^ (r + 1) * (U + Q) ^ (M + 1) := by ring

/-- Lower bound, if every usable number passes: a sequence is rejected only if in one of the rounds 31 numbers are useless. -/
theorem rej_le (u s : Nat → Bool) (hs : ∀ v < V, u v = true → s v = true) : ∀ (M r : Nat),
    (32 * r ≤ M → num V (fun l => !acc u s l r none) M * V ^ 31 ≤ r * many V (fun v => !u v) ^ 31 * V ^ M) ∧
    ∀ c ≤ 31, 32 * r + c ≤ M → num V (fun l => !acc u s l (r + 1) (some c)) M * V ^ 31 ≤
      (many V (fun v => !u v) ^ c * V ^ (31 - c) + r * many V (fun v => !u v) ^ 31) * V ^ M := by
  have hzero : ∀ M c, num V (fun l => !acc u s l 0 c) M = 0 := fun M c => by
    have := num_not (V := V) (fun l => acc u s l 0 c) M
    rw [num_done] at this
    omega
  have hlast : ∀ M r, num V (fun l => !acc u s l (r + 1) (some 0)) M = V ^ M := fun M r => by
    have := num_not (V := V) (fun l => acc u s l (r + 1) (some 0)) M
    rw [num_zero] at this
    omega
  have hP : many V (fun v => u v && s v) = many V u := by
    unfold many
    congr 1
    ext v
    simp only [Finset.mem_filter, Finset.mem_univ, true_and, Bool.and_eq_true]
    exact ⟨fun h => h.1, fun h => ⟨h, hs v.val v.2 h⟩⟩
  have hV := many_not (V := V) u
  intro M
  induction M with
  | zero =>
    intro r
    constructor
    · intro h
      obtain rfl : r = 0 := by omega
      rw [hzero, Nat.zero_mul]
      exact Nat.zero_le _
    · intro c hc h
      obtain rfl : c = 0 := by omega
      rw [hlast, Nat.pow_zero (many V _), Nat.one_mul, Nat.mul_comm]
      exact Nat.mul_le_mul_right _ (Nat.le_add_right _ _)
  | succ M ih =>
    intro r
    constructor
    · intro h
      cases r with
      | zero => rw [hzero, Nat.zero_mul]; exact Nat.zero_le _
      | succ r =>
        have h1 := num_not (V := V) (fun l => acc u s l (r + 1) none) (M + 1)
        have h2 := num_not (V := V) (fun l => acc u s l (r + 1) (some 31)) M
        rw [num_first] at h1
        have h3 : num V (fun l => !acc u s l (r + 1) none) (M + 1) = V * num V (fun l => !acc u s l (r + 1) (some 31)) M := by
          have : V ^ (M + 1) = V * V ^ M := by ring
          rw [this, ← h2, Nat.mul_add] at h1
          omega
        rw [h3]
        have h4 := Nat.mul_le_mul_left V ((ih r).2 31 (by omega) (by omega))
        rw [Nat.sub_self, Nat.pow_zero, Nat.mul_one] at h4
        calc _ = V * (num V (fun l => !acc u s l (r + 1) (some 31)) M * V ^ 31) := by ring
          _ ≤ _ := h4
          _ = _ := by ring
    · intro c hc h
      cases c with
      | zero =>
        rw [hlast, Nat.pow_zero, Nat.one_mul, Nat.mul_comm]
        exact Nat.mul_le_mul_right _ (Nat.le_add_right _ _)
      | succ c =>
        have h1 := num_not (V := V) (fun l => acc u s l (r + 1) (some (c + 1))) (M + 1)
        have h2 := num_not (V := V) (fun l => acc u s l r none) M
        have h3 := num_not (V := V) (fun l => acc u s l (r + 1) (some c)) M
        rw [num_search, hP] at h1
        have h4 := (ih r).1 (by omega)
        have h5 := (ih r).2 c (by omega) (by omega)
        generalize many V (fun v => !u v) = Q at *
        generalize many V u = U at *
        generalize num V (fun l => acc u s l r none) M = A at *
        generalize num V (fun l => acc u s l (r + 1) (some c)) M = B at *
        generalize num V (fun l => !acc u s l r none) M = A' at *
        generalize num V (fun l => !acc u s l (r + 1) (some c)) M = B' at *
        generalize num V (fun l => !acc u s l (r + 1) (some (c + 1))) (M + 1) = C at *
        have h6 : C = U * A' + Q * B' := by
          have : V ^ (M + 1) = U * V ^ M + Q * V ^ M := by rw [Nat.pow_succ, ← Nat.add_mul, hV, Nat.mul_comm]
          have e1 : U * V ^ M = U * A + U * A' := by rw [← h2, Nat.mul_add]
          have e2 : Q * V ^ M = Q * B + Q * B' := by rw [← h3, Nat.mul_add]
          omega
        have h7 : V ^ (31 - c) = V * V ^ (31 - (c + 1)) := by
          rw [show 31 - c = (31 - (c + 1)) + 1 by omega, Nat.pow_succ, Nat.mul_comm]
        rw [h7] at h5
        rw [h6]
        generalize V ^ (31 - (c + 1)) = Y at *
        have hU : U ≤ V := by omega
        calc (U * A' + Q * B') * V ^ 31 = U * (A' * V ^ 31) + Q * (B' * V ^ 31) := by ring
          _ ≤ U * (r * Q ^ 31 * V ^ M) + Q * ((Q ^ c * (V * Y) + r * Q ^ 31) * V ^ M) := Nat.add_le_add (Nat.mul_le_mul_left _ h4) (Nat.mul_le_mul_left _ h5)
          _ = (U + Q) * (r * Q ^ 31 * V ^ M) + Q ^ (c + 1) * Y * (V * V ^ M) := by ring
          _ = (Q ^ (c + 1) * Y + r * Q ^ 31) * V ^ (M + 1) := by rw [hV]; ring

end

end Verif.Bignum.Tape
